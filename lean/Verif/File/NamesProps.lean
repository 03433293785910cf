import Verif.File.NamesLemmas
/-! C44 and C45: names of manifests. -/
namespace Burl.File
open Burl

/-- A path of a file called `f`: absolute, with `f` after the last slash. -/
def AbsFileCalled (p f : Str) : Prop :=
  (∃ d, p = '/' :: d) ∧ (∃ d, p = d ++ '/' :: f) ∧ '/' ∉ f

/-- Letters of two strings are the same up to ASCII case. -/
def SameLetters (a b : Str) : Prop := a.map Char.toLower = b.map Char.toLower

theorem isAbs_iff {p : Str} : isAbs p = true ↔ ∃ d, p = '/' :: d := by
  cases p with
  | nil => simp [isAbs]
  | cons c cs =>
    simp only [isAbs, List.isPrefixOf_cons_cons, Bool.and_eq_true, beq_iff_eq, List.cons.injEq]
    constructor
    · rintro ⟨rfl, _⟩
      exact ⟨cs, rfl, rfl⟩
    · rintro ⟨d, rfl, _⟩
      exact ⟨rfl, rfl⟩

theorem absPath_clean {wd : Option Str} {p path : Str} (h : absPath wd p = .ok path) :
    CleanPath path := by
  unfold absPath at h
  split at h
  · cases h
    exact cleanAbs_clean _
  · cases wd with
    | none => cases h
    | some w =>
      simp only at h
      cases h
      split <;> exact cleanAbs_clean _

/-- What `nameFromPath` accepts. -/
theorem nameFromPath_ok {o : Opts} {path n : Str} (hext : o.ext = dotJson)
    (h : nameFromPath o path = .ok n) :
    n ++ ext (base path) = base path ∧ IsJsonExt (ext (base path)) ∧
      (o.name ≠ [] → base path = o.name ++ o.ext ∧ n = o.name) := by
  unfold nameFromPath at h
  split at h
  · cases h
  rename_i h1
  split at h
  · rename_i h2
    rw [hext] at h2
    cases h2
  split at h
  · cases h
  rename_i h3
  cases h
  have hj : IsJsonExt (ext (base path)) := by
    unfold IsJsonExt
    rw [← hext]
    exact Classical.not_not.1 h3
  refine ⟨stem_append_ext _, hj, fun hn => ?_⟩
  have hb : base path = o.name ++ o.ext := Classical.not_not.1 fun hh => h1 ⟨hn, hh⟩
  refine ⟨hb, ?_⟩
  rw [hb]
  exact stem_of (by rw [hext]; exact ext_of_json json_self)

theorem called_of_clean {path : Str} (hc : CleanPath path) (hj : IsJsonExt (ext (base path))) :
    AbsFileCalled path (base path) := by
  refine ⟨isAbs_iff.1 (clean_abs hc), ?_⟩
  rcases hc with rfl | ⟨d, f, rfl, hf, _⟩
  · exfalso
    revert hj
    unfold IsJsonExt
    decide
  · rw [clean_base hf]
    exact ⟨⟨d, rfl⟩, hf.2.1⟩

/-- A plain name with the extension may stand in a path. -/
theorem plain_good {n : Str} (hn : '/' ∉ n) : GoodPart (n ++ dotJson) := by
  have hlen : ∀ m : Nat, (n ++ dotJson).length = n.length + 5 := by
    intro _
    rw [List.length_append]
    rfl
  refine ⟨?_, ?_, ?_, ?_⟩
  · intro h
    have := congrArg List.length h
    rw [hlen 0] at this
    simp at this
  · intro h
    rcases List.mem_append.1 h with h | h
    · exact hn h
    · exact json_noslash json_self h
  · intro h
    have := congrArg List.length h
    rw [hlen 0] at this
    simp at this
  · intro h
    have := congrArg List.length h
    rw [hlen 0] at this
    simp at this

/-- The result of `AsAbsFileName` for a manifest in detail. -/
theorem asAbs_ok {wd : Option Str} {stat : Str → Stat} {file path name : Str} {o : Opts}
    (hext : o.ext = dotJson)
    (hplain : '/' ∉ if o.name ≠ [] then o.name else o.defaultName)
    (h : asAbsFileName wd stat file o = .ok (path, name)) :
    (file = ['-'] ∧ path = ['-'] ∧ name = if o.name ≠ [] then o.name else o.defaultName) ∨
      (∃ e, SameLetters e dotJson ∧ AbsFileCalled path (name ++ e) ∧
        (o.name ≠ [] → name = o.name ∧ e = dotJson)) := by
  unfold asAbsFileName at h
  simp only at h
  generalize hnm : (if o.name ≠ [] then o.name else o.defaultName) = nm at h hplain ⊢
  split at h
  · rename_i hf
    left
    cases h
    exact ⟨hf, hf, rfl⟩
  right
  cases habs : absPath wd file with
  | err e => rw [habs] at h; cases h
  | panic => rw [habs] at h; cases h
  | ok p =>
    rw [habs, Res.bind_ok] at h
    have hc := absPath_clean habs
    have hfile : (nameFromPath o p).bind (fun n => Res.ok (p, n)) = .ok (path, name) →
        ∃ e, SameLetters e dotJson ∧ AbsFileCalled path (name ++ e) ∧
          (o.name ≠ [] → name = o.name ∧ e = dotJson) := by
      intro h
      cases hn : nameFromPath o p with
      | err e => rw [hn] at h; cases h
      | panic => rw [hn] at h; cases h
      | ok n =>
        rw [hn, Res.bind_ok] at h
        cases h
        obtain ⟨h1, h2, h3⟩ := nameFromPath_ok hext hn
        refine ⟨ext (base path), h2, ?_, fun hne => ?_⟩
        · rw [h1]
          exact called_of_clean hc h2
        · obtain ⟨h4, h5⟩ := h3 hne
          refine ⟨h5, ?_⟩
          rw [h4, hext]
          exact ext_of_json json_self
    cases hs : stat p with
    | dir =>
      rw [hs] at h
      simp only at h
      split at h
      · rename_i hne
        cases h
        obtain ⟨d, hd, _⟩ := cleanAbs_join (p := p) (plain_good hplain)
        refine ⟨dotJson, rfl, ⟨isAbs_iff.1 (clean_abs (cleanAbs_clean _)), ⟨d, by rw [hext, hd]⟩,
          (plain_good hplain).2.1⟩, fun hn => ⟨?_, rfl⟩⟩
        rw [← hnm, if_pos hn]
      · cases h
    | nonDir => rw [hs] at h; exact hfile h
    | fail => rw [hs] at h; cases h
    | missing =>
      rw [hs] at h
      simp only at h
      split at h
      · exact hfile h
      · cases h

/-- **C44.** If `AsAbsFileName` succeeds for a manifest, the path is `-` or an absolute path whose
last part is the returned name followed by `.json` in some letter case. -/
theorem c44_agree {wd : Option Str} {stat : Str → Stat} {file path name : Str} {o : Opts}
    (hext : o.ext = dotJson)
    (hplain : '/' ∉ if o.name ≠ [] then o.name else o.defaultName)
    (h : asAbsFileName wd stat file o = .ok (path, name)) :
    (file = ['-'] ∧ path = ['-']) ∨
      ∃ e, SameLetters e dotJson ∧ AbsFileCalled path (name ++ e) := by
  rcases asAbs_ok hext hplain h with ⟨h1, h2, _⟩ | ⟨e, h1, h2, _⟩
  · exact .inl ⟨h1, h2⟩
  · exact .inr ⟨e, h1, h2⟩

/-- **C44.** An explicit plain name is the name returned and the file is called exactly by it. -/
theorem c44_name {wd : Option Str} {stat : Str → Stat} {file path name : Str} {o : Opts}
    (hext : o.ext = dotJson) (hname : o.name ≠ []) (hplain : '/' ∉ o.name)
    (h : asAbsFileName wd stat file o = .ok (path, name)) :
    name = o.name ∧ (path = ['-'] ∨ AbsFileCalled path (o.name ++ dotJson)) := by
  have hp : '/' ∉ if o.name ≠ [] then o.name else o.defaultName := by
    rw [if_pos hname]
    exact hplain
  rcases asAbs_ok hext hp h with ⟨_, h2, h3⟩ | ⟨e, _, h2, h3⟩
  · rw [if_pos hname] at h3
    exact ⟨h3, .inl h2⟩
  · obtain ⟨h4, h5⟩ := h3 hname
    subst h4 h5
    exact ⟨rfl, .inr h2⟩

/-! ## C45 -/

/-- A valid manifest, in words of its fields. -/
structure Valid (m : Manifest) : Prop where
  /-- exactly one of the lists is not empty -/
  lists : (m.allowedOrigins ≠ [] ∧ m.allowedExtensions = []) ∨
    (m.allowedOrigins = [] ∧ m.allowedExtensions ≠ [])
  name : m.name ≠ []
  /-- the executable path is absolute -/
  path : ∃ d, m.path = '/' :: d
  /-- the file is the standard output or is called by the name; slashes at the end of the path
  are ignored -/
  file : m.manifestPath = ['-'] ∨ ∃ d e n, m.manifestPath = d ++ m.name ++ e ++ List.replicate n '/' ∧
    (d = [] ∨ ∃ d', d = d' ++ ['/']) ∧ '/' ∉ m.name ∧ SameLetters e dotJson

theorem lists_iff {a b : List Str} : (((a.length == 0) == (b.length == 0)) = false) ↔
    (a ≠ [] ∧ b = []) ∨ (a = [] ∧ b ≠ []) := by
  cases a <;> cases b <;> simp

theorem sameLetters_json {e : Str} : SameLetters e dotJson ↔ IsJsonExt e := Iff.rfl

theorem file_iff {p n : Str} (hp : p ≠ []) (hn : n ≠ []) :
    (lower (ext (base p)) = dotJson ∧ stem (base p) = n) ↔
      ∃ d e k, p = d ++ n ++ e ++ List.replicate k '/' ∧
        (d = [] ∨ ∃ d', d = d' ++ ['/']) ∧ '/' ∉ n ∧ SameLetters e dotJson := by
  constructor
  · rintro ⟨h1, h2⟩
    have hb : base p ≠ ['/'] := by
      intro hh
      rw [hh] at h1
      revert h1
      decide
    obtain ⟨d, k, hd, hns, hpe⟩ := base_spec hp hb
    have h3 := stem_append_ext (base p)
    rw [h2] at h3
    refine ⟨d, ext (base p), k, ?_, hd, ?_, h1⟩
    · rw [List.append_assoc d, h3]
      exact hpe
    · intro hh
      exact hns (by rw [← h3]; exact List.mem_append_left _ hh)
  · rintro ⟨d, e, k, rfl, hd, hns, he⟩
    have hj := sameLetters_json.1 he
    have hb : base (d ++ n ++ e ++ List.replicate k '/') = n ++ e := by
      rw [List.append_assoc d]
      refine base_of hd ?_ ?_
      · intro hh
        rcases List.mem_append.1 hh with hh | hh
        · exact hns hh
        · exact json_noslash hj hh
      · exact fun hh => hn (List.append_eq_nil_iff.1 hh).1
    rw [hb, ext_of_json hj]
    exact ⟨hj, stem_of (ext_of_json hj)⟩

/-- **C45.** `Init` succeeds exactly on valid manifests. -/
theorem c45_iff (m : Manifest) : m.init.1 = true ↔ Valid m := by
  unfold Manifest.init
  by_cases h1 : ((m.allowedOrigins.length == 0) == (m.allowedExtensions.length == 0)) = true
  · rw [if_pos h1]
    refine ⟨nofun, fun hv => ?_⟩
    rw [lists_iff.2 hv.lists] at h1
    cases h1
  rw [if_neg h1]
  have hl := lists_iff.1 (Bool.eq_false_iff.2 h1)
  by_cases h2 : m.name = []
  · rw [if_pos h2]
    exact ⟨nofun, fun hv => absurd h2 hv.name⟩
  rw [if_neg h2]
  by_cases h3 : m.path = [] ∨ isAbs m.path = false
  · rw [if_pos h3]
    refine ⟨nofun, fun hv => ?_⟩
    have := isAbs_iff.2 hv.path
    rcases h3 with h3 | h3
    · rw [h3] at this
      cases this
    · rw [h3] at this
      cases this
  rw [if_neg h3]
  have hp : ∃ d, m.path = '/' :: d := isAbs_iff.1 (by
    cases hh : isAbs m.path with
    | true => rfl
    | false => exact absurd (.inr hh) h3)
  by_cases h4 : m.manifestPath = []
  · rw [if_pos h4]
    refine ⟨nofun, fun hv => ?_⟩
    rcases hv.file with h5 | ⟨d, e, n, h5, _, _, he⟩
    · rw [h4] at h5
      cases h5
    · rw [h4] at h5
      have := List.append_eq_nil_iff.1 h5.symm
      exact absurd (List.append_eq_nil_iff.1 this.1).2 (json_ne (sameLetters_json.1 he))
  rw [if_neg h4]
  by_cases hd : m.manifestPath = ['-']
  · rw [if_neg (fun hh => hh.1 hd), if_neg (fun hh => hh.1 hd)]
    exact ⟨fun _ => ⟨hl, h2, hp, .inl hd⟩, fun _ => rfl⟩
  by_cases h5 : lower (ext (base m.manifestPath)) = dotJson
  · rw [if_neg (fun hh => hh.2 h5)]
    by_cases h6 : stem (base m.manifestPath) = m.name
    · rw [if_neg (fun hh => hh.2 h6)]
      exact ⟨fun _ => ⟨hl, h2, hp, .inr ((file_iff h4 h2).1 ⟨h5, h6⟩)⟩, fun _ => rfl⟩
    · rw [if_pos ⟨hd, h6⟩]
      refine ⟨nofun, fun hv => ?_⟩
      rcases hv.file with h7 | h7
      · exact absurd h7 hd
      · exact absurd ((file_iff h4 h2).2 h7).2 h6
  · rw [if_pos ⟨hd, h5⟩]
    refine ⟨nofun, fun hv => ?_⟩
    rcases hv.file with h7 | h7
    · exact absurd h7 hd
    · exact absurd ((file_iff h4 h2).2 h7).1 h5

/-- **C45.** On success the type is `stdio` and nothing else is changed; on failure nothing is. -/
theorem c45_effect (m : Manifest) :
    (m.init.1 = true → m.init.2 = { m with type := "stdio".toList }) ∧
      (m.init.1 = false → m.init.2 = m) := by
  unfold Manifest.init
  constructor
  · intro h
    repeat' split at h
    all_goals first | cases h | skip
    repeat' split
    all_goals first | contradiction | rfl
  · intro h
    repeat' split at h
    all_goals first | (cases h; done) | skip
    all_goals
      repeat' split
      all_goals first | contradiction | rfl

/-- **C44 (part).** A manifest with the returned name and path is accepted by `Init` if the name
is not empty, the executable path is absolute and a list of add-ons is there. -/
theorem c44_accepted_partial {wd : Option Str} {stat : Str → Stat} {file : Str} {o : Opts}
    {m : Manifest} (hext : o.ext = dotJson)
    (hplain : '/' ∉ if o.name ≠ [] then o.name else o.defaultName)
    (h : asAbsFileName wd stat file o = .ok (m.manifestPath, m.name)) (hne : m.name ≠ [])
    (hpath : ∃ d, m.path = '/' :: d)
    (hlists : (m.allowedOrigins ≠ [] ∧ m.allowedExtensions = []) ∨
      (m.allowedOrigins = [] ∧ m.allowedExtensions ≠ [])) : m.init.1 = true := by
  refine (c45_iff m).2 ⟨hlists, hne, hpath, ?_⟩
  rcases asAbs_ok hext hplain h with ⟨_, h1, _⟩ | ⟨e, h1, ⟨_, ⟨d, h2⟩, h3⟩, _⟩
  · exact .inl h1
  · refine .inr ⟨d ++ ['/'], e, 0, ?_, .inr ⟨d, rfl⟩, fun hh => h3 (List.mem_append_left _ hh), h1⟩
    rw [h2]
    simp

/-- **C44.** With an explicit plain name the manifest is always accepted. -/
theorem c44_accepted_named {wd : Option Str} {stat : Str → Stat} {file : Str} {o : Opts}
    {m : Manifest} (hext : o.ext = dotJson) (hname : o.name ≠ []) (hplain : '/' ∉ o.name)
    (h : asAbsFileName wd stat file o = .ok (m.manifestPath, m.name))
    (hpath : ∃ d, m.path = '/' :: d)
    (hlists : (m.allowedOrigins ≠ [] ∧ m.allowedExtensions = []) ∨
      (m.allowedOrigins = [] ∧ m.allowedExtensions ≠ [])) : m.init.1 = true := by
  refine c44_accepted_partial hext (by rw [if_pos hname]; exact hplain) h ?_ hpath hlists
  rw [(c44_name hext hname hplain h).1]
  exact hname

/-- **C44 fails.** For a file called `.json` the call succeeds with an empty name, and no manifest
with this name is accepted. -/
theorem c44_violation {stat : Str → Stat} {dflt : Str}
    (h : stat "/d/.json".toList = .nonDir) :
    asAbsFileName none stat "/d/.json".toList ⟨[], dflt, dotJson⟩ =
        .ok ("/d/.json".toList, []) ∧
      ∀ m : Manifest, m.name = [] → m.init.1 = false := by
  constructor
  · have habs : absPath none "/d/.json".toList = .ok "/d/.json".toList := by decide +kernel
    unfold asAbsFileName
    simp only
    rw [if_neg (by decide), habs, Res.bind_ok, h]
    simp only
    have hn : nameFromPath ⟨[], dflt, dotJson⟩ "/d/.json".toList = .ok [] := by
      unfold nameFromPath
      simp only
      rw [if_neg (fun hh => hh.1 rfl), if_neg (by decide), if_neg (by decide +kernel)]
      decide +kernel
    rw [hn, Res.bind_ok]
  · intro m hm
    cases hi : m.init.1 with
    | false => rfl
    | true => exact absurd hm ((c45_iff m).1 hi).name

/-! ## Examples -/

/-- A directory, with the default name. -/
example : asAbsFileName (some "/home".toList)
    (fun p => if p = "/home/d".toList then .dir else .missing) "./x/../d/".toList
    ⟨[], "burl".toList, dotJson⟩ = .ok ("/home/d/burl.json".toList, "burl".toList) := by
  decide +kernel

/-- A new file, with a name of its own. -/
example : asAbsFileName (some "/home".toList)
    (fun p => if p = "/home/d".toList then .dir else .missing) "d/my.Json".toList
    ⟨[], "burl".toList, dotJson⟩ = .ok ("/home/d/my.Json".toList, "my".toList) := by
  decide +kernel

/-- A name with a slash inside is not refused by `AsAbsFileName` when a directory is given. -/
example : asAbsFileName none (fun _ => .dir) "/d".toList
    ⟨"a/b".toList, [], dotJson⟩ = .ok ("/d/a/b.json".toList, "a/b".toList) := by
  decide +kernel

/-- An accepted manifest. -/
example : (Manifest.init ⟨"my".toList, [], "/usr/bin/b".toList, [], [], ["id".toList],
    "/home/d/my.Json".toList⟩).1 = true := by decide +kernel

end Burl.File
