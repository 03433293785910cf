import Verif.Args.InstallProps
/-! C54: what generated manifests refer to. -/
namespace Burl.Args
open Burl Burl.File

/-- All calls succeeded. -/
def AllOk (env : Env) (w : List Write) : Prop :=
  ∀ pre x post, w = pre ++ x :: post → env.write pre x = true

/-- All calls before the last one succeeded, and the last one failed. -/
def LastFails (env : Env) (w : List Write) : Prop :=
  ∃ pre x, w = pre ++ [x] ∧ AllOk env pre ∧ env.write pre x = false

theorem allOk_nil (env : Env) : AllOk env [] := by
  intro pre x post h
  cases pre <;> cases h

theorem allOk_snoc {env : Env} {w : List Write} {x : Write} (h : AllOk env w)
    (hx : env.write w x = true) : AllOk env (w ++ [x]) := by
  intro pre y post he
  rcases List.eq_nil_or_concat post with rfl | ⟨post', z, rfl⟩
  · have := List.append_inj' he rfl
    cases this.2
    rw [← this.1]
    exact hx
  · have he' : w ++ [x] = (pre ++ y :: post') ++ [z] := by simp [he]
    have := List.append_inj' he' rfl
    exact h pre y post' this.1

/-- What is known after a part: it ended well and so did all its calls, or not. -/
def Sound (env : Env) {α : Type} (o : Out α) : Prop :=
  (∀ a, o.1 = .ok a → AllOk env o.2) ∧ (AllOk env o.2 ∨ (LastFails env o.2 ∧ o.1 = .err ()))

theorem sound_write {env : Env} {w : List Write} (x : Write) (h : AllOk env w) :
    Sound env (env.writeFile w x) := by
  unfold Env.writeFile
  cases hx : env.write w x with
  | true => exact ⟨fun _ _ => allOk_snoc h hx, .inl (allOk_snoc h hx)⟩
  | false => exact ⟨nofun, .inr ⟨⟨w, x, rfl, h, hx⟩, rfl⟩⟩

theorem sound_wrapper (env : Env) (custom : Bool) (path exe : Str) (c : Config) :
    Sound env (env.wrapper custom path exe c) := by
  rcases wrapper_cases env custom path exe c with h | ⟨h, _⟩ | ⟨_, _, _, _, _, _, h⟩
  · rw [h]
    exact ⟨nofun, .inl (allOk_nil env)⟩
  · rw [h]
    exact ⟨fun _ _ => allOk_nil env, .inl (allOk_nil env)⟩
  · rw [h]
    exact sound_write _ (allOk_nil env)

theorem sound_manifest (names : Names) (env : Env) {w : List Write} (c : Config) (file exe : Str)
    (os es : List Str) (hw : AllOk env w) :
    Sound env (env.manifest names w c file exe os es) := by
  rcases manifest_cases names env w c file exe os es with ⟨h, _⟩ | ⟨r, h, hr, _⟩ | ⟨_, _, _, _, h⟩
  · rw [h]
    exact ⟨fun _ _ => hw, .inl hw⟩
  · rw [h]
    refine ⟨fun a ha => ?_, .inl hw⟩
    cases a
    exact absurd ha hr
  · rw [h]
    exact sound_write _ hw

theorem sound_bind {env : Env} {α β : Type} {o : Out α} {f : α → List Write → Out β}
    (h : Sound env o) (hf : ∀ a, o.1 = .ok a → Sound env (f a o.2)) : Sound env (o.bind f) := by
  obtain ⟨r, w⟩ := o
  cases r with
  | ok a => exact hf a rfl
  | err e =>
    refine ⟨fun a ha => (nomatch ha), ?_⟩
    exact h.2.imp id fun hh => ⟨hh.1, rfl⟩
  | panic =>
    refine ⟨fun a ha => (nomatch ha), ?_⟩
    exact h.2.imp id fun hh => ⟨hh.1, nomatch hh.2⟩

theorem sound_install (names : Names) (env : Env) (c : Config) :
    Sound env (install names env c) := by
  rcases install_cases names env c with ⟨h, _⟩ | ⟨r, h, hr, _⟩ | ⟨_, exe, c', path, _, _, h⟩
  · rw [h]
    exact ⟨fun _ _ => allOk_nil env, .inl (allOk_nil env)⟩
  · rw [h]
    exact ⟨fun a ha => absurd ha (hr a), .inl (allOk_nil env)⟩
  · rw [h]
    unfold rest
    refine sound_bind (sound_wrapper ..) fun a ha => ?_
    have h1 := (sound_wrapper env c.customized path exe c').1 a ha
    refine sound_bind (sound_manifest names env c _ _ _ _ h1) fun b hb => ?_
    have h2 := (sound_manifest names env c _ _ _ _ h1).1 b hb
    refine sound_bind (sound_manifest names env c _ _ _ _ h2) fun d hd => ?_
    have h3 := (sound_manifest names env c _ _ _ _ h2).1 d hd
    exact ⟨fun _ _ => h3, .inl h3⟩

/-- **C54.** Success is reported only if all the files were written.  After a failed call nothing
more is written and an error is returned. -/
theorem c54_stops (names : Names) (env : Env) (c : Config) :
    ((install names env c).1 = .ok true → AllOk env (install names env c).2) ∧
      ∀ pre x post, (install names env c).2 = pre ++ x :: post → env.write pre x = false →
        post = [] ∧ (install names env c).1 = .err () := by
  have hs := sound_install names env c
  refine ⟨fun h => hs.1 true h, ?_⟩
  intro pre x post he hx
  rcases hs.2 with h | ⟨⟨pre', y, he', hok, hy⟩, h2⟩
  · rw [h pre x post he] at hx
    cases hx
  · refine ⟨?_, h2⟩
    rw [he'] at he
    rcases List.eq_nil_or_concat post with rfl | ⟨post', z, rfl⟩
    · rfl
    · have he2 : pre' ++ [y] = (pre ++ x :: post') ++ [z] := by simp [he]
      have := List.append_inj' he2 rfl
      rw [hok pre x post' this.1] at hx
      cases hx

theorem asAbs_plain {wd : Option Str} {stat : Str → Stat} {file : Str} {r : Str × Str}
    (hf : file ≠ dash) (h : asAbsFileName wd stat file ⟨[], [], []⟩ = .ok r) :
    CleanPath r.1 := by
  unfold asAbsFileName at h
  simp only at h
  rw [if_neg (show ¬ file = ['-'] from hf)] at h
  cases hp : absPath wd file with
  | err e => rw [hp] at h; cases h
  | panic => rw [hp] at h; cases h
  | ok path =>
    rw [hp, Res.bind_ok] at h
    have hc := absPath_clean hp
    have hn : ∀ n, ((nameFromPath ⟨[], [], []⟩ path).bind fun n => .ok (path, n)) = Res.ok n →
        CleanPath n.1 := by
      intro n hh
      cases hq : nameFromPath ⟨[], [], []⟩ path with
      | err e => rw [hq] at hh; cases hh
      | panic => rw [hq] at hh; cases hh
      | ok m =>
        rw [hq] at hh
        cases hh
        exact hc
    split at h
    · split at h
      · rename_i hne
        exact absurd rfl hne
      · cases h
    · exact hn _ h
    · cases h
    · split at h
      · exact hn _ h
      · cases h

theorem clean_not {p : Str} (h : CleanPath p) : p ≠ [] ∧ p ≠ dash := by
  obtain ⟨d, hd⟩ := isAbs_iff.1 (clean_abs h)
  rw [hd]
  exact ⟨nofun, fun hh => by cases hh⟩

/-- The path of the wrapper is as requested or absolute. -/
theorem wrapperPath_cases {env : Env} {c : Config} {path : Str} (h : env.wrapperPath c = .ok path) :
    (c.wrapper = [] ∧ path = []) ∨ (c.wrapper = dash ∧ path = dash) ∨
      (c.wrapper ≠ [] ∧ c.wrapper ≠ dash ∧ CleanPath path) := by
  unfold Env.wrapperPath at h
  by_cases h1 : c.wrapper = []
  · rw [if_neg (fun hh => hh.1 h1)] at h
    cases h
    exact .inl ⟨h1, h1⟩
  · by_cases h2 : c.wrapper = dash
    · rw [if_neg (fun hh => hh.2 h2)] at h
      cases h
      exact .inr (.inl ⟨h2, h2⟩)
    · rw [if_pos ⟨h1, h2⟩] at h
      cases ha : asAbsFileName env.wd (env.stat []) c.wrapper ⟨[], [], []⟩ with
      | err e => rw [ha] at h; cases h
      | panic => rw [ha] at h; cases h
      | ok r =>
        rw [ha] at h
        cases h
        exact .inr (.inr ⟨h1, h2, asAbs_plain h2 ha⟩)

/-- Both manifests and what they are written with. -/
def IsRequested (names : Names) (c : Config) (exe : Str) (x : Write) (m : Manifest) : Prop :=
  (Written names c c.firefox exe [] c.mozillaIds.values x m ∧ c.firefox ≠ []) ∨
  (Written names c c.chrome exe (c.chromeIds.values.map origin) [] x m ∧ c.chrome ≠ [])

theorem manifest_writes (names : Names) (env : Env) (w : List Write) (c : Config)
    (file exe : Str) (os es : List Str) :
    ∃ t, (env.manifest names w c file exe os es).2 = w ++ t ∧
      (∀ x ∈ t, ∃ m, Written names c file exe os es x m ∧ file ≠ []) ∧
      ((env.manifest names w c file exe os es).1 = .ok () → file ≠ [] → t ≠ []) := by
  rcases manifest_cases names env w c file exe os es with
    ⟨h, hf⟩ | ⟨r, h, hr, _⟩ | ⟨x, m, hw, hf, h⟩
  · rw [h]
    exact ⟨[], by simp, nofun, fun _ hh => absurd hf hh⟩
  · rw [h]
    exact ⟨[], by simp, nofun, fun hh => absurd hh hr⟩
  · rw [h]
    refine ⟨[x], rfl, ?_, fun _ _ => by simp⟩
    intro y hy
    rw [List.mem_singleton] at hy
    subst hy
    exact ⟨m, hw, hf⟩

/-- All the calls: first the wrapper, then the manifests. -/
theorem rest_writes (names : Names) (env : Env) (c c' : Config) (exe path : Str) :
    ∃ t, (rest names env c c' exe path).2 = (env.wrapper c.customized path exe c').2 ++ t ∧
      (∀ x ∈ t, (env.wrapper c.customized path exe c').1 = .ok () ∧
        ∃ m, IsRequested names c (if path ≠ [] ∧ path ≠ dash then path else exe) x m) ∧
      ((rest names env c c' exe path).1 = .ok true →
        (env.wrapper c.customized path exe c').1 = .ok () ∧
        (c.firefox ≠ [] → ∃ x ∈ t, ∃ m, Written names c c.firefox
          (if path ≠ [] ∧ path ≠ dash then path else exe) [] c.mozillaIds.values x m) ∧
        (c.chrome ≠ [] → ∃ x ∈ t, ∃ m, Written names c c.chrome
          (if path ≠ [] ∧ path ≠ dash then path else exe) (c.chromeIds.values.map origin) [] x m)) := by
  unfold rest
  generalize (if path ≠ [] ∧ path ≠ dash then path else exe) = target
  generalize env.wrapper c.customized path exe c' = o
  obtain ⟨r, w⟩ := o
  cases r with
  | err e => exact ⟨[], (List.append_nil w).symm, nofun, nofun⟩
  | panic => exact ⟨[], (List.append_nil w).symm, nofun, nofun⟩
  | ok u =>
    cases u
    rw [Out.bind_ok]
    obtain ⟨t1, h1, h2, h3⟩ := manifest_writes names env w c c.firefox target [] c.mozillaIds.values
    generalize ho1 : env.manifest names w c c.firefox target [] c.mozillaIds.values = o1 at h1 h3
    obtain ⟨r1, w1⟩ := o1
    simp only at h1 h3
    subst h1
    have hp1 : ∀ x ∈ t1, ∃ m, IsRequested names c target x m := by
      intro x hx
      obtain ⟨m, hm⟩ := h2 x hx
      exact ⟨m, .inl hm⟩
    have hf1 : r1 = .ok () → c.firefox ≠ [] →
        ∃ x ∈ t1, ∃ m, Written names c c.firefox target [] c.mozillaIds.values x m := by
      intro hr hne
      have := h3 hr hne
      cases t1 with
      | nil => exact absurd rfl this
      | cons x t1 =>
        obtain ⟨m, hm⟩ := h2 x List.mem_cons_self
        exact ⟨x, List.mem_cons_self, m, hm.1⟩
    cases r1 with
    | err e => exact ⟨t1, rfl, fun x hx => ⟨rfl, hp1 x hx⟩, nofun⟩
    | panic => exact ⟨t1, rfl, fun x hx => ⟨rfl, hp1 x hx⟩, nofun⟩
    | ok u =>
      cases u
      rw [Out.bind_ok]
      obtain ⟨t2, g1, g2, g3⟩ := manifest_writes names env (w ++ t1) c c.chrome target
        (c.chromeIds.values.map origin) []
      generalize ho2 : env.manifest names (w ++ t1) c c.chrome target
        (c.chromeIds.values.map origin) [] = o2 at g1 g3
      obtain ⟨r2, w2⟩ := o2
      simp only at g1 g3
      subst g1
      have hp2 : ∀ x ∈ t1 ++ t2, ∃ m, IsRequested names c target x m := by
        intro x hx
        rcases List.mem_append.1 hx with hx | hx
        · exact hp1 x hx
        · obtain ⟨m, hm⟩ := g2 x hx
          exact ⟨m, .inr hm⟩
      cases r2 with
      | err e =>
        exact ⟨t1 ++ t2, List.append_assoc .., fun x hx => ⟨rfl, hp2 x hx⟩, nofun⟩
      | panic =>
        exact ⟨t1 ++ t2, List.append_assoc .., fun x hx => ⟨rfl, hp2 x hx⟩, nofun⟩
      | ok u =>
        cases u
        refine ⟨t1 ++ t2, List.append_assoc .., fun x hx => ⟨rfl, hp2 x hx⟩, fun _ =>
          ⟨rfl, fun hne => ?_, fun hne => ?_⟩⟩
        · obtain ⟨x, hx, hm⟩ := hf1 rfl hne
          exact ⟨x, List.mem_append_left _ hx, hm⟩
        · have := g3 rfl hne
          cases t2 with
          | nil => exact absurd rfl this
          | cons x t2 =>
            obtain ⟨m, hm⟩ := g2 x List.mem_cons_self
            exact ⟨x, List.mem_append_right _ List.mem_cons_self, m, hm.1⟩

/-- **C54.** The program named in a manifest is the backend itself when no option was given to it,
otherwise it is the wrapper with the options, which has been written before. -/
theorem c54_program {names : Names} {env : Env} {c : Config} {x : Write} {m : Manifest}
    (hx : x ∈ (install names env c).2) (hm : x.doc = .manifest m) :
    ∃ exe c', c.fixPaths env.exe (absOf env) env.real = .ok (exe, c') ∧
      ((m.path = exe ∧ ¬ CustomOptions c) ∨
        ∃ y post e args, (install names env c).2 = y :: post ∧ x ∈ post ∧ env.write [] y = true ∧
          y.path = m.path ∧ y.perm = 493 ∧ env.quote exe = some e ∧
          asShellCommand env.quote c' = some args ∧ y.doc = .wrapper (wrapperText e args)) := by
  rcases install_cases names env c with ⟨h, _⟩ | ⟨r, h, _⟩ | ⟨hcons, exe, c', path, hf, hp, h⟩
  · rw [h] at hx; cases hx
  · rw [h] at hx; cases hx
  refine ⟨exe, c', hf, ?_⟩
  rw [h] at hx ⊢
  obtain ⟨t, h1, h2, _⟩ := rest_writes names env c c' exe path
  rw [h1] at hx ⊢
  have hcust : c.customized = false → ¬ CustomOptions c := by
    intro hc hh
    rw [customized_iff.2 hh] at hc
    cases hc
  rcases List.mem_append.1 hx with hx | hx
  · exfalso
    rcases wrapper_cases env c.customized path exe c' with h3 | ⟨h3, _⟩ | ⟨e, args, _, _, _, _, h3⟩
    all_goals rw [h3] at hx
    · cases hx
    · cases hx
    · unfold Env.writeFile at hx
      simp only [List.nil_append, List.mem_singleton] at hx
      subst hx
      cases hm
  · obtain ⟨hok, m', hr⟩ := h2 x hx
    have hmm : m' = m ∧ m.path = (if path ≠ [] ∧ path ≠ dash then path else exe) ∧
        c.wrapper ≠ dash := by
      rcases hr with ⟨hw, hne⟩ | ⟨hw, hne⟩
      · have := hw.doc
        rw [hm] at this
        cases this
        exact ⟨rfl, hw.program, fun hd => hne (hcons.wrapper hd).1⟩
      · have := hw.doc
        rw [hm] at this
        cases this
        exact ⟨rfl, hw.program, fun hd => hne (hcons.wrapper hd).2⟩
    obtain ⟨rfl, hmp, hnd⟩ := hmm
    rcases wrapper_cases env c.customized path exe c' with
      h3 | ⟨h3, h4, h5⟩ | ⟨e, args, hq, ha, hne, hcu, h3⟩
    · rw [h3] at hok; cases hok
    · refine .inl ⟨?_, hcust h4⟩
      rw [hmp]
      split
      · rename_i hh
        exact h5.elim (fun h => absurd h hh.1) id
      · rfl
    · right
      have hpath : path ≠ [] ∧ path ≠ dash := by
        rcases wrapperPath_cases hp with ⟨g1, g2⟩ | ⟨g1, _⟩ | ⟨_, _, g3⟩
        · have := hcu g2
          rw [hcons.custom g1] at this
          cases this
        · exact absurd g1 hnd
        · exact clean_not g3
      rw [if_pos hpath] at hmp
      rw [h3] at hok ⊢
      refine ⟨_, t, e, args, rfl, hx, ?_, hmp.symm, rfl, hq, ha, rfl⟩
      unfold Env.writeFile at hok
      simp only at hok
      split at hok
      · rename_i hw
        exact hw
      · cases hok

/-- **C54.** Without options the backend has the same settings as with the command line from which
the manifest was made. -/
theorem c54_settings {d : Defaults} {args : List Str} {c : Config}
    (hcmd : commandLine d args = .ok c) (hc : ¬ CustomOptions c) :
    ∃ c1, commandLine d [] = .ok c1 ∧ SameSettings c1 c ∧ StartsBackend c1 := by
  refine ⟨.fresh d, rfl, ?_, rfl, rfl, rfl, rfl, rfl⟩
  unfold commandLine at hcmd
  cases hp : parse (.fresh d) args with
  | err _ => rw [hp] at hcmd; cases hcmd
  | panic => rw [hp] at hcmd; cases hcmd
  | ok r =>
    rw [hp] at hcmd
    have hinv := parse_inv _ args _ r.1 r.2 (Nat.le_refl _) (inv_new _) (inv_new _) hp
    have he : r.1.emacsArgs = c.emacsArgs ∧ r.1.scheme = c.scheme := by
      cases hcmd
      exact ⟨rfl, rfl⟩
    rw [he.1, he.2] at hinv
    unfold CustomOptions at hc
    have h1 : c.logFile = dash := Classical.not_not.1 fun h => hc (.inl h)
    have h2 : c.sources = [] := Classical.not_not.1 fun h => hc (.inr (.inl h))
    have h3 : c.disableLinkSet = false := by
      cases hd : c.disableLinkSet with
      | false => rfl
      | true => exact absurd (.inr (.inr (.inl hd))) hc
    have h4 : ¬ c.scheme.isModified = true := fun h => hc (.inr (.inr (.inr (.inl h))))
    have h5 : ¬ c.emacsArgs.isModified = true := fun h => hc (.inr (.inr (.inr (.inr (.inl h)))))
    have h6 : c.emacsCommand = emacsclient :=
      Classical.not_not.1 fun h => hc (.inr (.inr (.inr (.inr (.inr h)))))
    have g1 := new_of_unmodified hinv.1 h5
    have g2 := new_of_unmodified hinv.2 h4
    refine ⟨h1.symm, h3.symm, h6.symm, ?_, ?_, h2.symm, ?_⟩
    · rw [g1]; rfl
    · rw [g2]; rfl
    · rw [g2]; rfl

/-- Origins for identifiers of Chrome extensions, in the same order: an identifier may be given as an
origin already. -/
inductive Origins : List Str → List Str → Prop where
  | nil : Origins [] []
  | id {id ids os} : (¬∃ key, id = "chrome-extension://".toList ++ key) → Origins ids os →
      Origins (id :: ids) (("chrome-extension://".toList ++ id ++ "/".toList) :: os)
  | full {key ids os} : Origins ids os →
      Origins (("chrome-extension://".toList ++ key) :: ids)
        (("chrome-extension://".toList ++ key) :: os)

theorem origins_of (ids : List Str) : Origins ids (ids.map origin) := by
  induction ids with
  | nil => exact .nil
  | cons id ids ih =>
    rw [List.map_cons]
    unfold origin
    by_cases h : originPrefix.isPrefixOf id = true
    · rw [if_pos h]
      obtain ⟨key, rfl⟩ := List.isPrefixOf_iff_prefix.mp h
      exact .full ih
    · rw [if_neg h]
      refine .id ?_ ih
      rintro ⟨key, rfl⟩
      exact h (List.isPrefixOf_iff_prefix.mpr ⟨key, rfl⟩)

/-- What a manifest has to look like. -/
structure GoodManifest (names : Names) (c : Config) (x : Write) (m : Manifest) : Prop where
  /-- it is written where it says, with the permissions of a data file -/
  path : x.path = m.manifestPath
  perm : x.perm = 420
  force : x.force = c.force
  type : m.type = "stdio".toList
  description : m.description = names.description
  /-- it has the requested name -/
  name : c.backendName ≠ [] → '/' ∉ c.backendName → m.name = c.backendName
  /-- it satisfies the requirements on manifests (C45) -/
  valid : Valid m
  /-- it allows the extensions of one of the browsers and nothing else -/
  allowed : (m.allowedExtensions = c.mozillaIds.values ∧ m.allowedOrigins = [] ∧ c.firefox ≠ []) ∨
    (m.allowedExtensions = [] ∧ Origins c.chromeIds.values m.allowedOrigins ∧ c.chrome ≠ [])

theorem good_of_requested {names : Names} {c : Config} {exe : Str} {x : Write} {m : Manifest}
    (h : IsRequested names c exe x m) : GoodManifest names c x m := by
  rcases h with ⟨h, hne⟩ | ⟨h, hne⟩
  · exact ⟨h.path, h.perm, h.force, h.type, h.description, h.name, h.valid, .inl ⟨h.exts, h.origins, hne⟩⟩
  · exact ⟨h.path, h.perm, h.force, h.type, h.description, h.name, h.valid, .inr ⟨h.exts, h.origins ▸ origins_of _, hne⟩⟩

/-- **C54.** Every manifest that is written is well-formed and allows exactly the requested
extensions. -/
theorem c54_manifest {names : Names} {env : Env} {c : Config} {x : Write} {m : Manifest}
    (hx : x ∈ (install names env c).2) (hm : x.doc = .manifest m) : GoodManifest names c x m := by
  rcases install_cases names env c with ⟨h, _⟩ | ⟨r, h, _⟩ | ⟨_, exe, c', path, hf, hp, h⟩
  · rw [h] at hx; cases hx
  · rw [h] at hx; cases hx
  rw [h] at hx
  obtain ⟨t, h1, h2, _⟩ := rest_writes names env c c' exe path
  rw [h1] at hx
  rcases List.mem_append.1 hx with hx | hx
  · exfalso
    rcases wrapper_cases env c.customized path exe c' with h3 | ⟨h3, _⟩ | ⟨e, args, _, _, _, _, h3⟩
    all_goals rw [h3] at hx
    · cases hx
    · cases hx
    · unfold Env.writeFile at hx
      simp only [List.nil_append, List.mem_singleton] at hx
      subst hx
      cases hm
  · obtain ⟨_, m', hr⟩ := h2 x hx
    have : m' = m := by
      rcases hr with ⟨hw, _⟩ | ⟨hw, _⟩
      all_goals
        have := hw.doc
        rw [hm] at this
        cases this
        rfl
    subst this
    exact good_of_requested hr

/-- **C54.** When success is reported, each requested file has been written; the only exception is
a wrapper at the path of the backend, which is not needed. -/
theorem c54_complete {names : Names} {env : Env} {c : Config}
    (h : (install names env c).1 = .ok true) :
    (c.firefox ≠ [] → ∃ x ∈ (install names env c).2, ∃ m, x.doc = .manifest m ∧
      m.allowedExtensions = c.mozillaIds.values) ∧
    (c.chrome ≠ [] → ∃ x ∈ (install names env c).2, ∃ m, x.doc = .manifest m ∧
      Origins c.chromeIds.values m.allowedOrigins) ∧
    (c.wrapper ≠ [] → (∃ x ∈ (install names env c).2, ∃ t, x.doc = .wrapper t) ∨
      (¬ CustomOptions c ∧ ∃ path, env.wrapperPath c = .ok path ∧ env.exe = .ok path)) := by
  rcases install_cases names env c with ⟨h1, _⟩ | ⟨r, h1, hr, _⟩ | ⟨_, exe, c', path, hf, hp, h1⟩
  · rw [h1] at h; cases h
  · rw [h1] at h; exact absurd h (hr _)
  rw [h1] at h ⊢
  obtain ⟨t, h2, _, h3⟩ := rest_writes names env c c' exe path
  obtain ⟨h4, h5, h6⟩ := h3 h
  rw [h2]
  refine ⟨fun hne => ?_, fun hne => ?_, fun hne => ?_⟩
  · obtain ⟨x, hx, m, hm⟩ := h5 hne
    exact ⟨x, List.mem_append_right _ hx, m, hm.doc, hm.exts⟩
  · obtain ⟨x, hx, m, hm⟩ := h6 hne
    exact ⟨x, List.mem_append_right _ hx, m, hm.doc, hm.origins ▸ origins_of _⟩
  · rcases wrapper_cases env c.customized path exe c' with
      h7 | ⟨h7, h8, h9⟩ | ⟨e, args, _, _, _, _, h7⟩
    · rw [h7] at h4; cases h4
    · right
      refine ⟨fun hh => ?_, path, hp, ?_⟩
      · rw [customized_iff.2 hh] at h8
        cases h8
      · have hpe : path ≠ [] := by
          rcases wrapperPath_cases hp with ⟨g1, _⟩ | ⟨_, g2⟩ | ⟨_, _, g3⟩
          · exact absurd g1 hne
          · rw [g2]; nofun
          · exact (clean_not g3).1
        rcases h9 with h9 | h9
        · exact absurd h9 hpe
        · rw [h9]
          exact fixPaths_exe hf
    · left
      rw [h7]
      exact ⟨_, List.mem_append_left _ (List.mem_append_right _ List.mem_cons_self), _, rfl⟩

/-! ### An example: a wrapper and two manifests -/

private def exConfig : Config where
  logFile := []
  disableLinkSet := false
  emacsCommand := emacsclient
  emacsArgs := .new []
  scheme := .new []
  sources := []
  backendName := []
  wrapper := "/d/w".toList
  firefox := "/d/f.json".toList
  chrome := "/d".toList
  force := false
  mozillaIds := .new ["a@b".toList]
  chromeIds := .new ["id".toList]
  help := false
  version := false

private def exEnv : Env where
  exe := .ok "/e".toList
  wd := none
  stat := fun _ p => if p = "/d".toList then .dir else .missing
  real := fun p => .ok p
  quote := fun s => some (gnuQuote s)
  write := fun _ _ => true

example : ((install ⟨"burl".toList, []⟩ exEnv exConfig).1,
    (install ⟨"burl".toList, []⟩ exEnv exConfig).2.map (fun x => (x.path, x.perm))) =
    (.ok true, [("/d/w".toList, 493), ("/d/f.json".toList, 420), ("/d/burl.json".toList, 420)]) := by
  decide +kernel

end Burl.Args
