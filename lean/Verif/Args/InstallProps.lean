import Verif.Args.Install
import Verif.Args.CommandProps
import Verif.File.NamesProps
/-! C49 and C54: requests to create files. -/
namespace Burl.Args
open Burl Burl.File

theorem Out.bind_ok {α β : Type} (a : α) (w : List Write) (f : α → List Write → Out β) :
    Out.bind (Res.ok a, w) f = f a w := rfl

theorem bind_eq_ok {α β : Type} {o : Out α} {f : α → List Write → Out β} {b : β}
    (h : (o.bind f).1 = .ok b) : ∃ a, o.1 = .ok a ∧ (f a o.2).1 = .ok b := by
  obtain ⟨r, w⟩ := o
  cases r with
  | ok a => exact ⟨a, rfl, h⟩
  | err e => cases h
  | panic => cases h

/-! ## What the parts do -/

/-- The part that writes the wrapper. -/
theorem wrapper_cases (env : Env) (custom : Bool) (path exe : Str) (c : Config) :
    env.wrapper custom path exe c = (.err (), []) ∨
    (env.wrapper custom path exe c = (.ok (), []) ∧ custom = false ∧ (path = [] ∨ path = exe)) ∨
    ∃ e args, env.quote exe = some e ∧ asShellCommand env.quote c = some args ∧ path ≠ exe ∧
      (path = [] → custom = true) ∧
      env.wrapper custom path exe c =
        env.writeFile [] ⟨path, .wrapper (wrapperText e args), 493, c.force⟩ := by
  unfold Env.wrapper
  by_cases h1 : path ≠ [] ∨ custom = true
  · rw [if_pos h1]
    by_cases h2 : path ≠ exe
    · rw [if_pos h2]
      cases hq : env.quote exe with
      | none => exact .inl rfl
      | some e =>
        simp only
        cases ha : asShellCommand env.quote c with
        | none => exact .inl rfl
        | some args =>
          refine .inr (.inr ⟨e, args, rfl, rfl, h2, ?_, rfl⟩)
          intro hp
          exact h1.elim (fun h => absurd hp h) id
    · rw [if_neg h2]
      have h2 := Classical.not_not.1 h2
      cases custom with
      | true => exact .inl rfl
      | false => exact .inr (.inl ⟨rfl, rfl, .inr h2⟩)
  · rw [if_neg h1]
    refine .inr (.inl ⟨rfl, ?_, .inl ?_⟩)
    · cases custom with
      | true => exact absurd (.inr rfl) h1
      | false => rfl
    · exact Classical.not_not.1 fun h => h1 (.inl h)

/-- A manifest as it is written. -/
structure Written (names : Names) (c : Config) (file exe : Str) (origins exts : List Str)
    (x : Write) (m : Manifest) : Prop where
  doc : x.doc = .manifest m
  path : x.path = m.manifestPath
  perm : x.perm = 420
  force : x.force = c.force
  program : m.path = exe
  origins : m.allowedOrigins = origins
  exts : m.allowedExtensions = exts
  type : m.type = "stdio".toList
  valid : Valid m
  description : m.description = names.description
  name : c.backendName ≠ [] → '/' ∉ c.backendName → m.name = c.backendName

theorem valid_type {m : Manifest} {t : Str} (h : Valid m) : Valid { m with type := t } :=
  ⟨h.lists, h.name, h.path, h.file⟩

/-- The part that writes a manifest. -/
theorem manifest_cases (names : Names) (env : Env) (w : List Write) (c : Config) (file exe : Str)
    (origins exts : List Str) :
    (env.manifest names w c file exe origins exts = (.ok (), w) ∧ file = []) ∨
    (∃ r, env.manifest names w c file exe origins exts = (r, w) ∧ r ≠ .ok () ∧ file ≠ []) ∨
    ∃ x m, Written names c file exe origins exts x m ∧ file ≠ [] ∧
      env.manifest names w c file exe origins exts = env.writeFile w x := by
  unfold Env.manifest
  by_cases hf : file = []
  · rw [if_pos hf]
    exact .inl ⟨rfl, hf⟩
  · rw [if_neg hf]
    right
    cases ha : asAbsFileName env.wd (env.stat w) file ⟨c.backendName, names.appName, dotJson⟩ with
    | err e => exact .inl ⟨_, rfl, nofun, hf⟩
    | panic => exact .inl ⟨_, rfl, nofun, hf⟩
    | ok r =>
      obtain ⟨path, name⟩ := r
      simp only
      unfold Env.writeManifest
      generalize hm : ({ (⟨name, [], exe, [], origins, exts, path⟩ : Manifest) with
        description := names.description } : Manifest) = m
      have e1 : m.path = exe := by rw [← hm]
      have e2 : m.allowedOrigins = origins := by rw [← hm]
      have e3 : m.allowedExtensions = exts := by rw [← hm]
      have e4 : m.description = names.description := by rw [← hm]
      have e5 : c.backendName ≠ [] → '/' ∉ c.backendName → m.name = c.backendName := by
        intro h1 h2
        rw [← hm]
        exact (c44_name rfl h1 h2 ha).1
      have hi : m.init = (m.init.1, m.init.2) := rfl
      cases hb : m.init.1 with
      | false =>
        rw [hi, hb]
        exact .inl ⟨_, rfl, nofun, hf⟩
      | true =>
        have he := (c45_effect m).1 hb
        rw [hi, hb, he]
        exact .inr ⟨⟨m.manifestPath, .manifest { m with type := "stdio".toList }, 420, c.force⟩,
          { m with type := "stdio".toList },
          ⟨rfl, rfl, rfl, rfl, e1, e2, e3, rfl, valid_type ((c45_iff m).1 hb), e4, e5⟩, hf, rfl⟩

/-- The conditions under which a request is processed at all. -/
structure Consistent (c : Config) : Prop where
  any : c.wrapper ≠ [] ∨ c.firefox ≠ [] ∨ c.chrome ≠ []
  stdout : stdoutCount c ≤ 1
  wrapper : c.wrapper = dash → c.firefox = [] ∧ c.chrome = []
  custom : c.wrapper = [] → c.customized = false

theorem nonEmpty_zero {c : Config} :
    nonEmptyCount c = 0 ↔ c.wrapper = [] ∧ c.firefox = [] ∧ c.chrome = [] := by
  unfold nonEmptyCount
  simp [List.countP_eq_zero]

/-- The paths after the first part. -/
def absOf (env : Env) (f : Str) : Res Unit Str :=
  (asAbsFileName env.wd (env.stat []) f ⟨[], [], []⟩).bind fun r => .ok r.1

/-- The part of the function that may write. -/
def rest (names : Names) (env : Env) (c c' : Config) (exe path : Str) : Out Bool :=
  (env.wrapper c.customized path exe c').bind fun _ w =>
    (env.manifest names w c c.firefox (if path ≠ [] ∧ path ≠ dash then path else exe) []
      c.mozillaIds.values).bind fun _ w =>
      (env.manifest names w c c.chrome (if path ≠ [] ∧ path ≠ dash then path else exe)
        (c.chromeIds.values.map origin) []).bind fun _ w => (.ok true, w)

theorem install_cases (names : Names) (env : Env) (c : Config) :
    (install names env c = (.ok false, []) ∧ c.wrapper = [] ∧ c.firefox = [] ∧ c.chrome = []) ∨
    (∃ r, install names env c = (r, []) ∧ (∀ b, r ≠ .ok b) ∧
      ¬ (c.wrapper = [] ∧ c.firefox = [] ∧ c.chrome = [])) ∨
    (Consistent c ∧ ∃ exe c' path, c.fixPaths env.exe (absOf env) env.real = .ok (exe, c') ∧
      env.wrapperPath c = .ok path ∧ install names env c = rest names env c c' exe path) := by
  unfold install
  by_cases h1 : nonEmptyCount c = 0
  · rw [if_pos h1]
    exact .inl ⟨rfl, nonEmpty_zero.1 h1⟩
  rw [if_neg h1]
  have hne : ¬ (c.wrapper = [] ∧ c.firefox = [] ∧ c.chrome = []) :=
    fun h => h1 (nonEmpty_zero.2 h)
  right
  by_cases h2 : stdoutCount c > 1
  · rw [if_pos h2]
    exact .inl ⟨_, rfl, nofun, hne⟩
  rw [if_neg h2]
  by_cases h3 : c.wrapper = dash ∧ (c.firefox ≠ [] ∨ c.chrome ≠ [])
  · rw [if_pos h3]
    exact .inl ⟨_, rfl, nofun, hne⟩
  rw [if_neg h3]
  simp only
  by_cases h4 : c.wrapper = [] ∧ c.customized = true
  · rw [if_pos h4]
    exact .inl ⟨_, rfl, nofun, hne⟩
  rw [if_neg h4]
  have hcons : Consistent c := by
    refine ⟨?_, Nat.not_lt.1 h2, ?_, ?_⟩
    · by_cases ha : c.wrapper = []
      · by_cases hb : c.firefox = []
        · exact .inr (.inr fun hc => hne ⟨ha, hb, hc⟩)
        · exact .inr (.inl hb)
      · exact .inl ha
    · intro hw
      constructor
      · exact Classical.not_not.1 fun h => h3 ⟨hw, .inl h⟩
      · exact Classical.not_not.1 fun h => h3 ⟨hw, .inr h⟩
    · intro hw
      cases hc : c.customized with
      | true => exact absurd ⟨hw, hc⟩ h4
      | false => rfl
  have hfe : (fun f => (asAbsFileName env.wd (env.stat []) f ⟨[], [], []⟩).bind
    fun r => Res.ok r.1) = absOf env := rfl
  rw [hfe]
  cases hx : c.fixPaths env.exe (absOf env) env.real with
  | err e => exact .inl ⟨_, rfl, nofun, hne⟩
  | panic => exact .inl ⟨_, rfl, nofun, hne⟩
  | ok r =>
    obtain ⟨exe, c'⟩ := r
    simp only
    cases hp : env.wrapperPath c with
    | err e => exact .inl ⟨_, rfl, nofun, hne⟩
    | panic => exact .inl ⟨_, rfl, nofun, hne⟩
    | ok path => exact .inr ⟨hcons, exe, c', path, rfl, rfl, rfl⟩

/-! ## C49 -/

/-- **C49.** The backend is started iff no file is requested, and nothing is written then. -/
theorem c49_none (names : Names) (env : Env) (c : Config) :
    (c.wrapper = [] ∧ c.firefox = [] ∧ c.chrome = [] → install names env c = (.ok false, [])) ∧
      ((install names env c).1 = .ok false → c.wrapper = [] ∧ c.firefox = [] ∧ c.chrome = []) := by
  constructor
  · intro h
    unfold install
    rw [if_pos (nonEmpty_zero.2 h)]
  · intro h
    rcases install_cases names env c with ⟨_, h2⟩ | ⟨r, h2, h3, _⟩ | ⟨_, exe, c', path, _, _, h2⟩
    · exact h2
    · rw [h2] at h
      exact absurd h (h3 _)
    · exfalso
      rw [h2] at h
      unfold rest at h
      obtain ⟨_, _, h⟩ := bind_eq_ok h
      obtain ⟨_, _, h⟩ := bind_eq_ok h
      obtain ⟨_, _, h⟩ := bind_eq_ok h
      cases h

/-- Two of the three outputs are the standard output. -/
def StdoutTwice (c : Config) : Prop :=
  (c.wrapper = dash ∧ c.firefox = dash) ∨ (c.wrapper = dash ∧ c.chrome = dash) ∨
    (c.firefox = dash ∧ c.chrome = dash)

/-- Some option of the backend has been given. -/
def CustomOptions (c : Config) : Prop :=
  c.logFile ≠ "-".toList ∨ c.sources ≠ [] ∨ c.disableLinkSet = true ∨ c.scheme.isModified = true ∨
    c.emacsArgs.isModified = true ∨ c.emacsCommand ≠ "emacsclient".toList

theorem customized_iff {c : Config} : c.customized = true ↔ CustomOptions c := by
  have h1 : "-".toList = dash := rfl
  have h2 : "emacsclient".toList = emacsclient := rfl
  unfold Config.customized CustomOptions
  rw [h1, h2]
  simp only [Bool.or_eq_true, bne_iff_ne, Bool.not_eq_true', List.isEmpty_eq_false_iff, ne_eq,
    or_assoc]

/-- **C49.** Inconsistent requests are errors and nothing is written. -/
theorem c49_refused (names : Names) (env : Env) (c : Config)
    (h : StdoutTwice c ∨ (c.wrapper = dash ∧ (c.firefox ≠ [] ∨ c.chrome ≠ [])) ∨
      (CustomOptions c ∧ c.wrapper = [] ∧ (c.firefox ≠ [] ∨ c.chrome ≠ []))) :
    install names env c = (.err (), []) := by
  have hd : dash ≠ ([] : Str) := nofun
  have hz : ¬ nonEmptyCount c = 0 := by
    rw [nonEmpty_zero]
    rintro ⟨h1, h2, h3⟩
    rcases h with (⟨h, _⟩ | ⟨h, _⟩ | ⟨h, _⟩) | ⟨h, _⟩ | ⟨_, _, h | h⟩
    · rw [h1] at h; exact hd h.symm
    · rw [h1] at h; exact hd h.symm
    · rw [h2] at h; exact hd h.symm
    · rw [h1] at h; exact hd h.symm
    · exact h h2
    · exact h h3
  unfold install
  rw [if_neg hz]
  by_cases h2 : stdoutCount c > 1
  · rw [if_pos h2]
  rw [if_neg h2]
  by_cases h3 : c.wrapper = dash ∧ (c.firefox ≠ [] ∨ c.chrome ≠ [])
  · rw [if_pos h3]
  rw [if_neg h3]
  simp only
  rcases h with h | h | ⟨h4, h5, _⟩
  · exfalso
    apply h2
    unfold stdoutCount
    rcases h with ⟨ha, hb⟩ | ⟨ha, hb⟩ | ⟨ha, hb⟩ <;>
      simp only [List.countP_cons, List.countP_nil, ha, hb, decide_true, if_true] <;> omega
  · exact absurd h h3
  · rw [if_pos ⟨h5, customized_iff.2 h4⟩]

/-- Every write of a wrapper is the first one, and where it goes. -/
theorem wrapper_writes {names : Names} {env : Env} {c : Config} {x : Write} {t : Str}
    (hx : x ∈ (install names env c).2) (ht : x.doc = .wrapper t) :
    ∃ exe c' path e args, c.fixPaths env.exe (absOf env) env.real = .ok (exe, c') ∧
      env.wrapperPath c = .ok path ∧ env.quote exe = some e ∧
      asShellCommand env.quote c' = some args ∧ path ≠ exe ∧ x.path = path ∧
      t = wrapperText e args ∧ x.perm = 493 ∧ x.force = c'.force := by
  have hman : ∀ (w : List Write) (file exe : Str) (os es : List Str) (y : Write),
      y ∈ (env.manifest names w c file exe os es).2 → y.doc = .wrapper t → y ∈ w := by
    intro w file exe os es y hy hyt
    rcases manifest_cases names env w c file exe os es with
      ⟨h4, _⟩ | ⟨r, h4, _⟩ | ⟨z, m, hw, _, h4⟩
    all_goals rw [h4] at hy
    · exact hy
    · exact hy
    · unfold Env.writeFile at hy
      simp only [List.mem_append, List.mem_singleton] at hy
      rcases hy with hy | rfl
      · exact hy
      · rw [hw.doc] at hyt
        cases hyt
  have hbind : ∀ {α : Type} (o : Out α) (f : α → List Write → Out Bool) (y : Write),
      y ∈ (o.bind f).2 → y ∈ o.2 ∨ ∃ a, o.1 = .ok a ∧ y ∈ (f a o.2).2 := by
    intro α o f y hy
    obtain ⟨r, w⟩ := o
    cases r with
    | ok a => exact .inr ⟨a, rfl, hy⟩
    | err e => exact .inl hy
    | panic => exact .inl hy
  rcases install_cases names env c with ⟨h, _⟩ | ⟨r, h, _⟩ | ⟨_, exe, c', path, hf, hp, h⟩
  · rw [h] at hx; cases hx
  · rw [h] at hx; cases hx
  rw [h] at hx
  unfold rest at hx
  have hw : x ∈ (env.wrapper c.customized path exe c').2 := by
    rcases hbind _ _ _ hx with hx | ⟨_, _, hx⟩
    · exact hx
    · rcases hbind _ _ _ hx with hx | ⟨_, _, hx⟩
      · exact hman _ _ _ _ _ _ hx ht
      · rcases hbind _ _ _ hx with hx | ⟨_, _, hx⟩
        · exact hman _ _ _ _ _ _ (hman _ _ _ _ _ _ hx ht) ht
        · exact hman _ _ _ _ _ _ (hman _ _ _ _ _ _ hx ht) ht
  rcases wrapper_cases env c.customized path exe c' with
    h3 | ⟨h3, _⟩ | ⟨e, args, hq, ha, hne, _, h3⟩
  · rw [h3] at hw; cases hw
  · rw [h3] at hw; cases hw
  rw [h3] at hw
  unfold Env.writeFile at hw
  simp only [List.nil_append, List.mem_singleton] at hw
  subst hw
  cases ht
  exact ⟨exe, c', path, e, args, hf, hp, hq, ha, hne, rfl, rfl, rfl, rfl⟩

theorem fixPaths_exe {c c' : Config} {exe : Res Unit Str} {abs real : Str → Res Unit Str} {e : Str}
    (h : c.fixPaths exe abs real = .ok (e, c')) : exe = .ok e := by
  unfold Config.fixPaths at h
  cases exe with
  | err _ => cases h
  | panic => cases h
  | ok e' =>
    rw [Res.bind_ok] at h
    generalize (if c.logFile ≠ [] ∧ c.logFile ≠ dash then abs c.logFile
      else Res.ok c.logFile) = r at h
    cases r with
    | err _ => cases h
    | panic => cases h
    | ok log =>
      rw [Res.bind_ok] at h
      cases hs : fixSources real c.sources with
      | err _ => rw [hs] at h; cases h
      | panic => rw [hs] at h; cases h
      | ok ss =>
        rw [hs] at h
        cases h
        rfl

/-- Two paths of the same directory entry; `resolve` gives the real path of a directory. -/
def SameEntry (resolve : Str → Str) (p q : Str) : Prop :=
  ∃ d d' f, p = d ++ '/' :: f ∧ q = d' ++ '/' :: f ∧ '/' ∉ f ∧ resolve d = resolve d'

/-- The directory part of the path has no symbolic links. -/
def RealDir (resolve : Str → Str) (p : Str) : Prop :=
  ∀ d f, p = d ++ '/' :: f → '/' ∉ f → resolve d = d

/-- **C49 (part).** A wrapper is never written to the path of the backend.  If the directories have
no symbolic links then the file of the backend is not replaced. -/
theorem c49_exe_partial {names : Names} {env : Env} {c : Config} {x : Write} {t exe : Str}
    (hx : x ∈ (install names env c).2) (ht : x.doc = .wrapper t) (hexe : env.exe = .ok exe) :
    x.path ≠ exe ∧ ∀ resolve, RealDir resolve x.path → RealDir resolve exe →
      ¬ SameEntry resolve x.path exe := by
  obtain ⟨exe', c', path, e, args, hf, hp, hq, ha, hne, hxp, _⟩ := wrapper_writes hx ht
  have hee := fixPaths_exe hf
  rw [hexe] at hee
  cases hee
  have h1 : x.path ≠ exe := by rw [hxp]; exact hne
  refine ⟨h1, ?_⟩
  rintro resolve hr1 hr2 ⟨d, d', f, hd, hd', hs, hres⟩
  rw [hr1 d f hd hs, hr2 d' f hd' hs] at hres
  apply h1
  rw [hd, hd', hres]

/-! ### The counterexample -/

private def exExe : Str := "/usr/bin/burl".toList
private def exPath : Str := "/bin/burl".toList

private def exConfig : Config where
  logFile := dash
  disableLinkSet := true
  emacsCommand := emacsclient
  emacsArgs := .new []
  scheme := .new []
  sources := []
  backendName := []
  wrapper := exPath
  firefox := []
  chrome := []
  force := true
  mozillaIds := .new []
  chromeIds := .new []
  help := false
  version := false

private def exEnv : Env where
  exe := .ok exExe
  wd := none
  stat := fun _ p => if p = exPath then .nonDir else .missing
  real := fun p => .ok p
  quote := fun s => some (gnuQuote s)
  write := fun _ _ => true

/-- `/bin` is a link to `/usr/bin`. -/
private def exResolve (d : Str) : Str := if d = "/bin".toList then "/usr/bin".toList else d

/-- **C49 fails** when the directory of the wrapper is a symbolic link: the backend is replaced by
a script that executes itself. -/
theorem c49_violation : ∃ (names : Names) (env : Env) (c : Config) (resolve : Str → Str)
    (exe t : Str) (x : Write), env.exe = .ok exe ∧ (install names env c).1 = .ok true ∧
      x ∈ (install names env c).2 ∧ x.doc = .wrapper t ∧ SameEntry resolve x.path exe := by
  refine ⟨⟨[], []⟩, exEnv, exConfig, exResolve, exExe,
    wrapperText exExe ["--log".toList, "-".toList, "--disable-link-set=true".toList],
    ⟨exPath, .wrapper (wrapperText exExe
      ["--log".toList, "-".toList, "--disable-link-set=true".toList]), 493, true⟩, rfl, ?_, ?_, rfl,
    "/bin".toList, "/usr/bin".toList, "burl".toList, ?_, ?_, ?_, ?_⟩ <;> decide +kernel

end Burl.Args
