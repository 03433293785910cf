import Verif.Args.InstallSpec
import Verif.Args.ManifestProps
import Verif.File.PathProps
/-! C47, C49, C54: exactly which files are made by a request. -/
namespace Burl.Args
open Burl Burl.File Burl.File.Spec Burl.Args.Spec

theorem fixSources_iff {real : Str → Res Unit Str} {ss ss' : List Source} :
    fixSources real ss = .ok ss' ↔
      Each (fun s s' => s'.kind = s.kind ∧ real s.name = .ok s'.name) ss ss' := by
  induction ss generalizing ss' with
  | nil =>
    constructor
    · intro h
      cases h
      exact .nil
    · intro h
      cases h
      rfl
  | cons s ss ih =>
    rw [fixSources]
    constructor
    · intro h
      cases hr : real s.name with
      | err e => rw [hr] at h; cases h
      | panic => rw [hr] at h; cases h
      | ok p =>
        rw [hr, Res.bind_ok] at h
        cases hf : fixSources real ss with
        | err e => rw [hf] at h; cases h
        | panic => rw [hf] at h; cases h
        | ok l =>
          rw [hf, Res.bind_ok] at h
          cases h
          exact .cons ⟨rfl, hr⟩ (ih.1 hf)
    · intro h
      cases h with
      | @cons _ s' _ l h1 h2 =>
        rw [h1.2, Res.bind_ok, ih.2 h2, Res.bind_ok]
        obtain ⟨k, n⟩ := s'
        obtain ⟨h1, _⟩ := h1
        cases h1
        rfl

/-- **C47, C54, C74.** What `FixPaths` does: it fails unless the path of the program is known and
all the files are found; the settings are the same, with absolute paths. -/
theorem c47_paths {c c' : Config} {exe : Res Unit Str} {abs real : Str → Res Unit Str} {e : Str} :
    c.fixPaths exe abs real = .ok (e, c') ↔ exe = .ok e ∧
      AbsSettings (fun a b => abs a = .ok b) (fun a b => real a = .ok b) c c' := by
  unfold Config.fixPaths
  have hd : "-".toList = dash := rfl
  constructor
  · intro h
    cases exe with
    | err _ => cases h
    | panic => cases h
    | ok e' =>
      rw [Res.bind_ok] at h
      generalize hlog : (if c.logFile ≠ [] ∧ c.logFile ≠ dash then abs c.logFile
        else Res.ok c.logFile) = r at h
      cases r with
      | err _ => cases h
      | panic => cases h
      | ok log =>
        rw [Res.bind_ok] at h
        cases hs : fixSources real c.sources with
        | err _ => rw [hs] at h; cases h
        | panic => rw [hs] at h; cases h
        | ok ss =>
          rw [hs, Res.bind_ok] at h
          cases h
          refine ⟨rfl, ?_, fixSources_iff.1 hs, rfl⟩
          rw [hd]
          by_cases hl : c.logFile ≠ [] ∧ c.logFile ≠ dash
          · rw [if_pos hl] at hlog
            exact .inr ⟨hl.1, hl.2, hlog⟩
          · rw [if_neg hl] at hlog
            cases hlog
            refine .inl ⟨?_, rfl⟩
            by_cases h1 : c.logFile = []
            · exact .inl h1
            · exact .inr (Classical.not_not.1 fun h2 => hl ⟨h1, h2⟩)
  · rintro ⟨rfl, h1, h2, h3⟩
    rw [hd] at h1
    have hlog : (if c.logFile ≠ [] ∧ c.logFile ≠ dash then abs c.logFile
        else Res.ok c.logFile) = .ok c'.logFile := by
      rcases h1 with ⟨h1, h4⟩ | ⟨h1, h4, h5⟩
      · rw [if_neg, h4]
        rintro ⟨h5, h6⟩
        exact h1.elim h5 h6
      · rw [if_pos ⟨h1, h4⟩, h5]
    rw [Res.bind_ok, hlog, Res.bind_ok, fixSources_iff.2 h2, Res.bind_ok]
    cases c
    cases c'
    cases h3
    rfl

theorem absOf_iff {env : Env} {f p : Str} (hf : f ≠ dash) :
    absOf env f = .ok p ↔ FileAt env.wd (env.stat []) f p := by
  rw [← c44_plain hf]
  unfold absOf
  cases h : asAbsFileName env.wd (env.stat []) f ⟨[], [], []⟩ with
  | err e => exact ⟨nofun, fun ⟨n, h⟩ => nomatch h⟩
  | panic => exact ⟨nofun, fun ⟨n, h⟩ => nomatch h⟩
  | ok r =>
    obtain ⟨a, b⟩ := r
    rw [Res.bind_ok]
    constructor
    · intro h
      cases h
      exact ⟨b, rfl⟩
    · rintro ⟨n, h⟩
      cases h
      rfl

/-- **C47, C54.** The settings of the wrapper in the environment of the installation. -/
theorem c54_paths {c c' : Config} {env : Env} {e : Str} :
    c.fixPaths env.exe (absOf env) env.real = .ok (e, c') ↔ env.exe = .ok e ∧ InEnv env c c' := by
  rw [c47_paths]
  refine and_congr Iff.rfl ?_
  unfold InEnv
  constructor
  · rintro ⟨h1, h2, h3⟩
    refine ⟨h1.imp id ?_, h2, h3⟩
    rintro ⟨a, b, h⟩
    exact ⟨a, b, (absOf_iff b).1 h⟩
  · rintro ⟨h1, h2, h3⟩
    refine ⟨h1.imp id ?_, h2, h3⟩
    rintro ⟨a, b, h⟩
    exact ⟨a, b, (absOf_iff b).2 h⟩

theorem wrapperPath_iff {env : Env} {c : Config} {path : Str} :
    env.wrapperPath c = .ok path ↔ (c.wrapper = [] ∧ path = []) ∨ WrapperAt env c path := by
  unfold Env.wrapperPath WrapperAt
  have hd : "-".toList = dash := rfl
  rw [hd]
  by_cases h1 : c.wrapper = []
  · rw [if_neg (fun hh => hh.1 h1), h1]
    constructor
    · intro h
      cases h
      exact .inl ⟨rfl, rfl⟩
    · rintro (⟨_, h⟩ | ⟨h, _⟩ | ⟨h, _⟩)
      · rw [h]
      · cases h
      · exact absurd rfl h
  · by_cases h2 : c.wrapper = dash
    · rw [if_neg (fun hh => hh.2 h2)]
      constructor
      · intro h
        cases h
        exact .inr (.inl ⟨h2, h2⟩)
      · rintro (⟨h, _⟩ | ⟨h, hh⟩ | ⟨_, h, _⟩)
        · exact absurd h h1
        · rw [h, hh]
        · exact absurd h2 h
    · rw [if_pos ⟨h1, h2⟩]
      have := absOf_iff (env := env) (p := path) h2
      unfold absOf at this
      rw [this]
      constructor
      · intro h
        exact .inr (.inr ⟨h1, h2, h⟩)
      · rintro (⟨h, _⟩ | ⟨h, _⟩ | ⟨_, _, h⟩)
        · exact absurd h h1
        · exact absurd h h2
        · exact h

theorem customized_spec {c : Config} : c.customized = true ↔ Customized c := by
  rw [customized_iff]
  unfold CustomOptions Customized MultiFlag.isModified
  simp only [bne_iff_ne, ne_eq]

theorem origin_spec {id o : Str} : OriginOf id o ↔ o = origin id := by
  have hp : "chrome-extension://".toList = originPrefix := rfl
  unfold origin
  constructor
  · intro h
    cases h with
    | @whole rest =>
      rw [hp, if_pos]
      exact List.isPrefixOf_iff_prefix.2 ⟨rest, rfl⟩
    | ident h =>
      rw [if_neg, hp]
      · rfl
      · intro hh
        obtain ⟨rest, hr⟩ := List.isPrefixOf_iff_prefix.1 hh
        exact h rest hr.symm
  · rintro rfl
    split
    · rename_i hh
      obtain ⟨rest, hr⟩ := List.isPrefixOf_iff_prefix.1 hh
      rw [← hr]
      exact .whole
    · rename_i hh
      refine .ident ?_
      rintro rest rfl
      exact hh (List.isPrefixOf_iff_prefix.2 ⟨rest, rfl⟩)

theorem origins_spec {ids os : List Str} : Each OriginOf ids os ↔ os = ids.map origin := by
  induction ids generalizing os with
  | nil =>
    constructor
    · intro h
      cases h
      rfl
    · rintro rfl
      exact .nil
  | cons a l ih =>
    constructor
    · intro h
      cases h with
      | cons h1 h2 =>
        rw [origin_spec.1 h1, ih.1 h2]
        rfl
    · rintro rfl
      exact .cons (origin_spec.2 rfl) (ih.2 rfl)

theorem valid_stdio {n d p t : Str} {os es : List Str} {mp : Str} :
    Valid ⟨n, d, p, t, os, es, mp⟩ ↔ Valid ⟨n, d, p, [], os, es, mp⟩ :=
  ⟨fun h => valid_type (t := []) h, fun h => valid_type (t := t) h⟩

theorem writeFile_ok {env : Env} {w ws : List Write} {x : Write} {u : Unit} :
    env.writeFile w x = (.ok u, ws) ↔ env.write w x = true ∧ ws = w ++ [x] := by
  unfold Env.writeFile
  cases env.write w x with
  | true =>
    constructor
    · intro h
      cases h
      exact ⟨rfl, rfl⟩
    · rintro ⟨_, rfl⟩
      rfl
  | false => exact ⟨nofun, fun h => nomatch h.1⟩

/-- The part that writes a manifest. -/
theorem manifest_iff {names : Names} {env : Env} {w ws : List Write} {c : Config} {file exe : Str}
    {os es : List Str} (hw : AllOk env w) : env.manifest names w c file exe os es = (.ok (), ws) ↔
      ∃ t, ManifestPart names env c exe w os es file t ∧ ws = w ++ t ∧ AllOk env ws := by
  unfold Env.manifest
  by_cases hf : file = []
  · rw [if_pos hf]
    subst hf
    constructor
    · intro h
      cases h
      exact ⟨[], .none, (List.append_nil _).symm, hw⟩
    · rintro ⟨t, h, rfl, _⟩
      cases h with
      | none => simp
      | file h => exact absurd rfl h
  rw [if_neg hf]
  have hval : ∀ (n path : Str), ({ (⟨n, [], exe, [], os, es, path⟩ : Manifest) with
      description := names.description } : Manifest) =
      ⟨n, names.description, exe, [], os, es, path⟩ := fun _ _ => rfl
  constructor
  · intro h
    cases ha : asAbsFileName env.wd (env.stat w) file ⟨c.backendName, names.appName, dotJson⟩ with
    | err e => rw [ha] at h; cases h
    | panic => rw [ha] at h; cases h
    | ok r =>
      obtain ⟨path, name⟩ := r
      rw [ha] at h
      simp only at h
      unfold Env.writeManifest at h
      rw [hval] at h
      generalize hm : (⟨name, names.description, exe, [], os, es, path⟩ : Manifest) = m at h
      have hi : m.init = (m.init.1, m.init.2) := rfl
      cases hb : m.init.1 with
      | false => rw [hi, hb] at h; cases h
      | true =>
        rw [hi, hb, (c45_effect m).1 hb] at h
        simp only at h
        have hv := (c45_iff m).1 hb
        obtain ⟨h1, rfl⟩ := writeFile_ok.1 h
        subst hm
        exact ⟨_, .file hf (c44_exact.1 ha) rfl (valid_type hv), rfl, allOk_snoc hw h1⟩
  · rintro ⟨t, h, rfl, hok⟩
    cases h with
    | none => exact absurd rfl hf
    | @file _ path name m h1 h2 h3 h4 =>
      rw [c44_exact.2 h2]
      simp only
      unfold Env.writeManifest
      rw [hval]
      subst h3
      have hb := (c45_iff _).2 (valid_stdio.1 h4)
      generalize hm : (⟨name, names.description, exe, [], os, es, path⟩ : Manifest) = m at hb
      have hi : m.init = (m.init.1, m.init.2) := rfl
      rw [hi, hb, (c45_effect m).1 hb]
      simp only
      subst hm
      exact writeFile_ok.2 ⟨hok w _ [] rfl, rfl⟩

/-- The part that writes the wrapper. -/
theorem wrapper_iff {env : Env} {c c' : Config} {path exe : Str} {ws : List Write}
    (hcons : c.wrapper = [] → c.customized = false)
    (hfix : c.fixPaths env.exe (absOf env) env.real = .ok (exe, c'))
    (hpath : env.wrapperPath c = .ok path) :
    env.wrapper c.customized path exe c' = (.ok (), ws) ↔
      ∃ wr, WrapperPart env c exe wr ws ∧ AllOk env ws ∧
        (wr = none ∧ path = [] ∨ wr = some path) := by
  have hin := (c54_paths.1 hfix).2
  have hforce : c'.force = c.force := by
    have := congrArg Config.force hin.others
    simpa using this
  have hcust : ∀ {b}, c.customized = b → (Customized c ↔ b = true) := by
    intro b hb
    rw [← customized_spec, hb]
  have hne : ∀ {p : Str}, WrapperAt env c p → p ≠ [] := by
    rintro p (⟨_, h⟩ | ⟨_, _, h⟩)
    · rw [h]; nofun
    · obtain ⟨r, hr⟩ := absolute_clean (absolute_iff.1 h.1)
      rw [hr]
      exact (clean_not (cleanAbs_clean r)).1
  rcases wrapperPath_iff.1 hpath with ⟨h1, rfl⟩ | hat
  · have hc := hcons h1
    have hcw : ¬ Customized c := fun h => by
      have := (hcust hc).1 h
      cases this
    have hw : env.wrapper c.customized [] exe c' = (.ok (), []) := by
      unfold Env.wrapper
      rw [hc, if_neg]
      rintro (h | h)
      · exact h rfl
      · cases h
    rw [hw]
    have hno : ∀ {p}, ¬ WrapperAt env c p := by
      rintro p (⟨h, _⟩ | ⟨h, _⟩)
      · rw [h1] at h; cases h
      · exact h h1
    constructor
    · intro h
      cases h
      exact ⟨none, .none h1 hcw, allOk_nil env, .inl ⟨rfl, rfl⟩⟩
    · rintro ⟨wr, h, _, _⟩
      cases h with
      | none => rfl
      | itself _ h => exact absurd h hno
      | script h => exact absurd h hno
  · have hp := hne hat
    have hwne : c.wrapper ≠ [] := by
      intro h
      rcases hat with ⟨h', _⟩ | ⟨h', _⟩
      · rw [h] at h'; cases h'
      · exact h' h
    unfold Env.wrapper
    rw [if_pos (.inl hp)]
    by_cases hpe : path = exe
    · rw [if_neg (fun h => h hpe)]
      subst hpe
      cases hc : c.customized with
      | true =>
        refine ⟨nofun, ?_⟩
        rintro ⟨wr, h, _, h2⟩
        cases h with
        | none h => exact absurd h hwne
        | itself _ _ h => exact absurd ((hcust hc).2 rfl) h
        | script _ h =>
          rcases h2 with ⟨h2, _⟩ | h2
          · cases h2
          · cases h2
            exact absurd rfl h
      | false =>
        constructor
        · intro h
          cases h
          exact ⟨some path, .itself hin hat fun h => (nomatch (hcust hc).1 h), allOk_nil env, .inr rfl⟩
        · rintro ⟨wr, h, _, h2⟩
          cases h with
          | none h => exact absurd h hwne
          | itself _ _ h => rfl
          | script _ h =>
            rcases h2 with ⟨h2, _⟩ | h2
            · cases h2
            · cases h2
              exact absurd rfl h
    · rw [if_pos hpe]
      constructor
      · intro h
        cases hq : env.quote exe with
        | none => rw [hq] at h; cases h
        | some e =>
          rw [hq] at h
          simp only at h
          cases ha : asShellCommand env.quote c' with
          | none => rw [ha] at h; cases h
          | some args =>
            rw [ha] at h
            simp only at h
            obtain ⟨h3, rfl⟩ := writeFile_ok.1 h
            refine ⟨some path, ?_, allOk_snoc (allOk_nil env) h3, .inr rfl⟩
            rw [hforce]
            exact .script hat hpe hq hin ha
      · rintro ⟨wr, h, hok, h2⟩
        cases h with
        | none h => exact absurd h hwne
        | itself _ _ h =>
          rcases h2 with ⟨h2, _⟩ | h2
          · cases h2
          · cases h2
            exact absurd rfl hpe
        | @script p c2 e args h3 h4 h5 h6 h7 =>
          rcases h2 with ⟨h2, _⟩ | h2
          · cases h2
          · cases h2
            have : c2 = c' := by
              have := c54_paths.2 ⟨(c54_paths.1 hfix).1, h6⟩
              rw [hfix] at this
              cases this
              rfl
            subst this
            rw [h5, h7]
            simp only
            rw [hforce]
            exact writeFile_ok.2 ⟨hok [] _ [] rfl, rfl⟩

theorem wrapperAt_ne {env : Env} {c : Config} {p : Str} (h : WrapperAt env c p) : p ≠ [] := by
  rcases h with ⟨_, h⟩ | ⟨_, _, h⟩
  · rw [h]
    nofun
  · obtain ⟨r, hr⟩ := absolute_clean (absolute_iff.1 h.1)
    rw [hr]
    exact (clean_not (cleanAbs_clean r)).1

theorem install_rest {names : Names} {env : Env} {c c' : Config} {exe path : Str}
    (hc : Consistent c) (hf : c.fixPaths env.exe (absOf env) env.real = .ok (exe, c'))
    (hp : env.wrapperPath c = .ok path) :
    install names env c = rest names env c c' exe path := by
  unfold install
  rw [if_neg, if_neg (Nat.not_lt.2 hc.stdout), if_neg]
  · simp only
    rw [if_neg]
    · have hfe : (fun f => (asAbsFileName env.wd (env.stat []) f ⟨[], [], []⟩).bind
        fun r => Res.ok r.1) = absOf env := rfl
      rw [hfe, hf]
      simp only
      rw [hp]
      rfl
    · rintro ⟨h1, h2⟩
      rw [hc.custom h1] at h2
      cases h2
  · rintro ⟨h1, h2⟩
    obtain ⟨h3, h4⟩ := hc.wrapper h1
    exact h2.elim (· h3) (· h4)
  · rw [nonEmpty_zero]
    rintro ⟨a, b, d⟩
    exact hc.any.elim (· a) (·.elim (· b) (· d))

theorem bind_pair {α β : Type} {o : Out α} {f : α → List Write → Out β} {b : β} {ws : List Write} :
    o.bind f = (.ok b, ws) ↔ ∃ a w, o = (.ok a, w) ∧ f a w = (.ok b, ws) := by
  obtain ⟨r, w⟩ := o
  cases r with
  | ok a =>
    constructor
    · intro h
      exact ⟨a, w, rfl, h⟩
    · rintro ⟨a', w', h, h2⟩
      cases h
      exact h2
  | err e => exact ⟨nofun, fun ⟨_, _, h, _⟩ => nomatch h⟩
  | panic => exact ⟨nofun, fun ⟨_, _, h, _⟩ => nomatch h⟩

theorem allOk_prefix {env : Env} {a b : List Write} (h : AllOk env (a ++ b)) : AllOk env a := by
  intro pre x post he
  exact h pre x (post ++ b) (by rw [he]; simp)

theorem stdout_iff {c : Config} (hw : c.wrapper = dash → c.firefox = [] ∧ c.chrome = []) :
    stdoutCount c ≤ 1 ↔ ¬ (c.firefox = dash ∧ c.chrome = dash) := by
  unfold stdoutCount
  simp only [List.countP_cons, List.countP_nil]
  have hd : ¬ ([] : Str) = dash := nofun
  by_cases h1 : c.wrapper = dash
  · obtain ⟨h2, h3⟩ := hw h1
    simp [h1, h2, h3, hd]
  · by_cases h2 : c.firefox = dash <;> by_cases h3 : c.chrome = dash <;> simp [h1, h2, h3]

/-- **C54, C49.** A request is met exactly if it is as described by `Installs`: the options go
together, all paths are found, and each call of `WriteFile` succeeds; the list gives the path, the
contents, the permissions and the order of all the files. -/
theorem c54_exact {names : Names} {env : Env} {c : Config} {ws : List Write} :
    install names env c = (.ok true, ws) ↔ Installs names env c ws := by
  have hd : "-".toList = dash := rfl
  have key : ∀ {exe : Str} {c' : Config} {path : Str}, Consistent c →
      c.fixPaths env.exe (absOf env) env.real = .ok (exe, c') →
      env.wrapperPath c = .ok path →
      (rest names env c c' exe path = (.ok true, ws) ↔
        ∃ wr w1 w2 w3, WrapperPart env c exe wr w1 ∧ (wr = none ∧ path = [] ∨ wr = some path) ∧
          ManifestPart names env c (Program exe wr) w1 [] c.mozillaIds.slice c.firefox w2 ∧
          ManifestPart names env c (Program exe wr) (w1 ++ w2) (c.chromeIds.slice.map origin) []
            c.chrome w3 ∧ ws = w1 ++ w2 ++ w3 ∧ AllOk env ws) := by
    intro exe c' path hc hf hp
    have htarget : ∀ {wr w}, WrapperPart env c exe wr w → (wr = none ∧ path = [] ∨ wr = some path) →
        (if path ≠ [] ∧ path ≠ dash then path else exe) = Program exe wr := by
      rintro wr w hwp (⟨rfl, rfl⟩ | rfl)
      · rw [if_neg (fun h => h.1 rfl)]
        rfl
      · have hat : WrapperAt env c path := by
          cases hwp with
          | itself _ h => exact h
          | script h => exact h
        have hne := wrapperAt_ne hat
        unfold Program
        simp only
        rw [hd]
        by_cases h : path = dash
        · rw [if_neg (fun hh => hh.2 h), if_pos h]
        · rw [if_neg h, if_pos ⟨hne, h⟩]
    unfold rest
    rw [bind_pair]
    constructor
    · rintro ⟨_, w1, h1, h⟩
      obtain ⟨wr, g1, g2, g3⟩ := (wrapper_iff hc.custom hf hp).1 h1
      rw [htarget g1 g3] at h
      obtain ⟨_, v2, h2, h⟩ := bind_pair.1 h
      obtain ⟨w2, g4, rfl, g5⟩ := (manifest_iff g2).1 h2
      obtain ⟨_, v3, h3, h⟩ := bind_pair.1 h
      obtain ⟨w3, g6, rfl, g7⟩ := (manifest_iff g5).1 h3
      cases h
      exact ⟨wr, w1, w2, w3, g1, g3, g4, g6, rfl, g7⟩
    · rintro ⟨wr, w1, w2, w3, g1, g3, g4, g6, rfl, g7⟩
      have g5 := allOk_prefix g7
      have g2 := allOk_prefix g5
      refine ⟨(), w1, (wrapper_iff hc.custom hf hp).2 ⟨wr, g1, g2, g3⟩, ?_⟩
      rw [htarget g1 g3]
      refine bind_pair.2 ⟨(), w1 ++ w2, (manifest_iff g2).2 ⟨w2, g4, rfl, g5⟩, ?_⟩
      exact bind_pair.2 ⟨(), _, (manifest_iff g5).2 ⟨w3, g6, rfl, g7⟩, rfl⟩
  constructor
  · intro h
    rcases install_cases names env c with ⟨h1, _⟩ | ⟨r, h1, h2, _⟩ | ⟨hc, exe, c', path, hf, hp, h1⟩
    · rw [h1] at h
      cases h
    · rw [h1] at h
      cases h
      exact absurd rfl (h2 true)
    · rw [h1] at h
      obtain ⟨wr, w1, w2, w3, g1, g3, g4, g6, g7, g8⟩ := (key hc hf hp).1 h
      exact ⟨hc.any, (stdout_iff hc.wrapper).1 hc.stdout, hc.wrapper,
        ⟨exe, wr, w1, w2, w3, _, (c54_paths.1 hf).1, ⟨c', (c54_paths.1 hf).2⟩, g1, g4,
          origins_spec.2 rfl, g6, g7⟩, g8⟩
  · rintro ⟨h1, h2, h3, ⟨exe, wr, w1, w2, w3, os, g1, ⟨c', g2⟩, g3, g4, g5, g6, g7⟩, h4⟩
    have hf := c54_paths.2 ⟨g1, g2⟩
    cases origins_spec.1 g5
    have hp : ∃ path, env.wrapperPath c = .ok path ∧ (wr = none ∧ path = [] ∨ wr = some path) := by
      cases g3 with
      | none h => exact ⟨[], wrapperPath_iff.2 (.inl ⟨h, rfl⟩), .inl ⟨rfl, rfl⟩⟩
      | itself _ h => exact ⟨_, wrapperPath_iff.2 (.inr h), .inr rfl⟩
      | script h => exact ⟨_, wrapperPath_iff.2 (.inr h), .inr rfl⟩
    obtain ⟨path, hp, hwr⟩ := hp
    have hcust : c.wrapper = [] → c.customized = false := by
      intro hw
      have hno : ¬ Customized c := by
        cases g3 with
        | none _ h => exact h
        | itself _ _ h => exact h
        | script h =>
          rcases h with ⟨h, _⟩ | ⟨h, _⟩
          · rw [hw] at h; cases h
          · exact absurd hw h
      cases hb : c.customized with
      | false => rfl
      | true => exact absurd (customized_spec.1 hb) hno
    have hcons : Consistent c := ⟨h1, (stdout_iff h3).2 h2, h3, hcust⟩
    have hin : install names env c = rest names env c c' exe path := by
      exact install_rest hcons hf hp
    rw [hin]
    exact (key hcons hf hp).2 ⟨wr, w1, w2, w3, g3, hwr, g4, g6, g7, h4⟩

/-- **C54.** In particular a consistent request for a wrapper alone is met in a cooperative
environment. -/
theorem c54_wrapper_alone {names : Names} {env : Env} {c c' : Config} {exe path e : Str}
    {args : List Str} (h1 : c.firefox = []) (h2 : c.chrome = []) (hexe : env.exe = .ok exe)
    (hpath : WrapperAt env c path) (hne : path ≠ exe) (hin : InEnv env c c')
    (hq : env.quote exe = some e) (ha : asShellCommand env.quote c' = some args)
    (hw : ∀ x, env.write [] x = true) :
    install names env c = (.ok true, [⟨path, .wrapper (wrapperText e args), 0o755, c.force⟩]) := by
  have hwr : c.wrapper ≠ [] := by
    rcases hpath with ⟨h, _⟩ | ⟨h, _⟩
    · rw [h]; nofun
    · exact h
  refine c54_exact.2 ⟨.inl hwr, ?_, fun _ => ⟨h1, h2⟩, ⟨exe, some path, _, [], [], _, hexe, ⟨c', hin⟩,
    .script hpath hne hq hin ha, ?_, origins_spec.2 rfl, ?_, rfl⟩, ?_⟩
  · rw [h1]
    exact fun h => nomatch h.1
  · rw [h1]
    exact .none
  · rw [h2]
    exact .none
  · intro pre x post he
    cases pre with
    | nil => exact hw x
    | cons a l =>
      have := congrArg List.length he
      simp at this

end Burl.Args
