import Verif.Args.ManifestProps
import Verif.Backend.Main
import Verif.Backend.LineProps
import Verif.Backend.ServeProps
import Verif.Backend.Props
import Verif.Links.FoundProps
import Verif.Links.TextFoundProps
/-! A backend from its command line to what it serves (C66). -/
namespace Burl.Backend.Main
open Burl Burl.Args Burl.Backend.Line Burl.Backend.Line.Spec
open Burl.Links (NotDefault Marks)
open Burl.Links.Spec (Laid HasScheme defaultSchemes Accepted Alnum LineLaid SchemesOf)

namespace Spec

/-- The same files of the same types. -/
inductive SameSources : List Args.Source → List Extract.Source → Prop where
  | nil : SameSources [] []
  | org {n a b} : SameSources a b → SameSources (⟨.org, n⟩ :: a) (⟨.org, n⟩ :: b)
  | txt {n a b} : SameSources a b → SameSources (⟨.txt, n⟩ :: a) (⟨.txt, n⟩ :: b)

/-- Where messages go. -/
inductive LogTo : Str → Log → Prop where
  | discard : LogTo [] .discard
  | stderr : LogTo "-".toList .stderr
  | file {n} : n ≠ [] → n ≠ "-".toList → LogTo n (.file n)

/-- Schemes of links in Org files: the text is taken literally. -/
def Simple (schemes : List Str) : Prop :=
  schemes ≠ [] ∧ ∀ s ∈ schemes,
    Links.Literal s ∧ ':' ∉ s ∧ '<' ∉ s ∧ ∀ c, s.head? = some c → Alnum c

/-- What a backend has to serve. -/
structure Serves (m : Machine) (os : List Opt) (rest : List Str) (s : Setup) : Prop where
  log : LogTo (last .log "-" os) s.log
  sources : ∃ ss, SourcesOf rest ss ∧ SameSources (typed os ++ ss) s.env.sources
  linkSet : s.env.disableLinkSet = true ↔ On .disableLinkSet os
  command : s.emacs.command = last .emacsclient "emacsclient" os
  emacsArgs : Chosen [] (given .emacsarg os) s.emacs.userArgs
  files : s.env.files = m.files
  now : s.env.now = m.now
  letter : s.env.letter = m.letter

/-- Nothing but starting of a backend is requested. -/
structure Plain (os : List Opt) : Prop where
  help : ¬On .help os
  version : ¬On .version os
  wrapper : last .wrapper "" os = []
  firefox : last .manifestFirefox "" os = []
  chrome : last .manifestChrome "" os = []

/-- Requested files have been generated, and there was no failure. -/
structure Made (m : Machine) (os : List Opt) (w : List Write) : Prop where
  help : ¬On .help os
  version : ¬On .version os
  requested : ¬(last .wrapper "" os = [] ∧ last .manifestFirefox "" os = [] ∧
    last .manifestChrome "" os = [])
  written : ∀ pre x post, w = pre ++ x :: post → m.install.write pre x = true
  firefox : last .manifestFirefox "" os ≠ [] → ∃ x ∈ w, ∃ d, x.doc = .manifest d ∧
    Chosen [m.mozilla] (given .mozillaExtension os) d.allowedExtensions
  chrome : last .manifestChrome "" os ≠ [] → ∃ x ∈ w, ∃ d, x.doc = .manifest d ∧
    ∃ ids, Chosen [m.chrome] (given .chromeExtension os) ids ∧ Origins ids d.allowedOrigins
  /-- The script is not needed if it is the program itself. -/
  wrapper : last .wrapper "" os ≠ [] → (∃ x ∈ w, ∃ t, x.doc = .wrapper t) ∨
    ∃ path, m.install.exe = .ok path ∧
      ∀ c : Config, c.wrapper = last .wrapper "" os → m.install.wrapperPath c = .ok path

end Spec
open Burl.Backend.Main.Spec

theorem sameSources (l : List Args.Source) : SameSources l (l.map source) := by
  induction l with
  | nil => exact .nil
  | cons s l ih =>
    obtain ⟨k, n⟩ := s
    cases k
    · exact .org ih
    · exact .txt ih

theorem logOf_ok {m : Machine} {f : Str} {log : Log} (h : logOf m f = some log) : LogTo f log := by
  unfold logOf at h
  split at h
  · rename_i hf; cases h; subst hf; exact .discard
  · rename_i hf
    split at h
    · rename_i hd; cases h; subst hd; exact .stderr
    · rename_i hd
      split at h
      · cases h; exact .file hf hd
      · cases h

theorem serves_inv {m : Machine} {args : List Str} {s : Setup} (h : (start m args).1 = .serves s) :
    ∃ c log p, commandLine m.defaults args = .ok c ∧ c.help = false ∧ c.version = false ∧
      c.wrapper = [] ∧ c.firefox = [] ∧ c.chrome = [] ∧ logOf m c.logFile = some log ∧
      patterns c = some p ∧ s = setup m c log p ∧ start m args = (.serves s, []) := by
  unfold start at h ⊢
  cases hc : commandLine m.defaults args with
  | err e => rw [hc] at h; cases h
  | panic => rw [hc] at h; cases h
  | ok c =>
    rw [hc] at h
    simp only at h ⊢
    cases hh : c.help with
    | true => rw [hh] at h; cases h
    | false =>
      cases hv : c.version with
      | true => rw [hh, hv] at h; cases h
      | false =>
        rw [hh, hv] at h
        simp only [Bool.false_eq_true, if_false] at h ⊢
        have hn := c49_none m.names m.install c
        cases hi : install m.names m.install c with
        | mk r w =>
          rw [hi] at h hn
          cases r with
          | err e => cases h
          | panic => cases h
          | ok b =>
            cases b with
            | true => cases h
            | false =>
              simp only at h
              obtain ⟨h1, h2, h3⟩ := hn.2 rfl
              have hw := hn.1 ⟨h1, h2, h3⟩
              simp only [Prod.mk.injEq, true_and] at hw
              subst hw
              cases hl : logOf m c.logFile with
              | none => rw [hl] at h; cases h
              | some log =>
                rw [hl] at h
                simp only at h
                cases hp : patterns c with
                | none => rw [hp] at h; cases h
                | some p =>
                  rw [hp] at h
                  simp only at h
                  have h := Exit.serves.inj h
                  subst h
                  exact ⟨c, log, p, rfl, hh, hv, h1, h2, h3, hl, hp, rfl, rfl⟩

/-- **C66.** A backend that serves requests has the settings of its command line, and nothing has
been written. -/
theorem c66_serves {m : Machine} {args : List Str} {s : Setup}
    (h : (start m args).1 = .serves s) {os : List Opt} {rest : List Str}
    (hw : Written os rest args) :
    Serves m os rest s ∧ Plain os ∧ (start m args).2 = [] := by
  obtain ⟨c, log, p, h1, h2, h3, h4, h5, h6, h7, h8, rfl, h10⟩ := serves_inv h
  have hm := c65_settings h1 hw
  refine ⟨⟨?_, ?_, hm.disableLinkSet, hm.emacsCommand, hm.emacsArgs, rfl, rfl, rfl⟩, ?_, ?_⟩
  · rw [← hm.logFile]; exact logOf_ok h7
  · obtain ⟨ss, hs, he⟩ := hm.sources
    exact ⟨ss, hs, he ▸ sameSources _⟩
  · exact ⟨fun h => (nomatch h2.symm.trans (hm.help.mpr h)),
      fun h => (nomatch h3.symm.trans (hm.version.mpr h)),
      hm.wrapper ▸ h4, hm.firefox ▸ h5, hm.chrome ▸ h6⟩
  · rw [h10]

theorem starts (m : Machine) {args : List Str} {os : List Opt} {rest : List Str}
    (hw : Written os rest args) (ha : Acceptable os) (hp : Plain os)
    (hl : last .log "-" os = [] ∨ last .log "-" os = "-".toList ∨
      m.openLog (last .log "-" os) = true)
    (hs : given .scheme os = [] ∨ ∀ vs, Chosen Links.schemeVariants (given .scheme os) vs →
      (Links.updateRe Links.orgReDefault vs).2 = none) :
    ∃ s, start m args = (.serves s, []) := by
  obtain ⟨c, hc⟩ := (c65_accepted m.defaults args).mpr ⟨os, rest, hw, ha⟩
  have hm := c65_settings hc hw
  have h1 : c.help = false := by
    cases h : c.help with
    | false => rfl
    | true => exact absurd (hm.help.mp h) hp.help
  have h2 : c.version = false := by
    cases h : c.version with
    | false => rfl
    | true => exact absurd (hm.version.mp h) hp.version
  have h3 := (c49_none m.names m.install c).1
    ⟨hm.wrapper.trans hp.wrapper, hm.firefox.trans hp.firefox, hm.chrome.trans hp.chrome⟩
  have h4 : ∃ log, logOf m c.logFile = some log := by
    rw [hm.logFile]
    unfold logOf
    by_cases h : last .log "-" os = []
    · exact ⟨_, if_pos h⟩
    · rw [if_neg h]
      by_cases h' : last .log "-" os = dash
      · exact ⟨_, if_pos h'⟩
      · rw [if_neg h']
        have : m.openLog (last .log "-" os) = true := by
          rcases hl with hl | hl | hl
          · exact absurd hl h
          · exact absurd hl h'
          · exact hl
        exact ⟨_, if_pos this⟩
  have h5 : ∃ p, patterns c = some p := by
    unfold patterns
    by_cases h : c.scheme.isModified = true
    · rw [if_pos h]
      have hne := hm.schemeModified.mp h
      rcases hs with hs | hs
      · exact absurd hs hne
      · have := hs _ hm.scheme
        cases hu : Links.updateRe Links.orgReDefault c.scheme.values with
        | mk p e =>
          rw [hu] at this
          subst this
          exact ⟨p, rfl⟩
    · exact ⟨_, if_neg h⟩
  obtain ⟨log, h4⟩ := h4
  obtain ⟨p, h5⟩ := h5
  refine ⟨setup m c log p, ?_⟩
  unfold start
  simp only [hc, h1, h2, h3, h4, h5, Bool.false_eq_true, if_false]

theorem chosen_unique {ds gs a b : List Str} (ha : Chosen ds gs a) (hb : Chosen ds gs b) : a = b := by
  cases ha with
  | added h1 =>
    cases hb with
    | added h2 => rfl
    | reset h2 h3 => exact absurd rfl (h1 [] (by rw [h2]; simp))
  | reset h1 h2 =>
    cases hb with
    | added h3 => exact absurd rfl (h3 [] (by rw [h1]; simp))
    | reset h3 h4 =>
      subst h1
      have cut : ∀ (pre pre' a b : List Str), pre ++ [] :: a = pre' ++ [] :: b →
          (∀ v ∈ a, v ≠ []) → (∀ v ∈ b, v ≠ []) → a = b := by
        intro pre
        induction pre with
        | nil =>
          intro pre' a b h ha hb
          cases pre' with
          | nil => simpa using h
          | cons x pre' =>
            simp only [List.nil_append, List.cons_append, List.cons.injEq] at h
            exact absurd rfl (ha [] (by rw [h.2]; simp))
        | cons x pre ih =>
          intro pre' a b h ha hb
          cases pre' with
          | nil =>
            simp only [List.nil_append, List.cons_append, List.cons.injEq] at h
            exact absurd rfl (hb [] (by rw [← h.2]; simp))
          | cons y pre' =>
            simp only [List.cons_append, List.cons.injEq] at h
            exact ih pre' a b h.2 ha hb
      exact cut _ _ _ _ h3 h2 h4

/-- **C66.** A backend serves requests iff its command line is accepted, nothing else is requested,
its log can be opened, and patterns can be made of schemes, if those are given. -/
theorem c66_starts (m : Machine) (args : List Str) :
    (∃ s, (start m args).1 = .serves s) ↔ ∃ os rest, Written os rest args ∧ Acceptable os ∧
      Plain os ∧
      (last .log "-" os = [] ∨ last .log "-" os = "-".toList ∨
        m.openLog (last .log "-" os) = true) ∧
      (given .scheme os = [] ∨ ∃ vs, Chosen Links.schemeVariants (given .scheme os) vs ∧
        (Links.updateRe Links.orgReDefault vs).2 = none) := by
  constructor
  · rintro ⟨s, h⟩
    obtain ⟨c, log, p, h1, h2, h3, h4, h5, h6, h7, h8, rfl, h10⟩ := serves_inv h
    obtain ⟨os, rest, hw, ha⟩ := (c65_accepted _ _).mp ⟨c, h1⟩
    have hm := c65_settings h1 hw
    refine ⟨os, rest, hw, ha, (c66_serves h hw).2.1, ?_, ?_⟩
    · rw [← hm.logFile]
      unfold logOf at h7
      split at h7
      · rename_i e; exact .inl e
      · split at h7
        · rename_i e; exact .inr (.inl e)
        · split at h7
          · rename_i e; exact .inr (.inr e)
          · cases h7
    · by_cases hg : given .scheme os = []
      · exact .inl hg
      · refine .inr ⟨_, hm.scheme, ?_⟩
        unfold patterns at h8
        rw [if_pos (hm.schemeModified.mpr hg)] at h8
        split at h8
        · rename_i e; rw [e]
        · cases h8
  · rintro ⟨os, rest, hw, ha, hp, hl, hs⟩
    obtain ⟨s, h⟩ := starts m hw ha hp hl (hs.imp id fun ⟨vs, h1, h2⟩ vs' h3 => by
      rw [chosen_unique h3 h1]; exact h2)
    exact ⟨s, by rw [h]⟩

/-- **C66.** Simple schemes are fine. -/
theorem c66_simple {vs schemes : List Str} (hs : SchemesOf vs schemes) (h : Simple schemes) :
    (Links.updateRe Links.orgReDefault vs).2 = none := by
  obtain ⟨p, hp, _⟩ := Links.c56_configured (fun _ => false) Links.orgReDefault hs h.1 h.2
  rw [hp]

/-- **C66.** Help and version are just printed, whatever else is requested. -/
theorem c66_info (m : Machine) {args : List Str} {os : List Opt} {rest : List Str}
    (hw : Written os rest args) (ha : Acceptable os) :
    (On .help os → start m args = (.help, [])) ∧
    (¬On .help os → On .version os → start m args = (.version, [])) := by
  obtain ⟨c, hc⟩ := (c65_accepted m.defaults args).mpr ⟨os, rest, hw, ha⟩
  have hm := c65_settings hc hw
  unfold start
  simp only [hc]
  constructor
  · intro h; rw [if_pos (hm.help.mpr h)]
  · intro h h'; rw [if_neg (fun e => h (hm.help.mp e)), if_pos (hm.version.mpr h')]

theorem installs {m : Machine} {args : List Str} {c : Config}
    (hc : commandLine m.defaults args = .ok c) (hh : c.help = false) (hv : c.version = false)
    (hr : ¬(c.wrapper = [] ∧ c.firefox = [] ∧ c.chrome = [])) :
    (start m args).2 = (install m.names m.install c).2 ∧
    ((start m args).1 = .made ↔ (install m.names m.install c).1 = .ok true) ∧
    ((start m args).1 = .failed .install ↔ (install m.names m.install c).1 = .err ()) := by
  unfold start
  rw [hc]
  simp only [hh, hv, Bool.false_eq_true, if_false]
  have hn := c49_none m.names m.install c
  cases hi : install m.names m.install c with
  | mk r w =>
    rw [hi] at hn
    cases r with
    | err e => simp
    | panic => simp
    | ok b =>
      cases b with
      | true => simp
      | false => exact absurd (hn.2 rfl) hr

/-- **C66.** Success with generated files means that all requested ones have been written: the
script, and manifests for extensions on the command line. -/
theorem c66_made {m : Machine} {args : List Str} (h : (start m args).1 = .made)
    {os : List Opt} {rest : List Str} (hw : Written os rest args) :
    Made m os (start m args).2 := by
  cases hc : commandLine m.defaults args with
  | err e => unfold start at h; rw [hc] at h; cases h
  | panic => unfold start at h; rw [hc] at h; cases h
  | ok c =>
  have hm := c65_settings hc hw
  cases hh : c.help with
  | true => unfold start at h; rw [hc] at h; simp [hh] at h
  | false =>
  cases hv : c.version with
  | true => unfold start at h; rw [hc] at h; simp [hh, hv] at h
  | false =>
  have hr : ¬(c.wrapper = [] ∧ c.firefox = [] ∧ c.chrome = []) := by
    intro hr
    have hi := (c49_none m.names m.install c).1 hr
    unfold start at h
    rw [hc] at h
    simp only [hh, hv, Bool.false_eq_true, if_false, hi] at h
    split at h
    · cases h
    · split at h <;> cases h
  obtain ⟨h1, h2, _⟩ := installs hc hh hv hr
  have hok := h2.mp h
  obtain ⟨hs, _⟩ := c54_stops m.names m.install c
  obtain ⟨g1, g2, g3⟩ := c54_complete hok
  rw [h1]
  refine ⟨fun hh' => ?_, fun hv' => ?_, ?_, hs hok, ?_, ?_, ?_⟩
  · rw [hm.help.mpr hh'] at hh; cases hh
  · rw [hm.version.mpr hv'] at hv; cases hv
  · rw [← hm.wrapper, ← hm.firefox, ← hm.chrome]; exact hr
  · intro hf
    obtain ⟨x, hx, d, hd, he⟩ := g1 (by rw [hm.firefox]; exact hf)
    exact ⟨x, hx, d, hd, by rw [he]; exact hm.mozillaIds⟩
  · intro hf
    obtain ⟨x, hx, d, hd, he⟩ := g2 (by rw [hm.chrome]; exact hf)
    exact ⟨x, hx, d, hd, _, hm.chromeIds, he⟩
  · intro hf
    rcases g3 (by rw [hm.wrapper]; exact hf) with hx | ⟨_, path, ha, hp⟩
    · exact .inl hx
    · refine .inr ⟨path, hp, fun c' hc' => ?_⟩
      rw [← ha]
      unfold Env.wrapperPath
      rw [hc', hm.wrapper]

/-- **C66.** A failure to write a file is reported, and it is the last thing that is done. -/
theorem c66_write_failed {m : Machine} {args : List Str} {pre post : List Write} {x : Write}
    (h : (start m args).2 = pre ++ x :: post) (hx : m.install.write pre x = false) :
    post = [] ∧ (start m args).1 = .failed .install := by
  have hne : (start m args).2 ≠ [] := by rw [h]; simp
  cases hc : commandLine m.defaults args with
  | err e => unfold start at hne; rw [hc] at hne; simp at hne
  | panic => unfold start at hne; rw [hc] at hne; simp at hne
  | ok c =>
  cases hh : c.help with
  | true => unfold start at hne; rw [hc] at hne; simp [hh] at hne
  | false =>
  cases hv : c.version with
  | true => unfold start at hne; rw [hc] at hne; simp [hh, hv] at hne
  | false =>
  have hr : ¬(c.wrapper = [] ∧ c.firefox = [] ∧ c.chrome = []) := by
    intro hr
    have hi := (c49_none m.names m.install c).1 hr
    unfold start at hne
    rw [hc] at hne
    simp only [hh, hv, Bool.false_eq_true, if_false, hi] at hne
    split at hne
    · exact hne rfl
    · split at hne <;> exact hne rfl
  obtain ⟨h1, _, h3⟩ := installs hc hh hv hr
  rw [h1] at h
  obtain ⟨hp, he⟩ := (c54_stops m.names m.install c).2 pre x post h hx
  exact ⟨hp, h3.mpr he⟩

/-- **C66.** A bad command line starts nothing and writes nothing. -/
theorem c66_refused (m : Machine) (args : List Str)
    (h : ¬∃ os rest, Written os rest args ∧ Acceptable os) : start m args = (.badFlags, []) := by
  unfold start
  rw [c65_refused _ _ h]

/-- **C66.** Links of Org files: those with default schemes, or with the chosen ones.  Partial:
chosen schemes with special characters are missing. -/
theorem c66_org_partial {m : Machine} {args : List Str} {s : Setup} (h : (start m args).1 = .serves s)
    {os : List Opt} {rest : List Str} (hw : Written os rest args) :
    (given .scheme os = [] → ∀ line links,
      Laid defaultSchemes (HasScheme defaultSchemes) NotDefault line links →
      s.env.find.org line = links) ∧
    (∀ vs schemes, given .scheme os ≠ [] → Chosen Links.schemeVariants (given .scheme os) vs →
      SchemesOf vs schemes → Simple schemes → ∀ line links,
      Laid schemes (Accepted schemes) (fun url => ¬Accepted schemes url) line links →
      s.env.find.org line = links) := by
  obtain ⟨c, log, p, h1, _, _, _, _, _, _, h8, rfl, _⟩ := serves_inv h
  have hm := c65_settings h1 hw
  have hfind : ∀ line, (setup m c log p).env.find.org line = orgFindWith m.letter p line :=
    fun _ => rfl
  unfold patterns at h8
  constructor
  · intro hs line links hl
    rw [if_neg (fun e => hm.schemeModified.mp e hs)] at h8
    cases h8
    rw [hfind, orgFindWith, Links.c56_line m.letter line links hl]
  · intro vs schemes hs hv hss hsim line links hl
    rw [if_pos (hm.schemeModified.mpr hs)] at h8
    have huniq : c.scheme.values = vs := chosen_unique hm.scheme hv
    obtain ⟨p', hp', hfound⟩ := Links.c56_configured m.letter Links.orgReDefault hss hsim.1 hsim.2
    rw [huniq, hp'] at h8
    cases h8
    rw [hfind, orgFindWith, hfound line links hl]

/-- **C66.** Addresses in text files: schemes do not matter. -/
theorem c66_txt {m : Machine} {args : List Str} {s : Setup} (h : (start m args).1 = .serves s)
    (hm : Marks m.letter) {line : Str} {urls : List Str}
    (hl : LineLaid m.letter Links.Spec.white line urls) :
    s.env.find.txt line = urls.map fun u => ⟨u, [], 0⟩ := by
  obtain ⟨c, log, p, _, _, _, _, _, _, _, _, rfl, _⟩ := serves_inv h
  exact Links.c58_line hm hl

/-- **C66.** Capabilities that are advertised follow the command line. -/
theorem c66_hello {m : Machine} {args : List Str} {s : Setup} (h : (start m args).1 = .serves s)
    {os : List Opt} {rest : List Str} (hw : Written os rest args) {formats : List HelloFormat}
    {r : HelloResponse} (hr : hello s.env.backend formats = .ok r) :
    ("visit".toList ∈ r.capabilities ↔ typed os ≠ [] ∨ rest ≠ []) ∧
    ("urlMentions".toList ∈ r.capabilities ↔ typed os ≠ [] ∨ rest ≠ []) ∧
    ("linkSet".toList ∈ r.capabilities ↔
      (typed os ≠ [] ∨ rest ≠ []) ∧ ¬On .disableLinkSet os) := by
  obtain ⟨hs, _, _⟩ := c66_serves h hw
  obtain ⟨_, _, _, h1, h2, h3, _⟩ := c39_reply _ _ _ _ hr
  have he : s.env.sources ≠ [] ↔ typed os ≠ [] ∨ rest ≠ [] := by
    obtain ⟨ss, ha, hb⟩ := hs.sources
    have e1 : s.env.sources = [] ↔ typed os ++ ss = [] := by
      generalize typed os ++ ss = l at hb
      generalize s.env.sources = l' at hb
      cases hb <;> simp
    have e2 : ss = [] ↔ rest = [] := by cases ha <;> simp
    rw [Ne, e1, List.append_eq_nil_iff, e2, Classical.not_and_iff_not_or_not]
  refine ⟨h1.trans he, h2.trans he, h3.trans ?_⟩
  rw [he, ← hs.linkSet, Bool.not_eq_true]

theorem start_same {m : Machine} {args args' : List Str} {c c' : Config}
    (h : commandLine m.defaults args = .ok c) (h' : commandLine m.defaults args' = .ok c')
    (hs : StartsBackend c) (hs' : StartsBackend c') (hc : SameSettings c c') :
    start m args = start m args' := by
  obtain ⟨a1, a2, a3, a4, a5⟩ := hs
  obtain ⟨b1, b2, b3, b4, b5⟩ := hs'
  obtain ⟨c1, c2, c3, c4, c5, c6, c7⟩ := hc
  have e1 := (c49_none m.names m.install c).1 ⟨a1, a2, a3⟩
  have e2 := (c49_none m.names m.install c').1 ⟨b1, b2, b3⟩
  have e3 : patterns c = patterns c' := by unfold patterns; rw [c5, c7]
  have e4 : setup m c = setup m c' := by
    funext log p
    unfold setup
    rw [c2, c3, c4, c6]
  unfold start
  simp only [h, h', a4, a5, b4, b5, e1, e2, c1, e3, e4]

/-- **C66.** A generated wrapper, whatever arguments it is started with by a browser, does what any
command line does that starts a backend with the settings the wrapper was made from, with paths made
absolute.  (The wrapper does not use its arguments: `exec` in install.go:132 has no `$@`.) -/
theorem c66_wrapper {m : Machine} {args : List Str} {c c0 : Config} {exe : Res Unit Str}
    {abs real : Str → Res Unit Str} {e : Str} {quote : Str → Option Str} {ts : List Str}
    (hcmd : commandLine m.defaults args = .ok c) (hfix : c.fixPaths exe abs real = .ok (e, c0))
    (hsh : asShellCommand quote c0 = some ts)
    (hq : ∀ s ∈ c0.strings, ∀ q, quote s = some q → Args.Reads q s) :
    ∃ ws, shWords (joinSpace ts) = some ws ∧
      ∀ args' c', commandLine m.defaults args' = .ok c' → StartsBackend c' → SameSettings c' c0 →
        start m ws = start m args' := by
  obtain ⟨ws, c1, h1, h2, h3, h4⟩ := c47_round_trip hcmd hfix hsh hq
  refine ⟨ws, h1, fun args' c' h5 h6 h7 => start_same h2 h5 h4 h6 ?_⟩
  obtain ⟨a1, a2, a3, a4, a5, a6, a7⟩ := h3
  obtain ⟨b1, b2, b3, b4, b5, b6, b7⟩ := h7
  exact ⟨a1.trans b1.symm, a2.trans b2.symm, a3.trans b3.symm, a4.trans b4.symm, a5.trans b5.symm,
    a6.trans b6.symm, a7.trans b7.symm⟩

/-- **C66.** A manifest may name the backend itself, if there are no options for it (C54); a browser
starts it with arguments: Firefox passes the path of the manifest and the identifier of the
extension, Chrome passes the origin of the extension.  The arguments are taken for names of files,
so the backend, for which no file was configured, advertises `visit`, `urlMentions` and `linkSet`,
and fails to answer to any query with a URL.  Started without arguments it advertises nothing. -/
theorem c66_violation_browser (m : Machine) (browser : List Str)
    (hb : (∃ manifest id, browser = ['/' :: manifest, id] ∧ m.files id = none) ∨
      ∃ id, browser = ["chrome-extension://".toList ++ id ++ "/".toList] ∧
        m.files ("chrome-extension://".toList ++ id ++ "/".toList) = none) :
    (∃ s, start m browser = (.serves s, []) ∧
      capabilities s.env.backend = ["visit".toList, "urlMentions".toList, "linkSet".toList] ∧
      ∀ q v err, ¬(q : Tree.MentionsQuery).variants.all (·.isEmpty) →
        Returns s.env .urlMentions (.urlMentions q) v err → err ≠ none) ∧
    ∃ s, start m [] = (.serves s, []) ∧ capabilities s.env.backend = [] := by
  have key : ∀ rest : List Str, (∀ a, rest.head? = some a → a.head? ≠ some '-') →
      start m rest = (.serves (setup m { Config.fresh m.defaults with
        sources := addSourceArgs [] rest } .stderr Links.orgReDefault), []) := by
    intro rest hr
    have hp : parse (.fresh m.defaults) rest = .ok (.fresh m.defaults, rest) := by
      cases rest with
      | nil => rfl
      | cons a rest =>
        have : classify a = .plain := by
          unfold classify
          split
          · exact absurd rfl (hr _ rfl)
          · rfl
        rw [parse.eq_def]
        simp only [this]
    have hc : commandLine m.defaults rest = .ok { Config.fresh m.defaults with
        sources := addSourceArgs [] rest } := by
      unfold commandLine
      rw [hp]
      rfl
    unfold start
    rw [hc]
    rfl
  refine ⟨?_, _, key [] (by simp), rfl⟩
  have fails : ∀ rest : List Str, (∃ id ∈ rest, m.files id = none) →
      ∀ q v err, ¬(q : Tree.MentionsQuery).variants.all (·.isEmpty) →
        Returns (setup m { Config.fresh m.defaults with
        sources := addSourceArgs [] rest } .stderr Links.orgReDefault).env .urlMentions
          (.urlMentions q) v err → err ≠ none := by
    rintro rest ⟨id, hid, hnone⟩ q v err hq hr
    generalize hs : setup m { Config.fresh m.defaults with
        sources := addSourceArgs [] rest } .stderr Links.orgReDefault = s at hr
    have hin : ∃ src ∈ s.env.sources, Extract.fileErr s.env.files src ≠ none := by
      obtain ⟨ss, h1, h2⟩ := c52_positional [] rest
      have hmem : ∀ {as : List Str} {ss : List Args.Source}, SourcesOf as ss → id ∈ as →
          ∃ x ∈ ss, x.name = id := by
        intro as ss h
        induction h with
        | nil => intro h; cases h
        | cons hp _ ih =>
          intro h
          rcases List.mem_cons.mp h with rfl | h
          · exact ⟨_, List.mem_cons_self, hp.1⟩
          · obtain ⟨x, hx, he⟩ := ih h
            exact ⟨x, List.mem_cons_of_mem _ hx, he⟩
      obtain ⟨x, hx, he⟩ := hmem h2 hid
      refine ⟨source x, ?_, ?_⟩
      · rw [← hs]
        show source x ∈ (addSourceArgs [] rest).map source
        rw [h1]
        exact List.mem_map.mpr ⟨x, hx, rfl⟩
      · rw [← hs]
        have hf : (setup m { Config.fresh m.defaults with
            sources := addSourceArgs [] rest } .stderr Links.orgReDefault).env.files
            (source x).name = none := by
          show m.files x.name = none
          rw [he, hnone]
        unfold Extract.fileErr
        rw [hf]
        nofun
    obtain ⟨h, group, err', hi, herr, _⟩ := Extract.c27_init s.env.find s.env.files s.env.sources
    have hne : err' ≠ none := by
      intro e
      obtain ⟨_, h2, _⟩ := herr.mp e
      obtain ⟨src, h3, h4⟩ := hin
      exact h4 (h2 src h3)
    cases hr with
    | mentions _ hi' hm _ =>
      rw [hi] at hi'
      injection hi' with hi'
      injection hi' with e1 e2
      injection e2 with e2 e3
      subst e1 e2 e3
      cases err' with
      | none => exact absurd rfl hne
      | some x =>
        exfalso
        unfold Tree.UrlMentions at hm
        rw [if_neg hq] at hm
        cases hm
    | noUrls h => nofun
    | mentionsErr _ _ _ => nofun
  rcases hb with ⟨manifest, id, rfl, hf⟩ | ⟨id, rfl, hf⟩
  · exact ⟨_, key _ (by simp), rfl, fails _ ⟨id, by simp, hf⟩⟩
  · exact ⟨_, key _ (by simp), rfl, fails _ ⟨_, List.mem_cons_self, hf⟩⟩

/-! A command line with several options. -/
section

theorem exPlain : Plain exOpts := by
  constructor
  · rintro ⟨v, h, _⟩; simp [exOpts, given] at h
  · rintro ⟨v, h, _⟩; simp [exOpts, given] at h
  all_goals simp [exOpts, given, last]

theorem exSimple : Simple ["gopher".toList] := by
  unfold Simple Links.Literal Alnum
  decide +kernel

theorem exStarts (m : Machine) : ∃ s, start m (["-log=", "--org", "a.org",
    "-disable-link-set", "--scheme=", "-scheme", "gopher", "b.org", "-x"].map String.toList) =
      (.serves s, []) := by
  refine starts m exWritten exAcceptable exPlain (.inl rfl) (.inr ?_)
  intro vs h
  have hg : given .scheme exOpts = [[], "gopher".toList] := rfl
  rw [hg] at h
  cases h with
  | added h => exact absurd rfl (h [] (by simp))
  | @reset pre post h1 h2 =>
    cases pre with
    | nil =>
      simp only [List.nil_append, List.cons.injEq, true_and] at h1
      subst h1
      exact c66_simple (Links.schemesOf_unique _) exSimple
    | cons a pre =>
      cases pre with
      | nil => simp at h1
      | cons b pre => simp at h1

/-! A manifest for Firefox: success when it can be written, failure when it can not. -/
def exMachine (ok : Bool) : Machine where
  mozilla := "a@b".toList
  chrome := "abc".toList
  names := ⟨"burl".toList, "Backend".toList⟩
  install := ⟨.ok "/bin/burl".toList, some "/".toList, fun _ _ => .nonDir, .ok, some, fun _ _ => ok⟩
  openLog _ := true
  letter _ := false
  files _ := none
  now _ := True

example : (start (exMachine true) ["-manifest-firefox=/m.json".toList]).1 = .made ∧
    (start (exMachine true) ["-manifest-firefox=/m.json".toList]).2.length = 1 ∧
    (start (exMachine false) ["-manifest-firefox=/m.json".toList]).1 = .failed .install :=
  ⟨by with_unfolding_all rfl, by decide +kernel, by with_unfolding_all rfl⟩

/-! Both kinds of arguments of browsers. -/
example (m : Machine) (h : m.files "a@b".toList = none) :
    ∃ s, start m ["/m.json".toList, "a@b".toList] = (.serves s, []) ∧
      capabilities s.env.backend ≠ [] := by
  obtain ⟨s, h1, h2, _⟩ := (c66_violation_browser m ["/m.json".toList, "a@b".toList]
    (.inl ⟨"m.json".toList, _, rfl, h⟩)).1
  exact ⟨s, h1, by rw [h2]; nofun⟩

end

end Burl.Backend.Main
