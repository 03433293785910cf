import Verif.Links.OrgLemmas
/-! Patterns of links for schemes given by the user. -/
namespace Burl.Links
open Burl.Regex Spec Burl.Tree.Spec

/-- Text without characters that are special in patterns. -/
def Literal (s : Str) : Prop := s ≠ [] ∧ ∀ c ∈ s, c ∉ "\\.+*?()|[]{}^$".toList

theorem quoteMeta_literal {s : Str} (h : ∀ c ∈ s, c ∉ "\\.+*?()|[]{}^$".toList) :
    quoteMeta s = s := by
  induction s with
  | nil => rfl
  | cons c cs ih =>
    rw [quoteMeta, if_neg (h c (by simp)), ih fun d hd => h d (by simp [hd])]

theorem map_quoteMeta {ls : List Str} (h : ∀ l ∈ ls, Literal l) : ls.map quoteMeta = ls := by
  induction ls with
  | nil => rfl
  | cons l ls ih =>
    rw [List.map_cons, quoteMeta_literal (h l (by simp)).2, ih fun m hm => h m (by simp [hm])]

/-- Schemes in a group. -/
theorem run_schemes {top : Level} {outer : List Level} {g : Nat} (hf : top.fold = false)
    {ls : List Str} (hne : ls ≠ []) (h : ∀ l ∈ ls, Literal l) :
    (PState.mk .paren top outer g).run (joinBar ls ++ ")".toList) =
      some ⟨.norm, { top with cur := .group (g + 1) (oneOf ls) :: top.cur }, outer, g + 1⟩ := by
  obtain ⟨l, ls', rfl⟩ := List.exists_cons_of_ne_nil hne
  have hl := h l (by simp)
  obtain ⟨c, cs, hc⟩ := List.exists_cons_of_ne_nil hl.1
  have hq : c ≠ '?' := by
    rintro rfl
    exact hl.2 '?' (by rw [hc]; simp) (by decide)
  have e1 : ∃ ds, joinBar (l :: ls') ++ ")".toList = c :: ds := by
    cases ls' with
    | nil => exact ⟨cs ++ ")".toList, by simp [joinBar, hc]⟩
    | cons m ms => exact ⟨cs ++ '|' :: joinBar (m :: ms) ++ ")".toList, by simp [joinBar, hc]⟩
  obtain ⟨ds, e1⟩ := e1
  have e2 : (PState.mk .paren top outer g).run (joinBar (l :: ls') ++ ")".toList) =
      ((PState.mk .paren top outer g).openGroup (some (g + 1)) (g + 1)).run
        (joinBar (l :: ls') ++ ")".toList) := by
    rw [e1]
    exact run_paren rfl hq ds
  rw [e2, PState.run_append]
  obtain ⟨s', h1, h2, h3, h4, h5, h6⟩ := run_joinBar
    (s := (PState.mk .paren top outer g).openGroup (some (g + 1)) (g + 1)) ⟨rfl, hf⟩ rfl l ls'
  rw [map_quoteMeta h] at h1
  rw [h1, Option.bind_some]
  show s'.run [')'] = _
  have e3 : s'.step ')' = s'.closeGroup := by
    unfold PState.step; rw [h2.1]; rfl
  simp only [PState.run, e3]
  unfold PState.closeGroup
  rw [h3]
  have e4 : PState.levelRe s'.top = .group (g + 1) (oneOf (l :: ls')) := by
    unfold PState.levelRe
    rw [h5]
    simp only [PState.openGroup]
    rw [h6]
    rfl
  simp only [PState.openGroup, Option.bind_some, e4, h4]

set_option maxRecDepth 100000 in
theorem run_angle_scheme (l : Level) (r : Re) (g : Nat) :
    (PState.mk .norm ⟨none, false, l.alts, [r, .lit '<']⟩ [] g).run
      (":(".toList ++ (reAngleSuffixStr ++ ")>|\\b(".toList)) =
      some ⟨.paren, ⟨none, false, l.alts ++ [cats [.lit '<', r, .lit ':',
        .group (g + 1) (cats angleItems.reverse), .lit '>']], [.wordB]⟩, [], g + 1⟩ := by
  rfl

set_option maxRecDepth 100000 in
theorem run_plain_scheme (l : Level) (r : Re) (g : Nat) :
    (PState.mk .norm ⟨none, false, l.alts, [r, .wordB]⟩ [] g).run
      (":(".toList ++ (rePlainSuffixStr ++ ")".toList)) =
      some ⟨.norm, ⟨none, false, l.alts, [.group (g + 1) (cats plainItems.reverse), .lit ':', r,
        .wordB]⟩, [], g + 1⟩ := by
  rfl

/-- The pattern of links with literal schemes. -/
theorem compile_link {ls : List Str} (hne : ls ≠ []) (h : ∀ l ∈ ls, Literal l) :
    compile (makeLinkReStr (joinBar ls)) = some (linkRe (oneOf ls)) := by
  have e0 : makeLinkReStr (joinBar ls) =
      (reBracketStr ++ "|<(".toList) ++ ((joinBar ls ++ ")".toList) ++
        ((":(".toList ++ (reAngleSuffixStr ++ ")>|\\b(".toList)) ++
          ((joinBar ls ++ ")".toList) ++ (":(".toList ++ (rePlainSuffixStr ++ ")".toList))))) := by
    unfold makeLinkReStr
    rw [show "|<(".toList = "|".toList ++ "<(".toList by decide,
      show ")>|\\b(".toList = ")>".toList ++ ("|".toList ++ "\\b(".toList) by decide,
      show "):(".toList = ")".toList ++ ":(".toList by decide]
    simp only [List.append_assoc]
  have e1 : PState.init.run (reBracketStr ++ "|<(".toList) =
      some ⟨.paren, ⟨none, false, [bracketRe], [.lit '<']⟩, [], 2⟩ := by
    decide +kernel
  have e2 := run_angle_scheme ⟨none, false, [bracketRe], []⟩ (.group 3 (oneOf ls)) 3
  simp only at e2
  unfold compile
  rw [e0, PState.run_append, e1, Option.bind_some, PState.run_append, run_schemes rfl hne h,
    Option.bind_some, PState.run_append]
  simp only
  rw [e2, Option.bind_some, PState.run_append, run_schemes rfl hne h, Option.bind_some]
  have e3 := run_plain_scheme ⟨none, false, [bracketRe] ++ [cats [.lit '<', .group 3 (oneOf ls),
    .lit ':', .group 4 (cats angleItems.reverse), .lit '>']], []⟩ (.group 5 (oneOf ls)) 5
  simp only at e3
  simp only
  rw [e3]
  rfl

/-- The expression for one literal scheme. -/
theorem compile_scheme_one {l : Str} (h : Literal l) :
    compile ("^".toList ++ joinBar [l] ++ ":".toList) =
      some (cats (.bol :: (l ++ [':']).map .lit)) := by
  have hq : quoteMeta (l ++ [':']) = l ++ [':'] := by
    apply quoteMeta_literal
    intro c hc
    rcases List.mem_append.1 hc with h1 | h1
    · exact h.2 c h1
    · simp only [List.mem_singleton] at h1; subst h1; decide
  unfold compile
  rw [List.append_assoc, PState.run_append]
  have e1 : PState.init.run "^".toList = some (PState.init.push .bol) := by decide +kernel
  rw [e1, Option.bind_some]
  show Option.bind (PState.run _ (l ++ [':'])) _ = _
  rw [← hq, PState.run_quoteMeta ⟨rfl, rfl⟩, Option.bind_some]
  have e2 : ((PState.init.push .bol).add ((l ++ [':']).map .lit)).top.cur.reverse =
      .bol :: (l ++ [':']).map .lit := by
    simp only [PState.add, PState.push, PState.init, List.reverse_append, List.reverse_reverse,
      List.reverse_cons, List.reverse_nil, List.nil_append, List.singleton_append]
  show some (PState.levelRe _) = _
  unfold PState.levelRe
  simp only [Option.some.injEq]
  show alts ([] ++ [cats ((PState.init.push .bol).add ((l ++ [':']).map .lit)).top.cur.reverse]) = _
  rw [e2, hq]
  rfl

/-- The check of links in brackets for one literal scheme. -/
theorem scheme_check_one {letter : Char → Bool} {l text : Str}
    (h : matchString letter (cats (.bol :: (l ++ [':']).map .lit)) text = true) :
    l ++ [':'] <+: text := by
  unfold matchString at h
  obtain ⟨w, t, rfl, hne⟩ := findFrom_isSome.1 h
  obtain ⟨s', hs⟩ := List.exists_mem_of_ne_nil _ hne
  rw [mem_cats_cons (by simp)] at hs
  obtain ⟨u, g1, g2⟩ := mem_cat.1 hs
  obtain ⟨rfl, hp⟩ := mem_bol.1 g1
  have : w = [] := by simpa using hp
  subst this
  exact ⟨s'.rest, (mem_lits.1 g2).1.1.symm⟩

/-! The expression for several schemes: `^` belongs to the first one, the colon to the last one. -/

/-- Any number of literal alternatives after the first item. -/
theorem run_alternatives {s : PState} (h : s.Plain) (l : Str) (ls : List Str) :
    ∃ s' : PState, s.run (joinBar ((l :: ls).map quoteMeta)) = some s' ∧ s'.Plain ∧
      s'.outer = s.outer := by
  induction ls generalizing s l with
  | nil => exact ⟨s.add (l.map .lit), PState.run_quoteMeta h l, h, rfl⟩
  | cons m ms ih =>
    have e : joinBar ((l :: m :: ms).map quoteMeta) =
        quoteMeta l ++ ('|' :: joinBar ((m :: ms).map quoteMeta)) := rfl
    have e2 : (s.add (l.map .lit)).step '|' = some { s.add (l.map .lit) with
        mode := .norm
        top := { (s.add (l.map .lit)).top with
          alts := s.top.alts ++ [cats (s.add (l.map .lit)).top.cur.reverse], cur := [] } } := by
      unfold PState.step
      rw [(PState.add_plain h).1]
      rfl
    rw [e, PState.run_append, PState.run_quoteMeta h]
    simp only [Option.bind_some, PState.run, e2]
    exact ih (s := { s.add (l.map .lit) with
        mode := .norm
        top := { (s.add (l.map .lit)).top with
          alts := s.top.alts ++ [cats (s.add (l.map .lit)).top.cur.reverse], cur := [] } })
      ⟨rfl, h.2⟩ m

theorem compile_scheme {ls : List Str} (hne : ls ≠ []) (h : ∀ l ∈ ls, Literal l) :
    ∃ r, compile ("^".toList ++ joinBar ls ++ ":".toList) = some r := by
  obtain ⟨l, ls', rfl⟩ := List.exists_cons_of_ne_nil hne
  unfold compile
  rw [List.append_assoc, PState.run_append]
  have e1 : PState.init.run "^".toList = some (PState.init.push .bol) := by decide +kernel
  rw [e1, Option.bind_some, PState.run_append]
  obtain ⟨s', h1, h2, h3⟩ := run_alternatives (s := PState.init.push .bol) ⟨rfl, rfl⟩ l ls'
  rw [map_quoteMeta h] at h1
  rw [h1, Option.bind_some]
  have e2 : s'.run ":".toList = some (s'.add [.lit ':']) := by
    have := PState.run_quoteMeta h2 [':']
    rwa [quoteMeta_literal (by decide)] at this
  rw [e2, Option.bind_some]
  unfold PState.finish
  rw [show (s'.add [.lit ':']).mode = .norm from h2.1,
    show (s'.add [.lit ':']).outer = [] from h3]
  exact ⟨_, rfl⟩

theorem oneOf_idxs (ls : List Str) : idxs (oneOf ls) = [] := by
  have lits : ∀ w : Str, idxs (cats (w.map .lit)) = [] := by
    intro w
    induction w with
    | nil => rfl
    | cons c cs ih =>
      cases cs with
      | nil => rfl
      | cons d ds =>
        have : cats ((c :: d :: ds).map .lit) = .cat (.lit c) (cats ((d :: ds).map .lit)) := rfl
        rw [this, idxs, ih]; rfl
  unfold oneOf
  induction ls with
  | nil => rfl
  | cons l ls ih =>
    cases ls with
    | nil => exact lits l
    | cons m ms =>
      have : alts ((l :: m :: ms).map fun l => cats (l.map .lit)) =
        .alt (cats (l.map .lit)) (alts ((m :: ms).map fun l => cats (l.map .lit))) := rfl
      rw [this, idxs, ih, lits]
      rfl

theorem oneOf_lang {letter : Char → Bool} {ls : List Str} (s s' : St) (w : Str)
    (h : s' ∈ run letter (oneOf ls) s) (m : Moves s s' w) : w ∈ ls := by
  obtain ⟨l, hl, m', -⟩ := mem_oneOf.1 h
  have := m'.unique m
  subst this
  exact hl

end Burl.Links
