import Verif.Regex.ParseLemmas
import Verif.Links.Model
/-! Patterns of linkSet compile to expressions in which prefixes are literal text. -/
namespace Burl.Links
open Burl.Regex

/-- One of the texts, literally. -/
def oneOf (ls : List Str) : Re := alts (ls.map fun l => cats (l.map .lit))

/-- A state after `(?:` and some alternatives. -/
theorem run_joinBar {s : PState} (h : s.Plain) (hc : s.top.cur = []) (l : Str) (ls : List Str) :
    ∃ s' : PState, s.run (joinBar ((l :: ls).map quoteMeta)) = some s' ∧ s'.Plain ∧
      s'.outer = s.outer ∧ s'.groups = s.groups ∧ s'.top.capture = s.top.capture ∧
      s'.top.alts ++ [cats s'.top.cur.reverse] =
        s.top.alts ++ (l :: ls).map fun l => cats (l.map .lit) := by
  induction ls generalizing s l with
  | nil =>
    refine ⟨s.add (l.map .lit), PState.run_quoteMeta h l, h, rfl, rfl, rfl, ?_⟩
    simp [PState.add, hc]
  | cons m ms ih =>
    have e : joinBar ((l :: m :: ms).map quoteMeta) =
        quoteMeta l ++ ('|' :: joinBar ((m :: ms).map quoteMeta)) := rfl
    have e2 : (s.add (l.map .lit)).step '|' = some { s.add (l.map .lit) with
        mode := .norm
        top := { (s.add (l.map .lit)).top with
          alts := s.top.alts ++ [cats (s.add (l.map .lit)).top.cur.reverse], cur := [] } } := by
      unfold PState.step
      rw [(PState.add_plain h).1]
      rfl
    rw [e, PState.run_append, PState.run_quoteMeta h]
    simp only [Option.bind_some, PState.run, e2]
    obtain ⟨s', h1, h2, h3, h4, h5, h6⟩ := ih (s := { s.add (l.map .lit) with
        mode := .norm
        top := { (s.add (l.map .lit)).top with
          alts := s.top.alts ++ [cats (s.add (l.map .lit)).top.cur.reverse], cur := [] } })
      ⟨rfl, h.2⟩ rfl m
    refine ⟨s', h1, h2, h3, h4, h5, ?_⟩
    rw [h6]
    simp [PState.add, hc]

/-- The base pattern is read as one of the prefixes. -/
theorem run_base {s : PState} (h : s.Plain) {ls : List Str} (hl : ls ≠ []) :
    s.run ("(?:".toList ++ joinBar (ls.map quoteMeta) ++ ")".toList) = some (s.push (oneOf ls)) := by
  obtain ⟨l, ls', rfl⟩ := List.exists_cons_of_ne_nil hl
  have e1 : s.run "(?:".toList = some (s.openGroup none s.groups) := by
    show s.run ['(', '?', ':'] = _
    have : s.step '(' = some { s with mode := .paren } := by
      unfold PState.step; rw [h.1]; rfl
    simp only [PState.run, this, Option.bind_some]
    rfl
  rw [List.append_assoc, PState.run_append, e1, Option.bind_some, PState.run_append]
  obtain ⟨s', h1, h2, h3, h4, h5, h6⟩ := run_joinBar (s := s.openGroup none s.groups)
    ⟨rfl, h.2⟩ rfl l ls'
  rw [h1, Option.bind_some]
  show s'.run [')'] = _
  have e2 : s'.step ')' = s'.closeGroup := by
    unfold PState.step; rw [h2.1]; rfl
  simp only [PState.run, e2]
  unfold PState.closeGroup
  rw [h3]
  have e3 : PState.levelRe s'.top = oneOf (l :: ls') := by
    unfold PState.levelRe
    rw [h5]
    simp only [PState.openGroup]
    rw [h6]
    rfl
  simp only [PState.openGroup, Option.bind_some, e3, Option.some.injEq]
  unfold PState.push
  rw [h4]
  rfl

/-! ### Constant parts -/

/-- A link in double brackets. -/
def bracketRe : Re := (compile reBracketStr).getD .never

/-- Items of the part after the prefix. -/
def angleItems : List Re :=
  match PState.init.run reAngleSuffixStr with
  | some s => s.top.cur
  | none => []

def plainItems : List Re :=
  match PState.init.run rePlainSuffixStr with
  | some s => s.top.cur
  | none => []

theorem compile_prefix {ls : List Str} (hl : ls ≠ []) :
    compile ("^".toList ++ ("(?:".toList ++ joinBar (ls.map quoteMeta) ++ ")".toList)) =
      some (.cat .bol (oneOf ls)) := by
  unfold compile
  rw [PState.run_append]
  have : PState.init.run "^".toList = some (PState.init.push .bol) := by decide +kernel
  rw [this, Option.bind_some, run_base ⟨rfl, rfl⟩ hl]
  rfl

/-- The group is opened by the first character after the parenthesis. -/
theorem run_paren {s : PState} (h : s.mode = .paren) {c : Char} (hc : c ≠ '?') (cs : Str) :
    s.run (c :: cs) = (s.openGroup (some (s.groups + 1)) (s.groups + 1)).run (c :: cs) := by
  have e : s.step c = (s.openGroup (some (s.groups + 1)) (s.groups + 1)).step c := by
    unfold PState.step
    rw [h]
    simp [hc, PState.openGroup]
  simp only [PState.run, e]

theorem run_base_paren {s : PState} (h : s.mode = .paren) (hf : s.top.fold = false)
    {ls : List Str} (hl : ls ≠ []) :
    s.run ("(?:".toList ++ joinBar (ls.map quoteMeta) ++ ")".toList) =
      some ((s.openGroup (some (s.groups + 1)) (s.groups + 1)).push (oneOf ls)) := by
  rw [← run_base (s := s.openGroup (some (s.groups + 1)) (s.groups + 1)) ⟨rfl, hf⟩ hl]
  exact run_paren h (by decide) _

set_option maxRecDepth 100000 in
/-- The state after `\b(` and the base at the beginning of a pattern. -/
theorem run_plain (l : Level) (r : Re) (g : Nat) :
    (PState.mk .norm ⟨some g, false, [], [r]⟩ [l] g).run (rePlainSuffixStr ++ ")".toList) =
      some ⟨.norm, { l with cur := .group g (cats (r :: plainItems.reverse)) :: l.cur }, [], g⟩ := by
  rfl

theorem compile_txt {ls : List Str} (hl : ls ≠ []) :
    compile (setPattern .txt ("(?:".toList ++ joinBar (ls.map quoteMeta) ++ ")".toList)) =
      some (.cat .wordB (.group 1 (cats (oneOf ls :: plainItems.reverse)))) := by
  unfold compile setPattern
  simp only
  rw [List.append_assoc, List.append_assoc, PState.run_append]
  have e1 : PState.init.run "\\b(".toList = some { PState.init.push .wordB with mode := .paren } := by
    decide +kernel
  rw [e1, Option.bind_some, PState.run_append, run_base_paren rfl rfl hl, Option.bind_some]
  show Option.bind ((PState.mk .norm ⟨some 1, false, [], [oneOf ls]⟩ [_] 1).run _) _ = _
  rw [run_plain]
  rfl

/-- A link in angle brackets that begins with `r`. -/
def angleRe (i : Nat) (r : Re) : Re :=
  cats [.lit '<', .group i (cats (r :: angleItems.reverse)), .lit '>']

set_option maxRecDepth 100000 in
theorem run_angle (l : Level) (r : Re) (g : Nat) :
    (PState.mk .norm ⟨some g, false, [], [r]⟩ [⟨none, false, l.alts, [.lit '<']⟩] g).run
      (reAngleSuffixStr ++ ")>|\\b(".toList) =
      some ⟨.paren, ⟨none, false, l.alts ++ [angleRe g r], [.wordB]⟩, [], g⟩ := by
  rfl

theorem compile_org {ls : List Str} (hl : ls ≠ []) :
    compile (setPattern .org ("(?:".toList ++ joinBar (ls.map quoteMeta) ++ ")".toList)) =
      some (alts [bracketRe, angleRe 3 (oneOf ls),
        .cat .wordB (.group 4 (cats (oneOf ls :: plainItems.reverse)))]) := by
  have e0 : setPattern .org ("(?:".toList ++ joinBar (ls.map quoteMeta) ++ ")".toList) =
      (reBracketStr ++ "|<(".toList) ++ (("(?:".toList ++ joinBar (ls.map quoteMeta) ++ ")".toList) ++
        ((reAngleSuffixStr ++ ")>|\\b(".toList) ++
          (("(?:".toList ++ joinBar (ls.map quoteMeta) ++ ")".toList) ++
            (rePlainSuffixStr ++ ")".toList)))) := by
    unfold setPattern
    rw [show "|<(".toList = "|".toList ++ "<(".toList by decide,
      show ")>|\\b(".toList = ")>".toList ++ ("|".toList ++ "\\b(".toList) by decide]
    simp only [List.append_assoc]
  have e1 : PState.init.run (reBracketStr ++ "|<(".toList) =
      some ⟨.paren, ⟨none, false, [bracketRe], [.lit '<']⟩, [], 2⟩ := by
    decide +kernel
  unfold compile
  rw [e0, PState.run_append, e1, Option.bind_some, PState.run_append, run_base_paren rfl rfl hl,
    Option.bind_some, PState.run_append]
  have e2 := run_angle ⟨none, false, [bracketRe], []⟩ (oneOf ls) 3
  simp only at e2
  show Option.bind (Option.bind ((PState.mk .norm ⟨some 3, false, [], [oneOf ls]⟩ [_] 3).run _) _) _ = _
  rw [show (⟨none, false, [bracketRe], [.lit '<']⟩ : Level) =
    ⟨none, false, [bracketRe], [.lit '<']⟩ from rfl, e2, Option.bind_some, PState.run_append,
    run_base_paren rfl rfl hl, Option.bind_some]
  show Option.bind ((PState.mk .norm ⟨some 4, false, [], [oneOf ls]⟩ [_] 4).run _) _ = _
  rw [run_plain]
  rfl

end Burl.Links
