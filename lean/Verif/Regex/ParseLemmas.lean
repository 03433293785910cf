import Verif.Regex.Lemmas
/-! Facts about the parser of patterns: patterns are read piece by piece, quoted text is read as
literals. -/
namespace Burl.Regex
namespace PState

theorem run_append (s : PState) (a b : Str) : s.run (a ++ b) = (s.run a).bind fun s => s.run b := by
  induction a generalizing s with
  | nil => rfl
  | cons c cs ih =>
    simp only [List.cons_append, run]
    cases s.step c with
    | none => rfl
    | some s' => exact ih s'

/-- A state in which literal text is expected. -/
def Plain (s : PState) : Prop := s.mode = .norm ∧ s.top.fold = false

/-- Literals were read. -/
def add (s : PState) (rs : List Re) : PState :=
  { s with top := { s.top with cur := rs.reverse ++ s.top.cur } }

theorem add_plain {s : PState} {rs : List Re} (h : s.Plain) : (s.add rs).Plain := h

theorem push_eq {s : PState} (h : s.Plain) (r : Re) : s.push r = s.add [r] := by
  obtain ⟨mode, top, outer, groups⟩ := s
  obtain ⟨h1, h2⟩ := h
  simp only at h1
  subst h1
  rfl

theorem add_add (s : PState) (a b : List Re) : (s.add a).add b = s.add (a ++ b) := by
  simp [add]

theorem add_nil (s : PState) : s.add [] = s := rfl

theorem literal_eq {s : PState} (h : s.Plain) (c : Char) : s.literal c = s.add [.lit c] := by
  unfold literal
  rw [h.2]
  exact push_eq h _

/-- Characters that `QuoteMeta` does not change. -/
theorem normal_literal {s : PState} (h : s.Plain) {c : Char}
    (hc : c ∉ "\\.+*?()|[]{}^$".toList) : s.normal c = some (s.add [.lit c]) := by
  rw [show ("\\.+*?()|[]{}^$".toList) =
    ['\\', '.', '+', '*', '?', '(', ')', '|', '[', ']', '{', '}', '^', '$'] by decide] at hc
  simp only [List.mem_cons, not_or, List.not_mem_nil] at hc
  unfold normal
  simp only [hc, if_false]
  rw [literal_eq h]

theorem escaped_literal {s : PState} (h : s.top.fold = false) {c : Char}
    (hc : c ∈ "\\.+*?()|[]{}^$".toList) : s.escaped c = some (s.push (.lit c)) := by
  have key : ∀ c ∈ "\\.+*?()|[]{}^$".toList, c ≠ 'b' ∧ c ≠ 's' ∧ c ≠ 'S' ∧ c ≠ 'p' ∧
      isPunct c = true := by decide
  obtain ⟨h1, h2, h3, h4, h5⟩ := key c hc
  unfold escaped
  simp only [h1, h2, h3, h4, h5, if_false, if_true]
  unfold literal
  rw [h]
  rfl

/-- Quoted text is read as literals. -/
theorem run_quoteMeta {s : PState} (h : s.Plain) (p : Str) :
    s.run (quoteMeta p) = some (s.add (p.map .lit)) := by
  induction p generalizing s with
  | nil => rfl
  | cons c cs ih =>
    rw [quoteMeta]
    have key : s.run (if c ∈ "\\.+*?()|[]{}^$".toList then '\\' :: c :: quoteMeta cs
        else c :: quoteMeta cs) = (s.add [.lit c]).run (quoteMeta cs) := by
      split
      · rename_i hc
        have e1 : s.step '\\' = some { s with mode := .esc } := by
          unfold step; rw [h.1]; rfl
        have e2 : ({ s with mode := .esc } : PState).step c = some (s.add [.lit c]) := by
          show ({ s with mode := .esc } : PState).escaped c = _
          rw [escaped_literal (s := { s with mode := .esc }) h.2 hc, ← push_eq h]
          rfl
        simp only [run, e1, e2, Option.bind_some]
      · rename_i hc
        have e1 : s.step c = some (s.add [.lit c]) := by
          unfold step; rw [h.1]; exact normal_literal h hc
        simp only [run, e1, Option.bind_some]
    rw [key, ih (add_plain h), add_add]
    rfl

end PState

theorem quoteMeta_append (a b : Str) : quoteMeta (a ++ b) = quoteMeta a ++ quoteMeta b := by
  induction a with
  | nil => rfl
  | cons c cs ih =>
    simp only [List.cons_append, quoteMeta, ih]
    split <;> rfl

end Burl.Regex
