import Verif.JsonText.CompactLemmas
import Verif.JsonText.Indent
import Verif.JsonText.IndentSpec
/-! Indentation gives the layout of the specification. -/
namespace Burl.JsonText
open Burl
open Burl.Json (Json)
open Burl.Rpc (isDigit isSpace)
open Burl.Rpc.Spec (Piece Num strText Blank Padded)
open Burl.JsonText.Spec

theorem newline_eq (d : Nat) : newline d = line d := by
  unfold newline line
  congr 1
  induction d with
  | zero => rfl
  | succ d ih =>
    rw [Nat.mul_succ, List.replicate_succ, List.replicate_succ, List.replicate_succ, List.flatten_cons, ← ih]
    rfl

theorem blank_line (d : Nat) : Blank (line d) := by
  rw [← newline_eq]
  intro b hb
  simp only [newline, List.mem_cons, List.mem_replicate] at hb
  rcases hb with rfl | ⟨-, rfl⟩
  · simp
  · simp

/-! ### The loop -/

/-- A byte that is neither white space nor punctuation. -/
def Other (b : UInt8) : Prop :=
  isSpace b = false ∧ b ≠ 34 ∧ b ≠ 125 ∧ b ≠ 93 ∧ b ≠ 123 ∧ b ≠ 91 ∧ b ≠ 44 ∧ b ≠ 58

instance (b : UInt8) : Decidable (Other b) := by unfold Other; infer_instance

theorem indent_other {b : UInt8} (h : Other b) (d : Nat) (bs : Bytes) :
    indentFrom false false false d (b :: bs) = b :: indentFrom false false false d bs := by
  obtain ⟨h1, h2, h3, h4, h5, h6, h7, h8⟩ := h
  have e : (b == 34) = false := by simpa using h2
  simp [indentFrom, h1, h3, h4, h5, h6, h7, h8, e]

theorem indent_others {a : Bytes} (h : ∀ b ∈ a, Other b) (d : Nat) (bs : Bytes) :
    indentFrom false false false d (a ++ bs) = a ++ indentFrom false false false d bs := by
  induction a with
  | nil => rfl
  | cons b a ih =>
    rw [List.cons_append, indent_other (h b (by simp)), ih (fun x hx => h x (List.mem_cons_of_mem _ hx))]
    rfl

theorem inNumber_other {b : UInt8} (h : inNumber b = true) : Other b := by
  simp only [inNumber, Bool.or_eq_true, beq_iff_eq] at h
  rcases h with ((((h | rfl) | rfl) | rfl) | rfl) | rfl
  · rcases Rpc.isDigit_cases b h with h | h | h | h | h | h | h | h | h | h <;> subst h <;> decide
  all_goals decide

theorem indent_plain {b : UInt8} (h1 : b ≠ 34) (h2 : b ≠ 92) (d : Nat) (bs : Bytes) :
    indentFrom false true false d (b :: bs) = b :: indentFrom false true false d bs := by
  have e1 : (b != 34) = true := by simpa using h1
  have e2 : (b == 92) = false := by simpa using h2
  simp [indentFrom, e1, e2]

theorem indent_body : ∀ (ps : List Piece), ps.all Piece.ok = true → ∀ (d : Nat) (rest : Bytes),
    indentFrom false true false d (body ps ++ 34 :: rest) =
      body ps ++ 34 :: indentFrom false false false d rest
  | [], _, d, rest => by simp [indentFrom]
  | p :: ps, h, d, rest => by
    rw [List.all_cons, Bool.and_eq_true] at h
    have ih := indent_body ps h.2 d rest
    rw [body_cons, List.append_assoc, List.append_assoc, ← ih]
    cases p with
    | plain b =>
      have h1 := h.1
      simp only [Piece.ok, Bool.and_eq_true, bne_iff_ne, ne_eq] at h1
      exact indent_plain h1.1.1 h1.1.2 d _
    | esc b => simp [Piece.text, indentFrom]
    | u a b c e =>
      have h1 := h.1
      simp only [Piece.ok, Bool.and_eq_true] at h1
      obtain ⟨⟨⟨g1, g2⟩, g3⟩, g4⟩ := h1
      have e0 : ∀ x, indentFrom false true false d (92 :: 117 :: x) =
          92 :: 117 :: indentFrom false true false d x := by intro x; simp [indentFrom]
      simp only [Piece.text, List.cons_append, List.nil_append]
      rw [e0, indent_plain (hexDigit_ne g1).1 (hexDigit_ne g1).2,
        indent_plain (hexDigit_ne g2).1 (hexDigit_ne g2).2,
        indent_plain (hexDigit_ne g3).1 (hexDigit_ne g3).2,
        indent_plain (hexDigit_ne g4).1 (hexDigit_ne g4).2]

theorem indent_str {ps : List Piece} (h : ps.all Piece.ok = true) (d : Nat) (rest : Bytes) :
    indentFrom false false false d (strText ps ++ rest) =
      strText ps ++ indentFrom false false false d rest := by
  rw [strText_eq]
  simp only [List.cons_append, List.append_assoc, List.nil_append]
  rw [← indent_body ps h d rest]
  simp [indentFrom, isSpace]

/-- After an opening bracket a line is begun unless a closing one follows. -/
theorem indent_need {b : UInt8} (h1 : isSpace b = false) (h2 : b ≠ 125) (h3 : b ≠ 93) (d : Nat)
    (bs : Bytes) : indentFrom true false false d (b :: bs) =
      line (d + 1) ++ indentFrom false false false (d + 1) (b :: bs) := by
  simp [indentFrom, h1, h2, h3, newline_eq]

theorem indent_open {b : UInt8} (h : b = 123 ∨ b = 91) (d : Nat) (bs : Bytes) :
    indentFrom false false false d (b :: bs) = b :: indentFrom true false false d bs := by
  rcases h with rfl | rfl <;> simp [indentFrom, isSpace]

theorem indent_empty {b : UInt8} (h : b = 125 ∨ b = 93) (d : Nat) (bs : Bytes) :
    indentFrom true false false d (b :: bs) = b :: indentFrom false false false d bs := by
  rcases h with rfl | rfl <;> simp [indentFrom, isSpace]

theorem indent_close {b : UInt8} (h : b = 125 ∨ b = 93) (d : Nat) (bs : Bytes) :
    indentFrom false false false (d + 1) (b :: bs) =
      line d ++ b :: indentFrom false false false d bs := by
  rcases h with rfl | rfl <;> simp [indentFrom, isSpace, newline_eq]

theorem indent_comma (d : Nat) (bs : Bytes) :
    indentFrom false false false d (44 :: bs) =
      44 :: (line d ++ indentFrom false false false d bs) := by
  simp [indentFrom, isSpace, newline_eq]

theorem indent_colon (d : Nat) (bs : Bytes) :
    indentFrom false false false d (58 :: bs) = 58 :: 32 :: indentFrom false false false d bs := by
  simp [indentFrom, isSpace]

theorem text_start {d : Nat} {t : Text} (h : t.ok d = true) :
    ∃ b bs, t.text = b :: bs ∧ isSpace b = false ∧ b ≠ 125 ∧ b ≠ 93 := by
  cases t with
  | null => exact ⟨110, [117, 108, 108], by decide, by decide, by decide, by decide⟩
  | bool b =>
    cases b
    · exact ⟨102, [97, 108, 115, 101], by decide, by decide, by decide, by decide⟩
    · exact ⟨116, [114, 117, 101], by decide, by decide, by decide, by decide⟩
  | num n =>
    rw [Rpc.Spec.Json.ok] at h
    obtain ⟨b, bs, e, -⟩ := num_head h
    have h1 := List.all_eq_true.mp (inNumber_text h) b (by rw [e]; simp)
    obtain ⟨h2, -, h3, h4, -⟩ := inNumber_other h1
    exact ⟨b, bs, by rw [Rpc.Spec.Json.text, e], h2, h3, h4⟩
  | str s => exact ⟨34, _, by rw [Rpc.Spec.Json.text, strText_eq], by decide, by decide, by decide⟩
  | arr vs => exact ⟨91, _, by rw [Rpc.Spec.Json.text], by decide, by decide, by decide⟩
  | obj vs => exact ⟨123, _, by rw [Rpc.Spec.Json.text], by decide, by decide, by decide⟩

theorem arrText_start {d : Nat} {t : Text} {ts : List Text} (h : Rpc.Spec.arrOk d (t :: ts) = true)
    (rest : Bytes) : ∃ b bs, Rpc.Spec.arrText (t :: ts) ++ rest = b :: bs ∧ isSpace b = false ∧
      b ≠ 125 ∧ b ≠ 93 := by
  rw [Rpc.Spec.arrOk, Bool.and_eq_true] at h
  obtain ⟨b, bs, e, h1⟩ := text_start h.1
  cases ts with
  | nil => exact ⟨b, bs ++ rest, by rw [Rpc.Spec.arrText, e]; rfl, h1⟩
  | cons u ts => exact ⟨b, _, by rw [Rpc.Spec.arrText, e]; rfl, h1⟩

theorem objText_start (m : List Piece × Text) (ms : List (List Piece × Text)) (rest : Bytes) :
    ∃ b bs, Rpc.Spec.objText (m :: ms) ++ rest = b :: bs ∧ isSpace b = false ∧
      b ≠ 125 ∧ b ≠ 93 := by
  obtain ⟨k, t⟩ := m
  cases ms with
  | nil => exact ⟨34, _, by rw [Rpc.Spec.objText, strText_eq]; rfl, by decide, by decide, by decide⟩
  | cons u ts => exact ⟨34, _, by rw [Rpc.Spec.objText, strText_eq]; rfl, by decide, by decide, by decide⟩

mutual
theorem indent_value : ∀ (t : Text) (d l : Nat), t.ok d = true → ∀ rest : Bytes,
    indentFrom false false false l (t.text ++ rest) = pretty l t ++ indentFrom false false false l rest
  | .null, d, l, _, rest => indent_others (by decide) l rest
  | .bool true, d, l, _, rest => indent_others (by decide) l rest
  | .bool false, d, l, _, rest => indent_others (by decide) l rest
  | .num n, d, l, h, rest => by
    rw [Rpc.Spec.Json.ok] at h
    rw [pretty, Rpc.Spec.Json.text]
    exact indent_others (fun b hb => inNumber_other (List.all_eq_true.mp (inNumber_text h) b hb)) l rest
  | .str ps, d, l, h, rest => by
    rw [Rpc.Spec.Json.ok] at h
    rw [pretty, Rpc.Spec.Json.text]
    exact indent_str h l rest
  | .arr ts, 0, l, h, _ => by simp [Rpc.Spec.Json.ok] at h
  | .obj ts, 0, l, h, _ => by simp [Rpc.Spec.Json.ok] at h
  | .arr [], d + 1, l, h, rest => by
    rw [Rpc.Spec.Json.text, pretty, Rpc.Spec.arrText]
    simp only [List.cons_append, List.nil_append]
    rw [indent_open (by simp), indent_empty (by simp)]
  | .obj [], d + 1, l, h, rest => by
    rw [Rpc.Spec.Json.text, pretty, Rpc.Spec.objText]
    simp only [List.cons_append, List.nil_append]
    rw [indent_open (by simp), indent_empty (by simp)]
  | .arr (t :: ts), d + 1, l, h, rest => by
    rw [Rpc.Spec.Json.ok] at h
    rw [Rpc.Spec.Json.text, pretty]
    have ih := indent_elems t ts d (l + 1) h (93 :: rest)
    obtain ⟨b, bs, e, h1, h2, h3⟩ := arrText_start h (93 :: rest)
    simp only [List.cons_append, List.append_assoc, List.nil_append]
    rw [indent_open (by simp), e, indent_need h1 h2 h3, ← e, ← List.append_assoc, ih, indent_close (by simp)]
    simp only [List.append_assoc]
  | .obj (m :: ms), d + 1, l, h, rest => by
    rw [Rpc.Spec.Json.ok] at h
    rw [Rpc.Spec.Json.text, pretty]
    have ih := indent_members m ms d (l + 1) h (125 :: rest)
    obtain ⟨b, bs, e, h1, h2, h3⟩ := objText_start m ms (125 :: rest)
    simp only [List.cons_append, List.append_assoc, List.nil_append]
    rw [indent_open (by simp), e, indent_need h1 h2 h3, ← e, ← List.append_assoc, ih, indent_close (by simp)]
    simp only [List.append_assoc]
  termination_by t => sizeOf t
/-- The line before the first element is begun already. -/
theorem indent_elems : ∀ (t : Text) (ts : List Text) (d l : Nat), Rpc.Spec.arrOk d (t :: ts) = true →
    ∀ rest : Bytes, line l ++ indentFrom false false false l (Rpc.Spec.arrText (t :: ts) ++ rest) =
      prettyElems l (t :: ts) ++ indentFrom false false false l rest
  | t, [], d, l, h, rest => by
    rw [Rpc.Spec.arrOk, Bool.and_eq_true] at h
    rw [Rpc.Spec.arrText, indent_value t d l h.1, prettyElems]
    simp only [List.append_assoc]
  | t, u :: ts, d, l, h, rest => by
    rw [Rpc.Spec.arrOk, Bool.and_eq_true] at h
    have ih := indent_elems u ts d l h.2 rest
    rw [Rpc.Spec.arrText, List.append_assoc, indent_value t d l h.1, List.cons_append, indent_comma, ih,
      prettyElems]
    simp only [List.append_assoc, List.cons_append, List.nil_append]
  termination_by t ts => sizeOf (t :: ts)
/-- The line before the first member is begun already. -/
theorem indent_members : ∀ (m : List Piece × Text) (ms : List (List Piece × Text)) (d l : Nat),
    Rpc.Spec.objOk d (m :: ms) = true →
    ∀ rest : Bytes, line l ++ indentFrom false false false l (Rpc.Spec.objText (m :: ms) ++ rest) =
      prettyMembers l (m :: ms) ++ indentFrom false false false l rest
  | (k, t), [], d, l, h, rest => by
    rw [Rpc.Spec.objOk, Bool.and_eq_true, Bool.and_eq_true] at h
    rw [Rpc.Spec.objText, List.append_assoc, indent_str h.1.1, List.cons_append, indent_colon,
      indent_value t d l h.1.2, prettyMembers]
    simp only [List.append_assoc, List.cons_append, List.nil_append]
  | (k, t), m :: ms, d, l, h, rest => by
    rw [Rpc.Spec.objOk, Bool.and_eq_true, Bool.and_eq_true] at h
    have ih := indent_members m ms d l h.2 rest
    rw [Rpc.Spec.objText, List.append_assoc, indent_str h.1.1, List.cons_append, indent_colon,
      List.append_assoc, indent_value t d l h.1.2, List.cons_append, indent_comma, ih, prettyMembers]
    simp only [List.append_assoc, List.cons_append, List.nil_append]
  termination_by m ms => sizeOf (m :: ms)
end

/-! ### The layout is a text -/

theorem padded_line {P : Bytes → Prop} {x : Bytes} (l : Nat) (h : P x) : Padded P (line l ++ x) :=
  ⟨line l, x, [], blank_line l, h, by simp [Blank], by simp⟩

theorem padded_append {P : Bytes → Prop} {x w : Bytes} (hw : Blank w) (h : Padded P x) : Padded P (x ++ w) := by
  obtain ⟨a, y, b, h1, h2, h3, rfl⟩ := h
  refine ⟨a, y, b ++ w, h1, h2, ?_, by simp⟩
  intro c hc
  rcases List.mem_append.mp hc with hc | hc
  · exact h3 c hc
  · exact hw c hc

mutual
theorem writes_pretty : ∀ (t : Text) (l : Nat), t.Writes (pretty l t)
  | .null, l => Rpc.writes_text _
  | .bool true, l => Rpc.writes_text _
  | .bool false, l => Rpc.writes_text _
  | .num n, l => by rw [pretty]; exact Rpc.writes_text _
  | .str n, l => by rw [pretty]; exact Rpc.writes_text _
  | .arr [], l => by
    rw [Rpc.Spec.Json.Writes, pretty]
    exact ⟨[], by rw [Rpc.Spec.arrWrites]; simp [Blank], rfl⟩
  | .obj [], l => by
    rw [Rpc.Spec.Json.Writes, pretty]
    exact ⟨[], by rw [Rpc.Spec.objWrites]; simp [Blank], rfl⟩
  | .arr (t :: ts), l => by
    rw [Rpc.Spec.Json.Writes, pretty]
    exact ⟨_, elems_pretty t ts (l + 1) (line l) (blank_line l), by simp⟩
  | .obj (m :: ms), l => by
    rw [Rpc.Spec.Json.Writes, pretty]
    exact ⟨_, members_pretty m ms (l + 1) (line l) (blank_line l), by simp⟩
  termination_by t => sizeOf t
theorem elems_pretty : ∀ (t : Text) (ts : List Text) (l : Nat) (w : Bytes), Blank w →
    Rpc.Spec.arrWrites (t :: ts) (prettyElems l (t :: ts) ++ w)
  | t, [], l, w, hw => by
    rw [Rpc.Spec.arrWrites, prettyElems]
    exact padded_append hw (padded_line l (writes_pretty t l))
  | t, u :: ts, l, w, hw => by
    rw [Rpc.Spec.arrWrites, prettyElems]
    exact ⟨_, _, padded_line l (writes_pretty t l), elems_pretty u ts l w hw, by simp⟩
  termination_by t ts => sizeOf (t :: ts)
theorem members_pretty : ∀ (m : List Piece × Text) (ms : List (List Piece × Text)) (l : Nat) (w : Bytes),
    Blank w → Rpc.Spec.objWrites (m :: ms) (prettyMembers l (m :: ms) ++ w)
  | (k, t), [], l, w, hw => by
    rw [Rpc.Spec.objWrites, prettyMembers]
    exact ⟨_, _, padded_line l rfl, ⟨[32], _, w, by simp [Blank], writes_pretty t l, hw, rfl⟩, by simp⟩
  | (k, t), m :: ms, l, w, hw => by
    rw [Rpc.Spec.objWrites, prettyMembers]
    exact ⟨_, _, _, padded_line l rfl, ⟨[32], _, [], by simp [Blank], writes_pretty t l, by simp [Blank], rfl⟩,
      members_pretty m ms l w hw, by simp⟩
  termination_by m ms => sizeOf (m :: ms)
end

end Burl.JsonText
