import Verif.Base
/-! Specification vocabulary for lines of a file. -/
namespace Burl.Scan.Spec

/-- Lines of a file: each ends with a newline (10), the last one may lack it. -/
inductive Lines : Bytes → List Bytes → Prop where
  | nil : Lines [] []
  | last {l} : l ≠ [] → 10 ∉ l → Lines l [l]
  | cons {l rest ls} : 10 ∉ l → Lines rest ls → Lines (l ++ 10 :: rest) (l :: ls)

/-- A line without one trailing carriage return (13). -/
inductive Chomped : Bytes → Bytes → Prop where
  | cr {l} : Chomped (l ++ [13]) l
  | none {l} : (∀ t, l ≠ t ++ [13]) → Chomped l l

/-- Lines shorter than the limit up to the first one that is not. -/
def leading (limit : Nat) (ls : List Bytes) : List Bytes := ls.takeWhile fun l => l.length < limit

/-- Bytes cut into characters as UTF-8.  A byte at which no character begins stands for U+FFFD. -/
inductive Cut : Bytes → List (Bytes × Char) → Prop where
  | nil : Cut [] []
  | char {c rest ps} : Cut rest ps →
      Cut (String.utf8EncodeChar c ++ rest) ((String.utf8EncodeChar c, c) :: ps)
  | bad {b rest ps} : (∀ c, ¬String.utf8EncodeChar c <+: b :: rest) → Cut rest ps →
      Cut (b :: rest) (([b], Char.ofNat 0xFFFD) :: ps)

/-- The bytes of some characters. -/
def bytes (ps : List (Bytes × Char)) : Bytes := ps.flatMap Prod.fst

/-- Maximal runs of characters that are not white space, each with the number of bytes of the white
space that ends it (1 at the end of the file). -/
inductive Words (white : Char → Bool) : List (Bytes × Char) → List (List (Bytes × Char) × Nat) → Prop
    where
  | blank {gap} : (∀ p ∈ gap, white p.2 = true) → Words white gap []
  | last {gap word} : (∀ p ∈ gap, white p.2 = true) → word ≠ [] →
      (∀ p ∈ word, white p.2 = false) → Words white (gap ++ word) [(word, 1)]
  | cons {gap word space rest ws} : (∀ p ∈ gap, white p.2 = true) → word ≠ [] →
      (∀ p ∈ word, white p.2 = false) → white space.2 = true → Words white rest ws →
      Words white (gap ++ word ++ space :: rest) ((word, space.1.length) :: ws)

end Burl.Scan.Spec
