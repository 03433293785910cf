import Verif.Base
/-! Specification vocabulary for approximate search: edit scripts and best-k selections. -/
namespace Burl.Fuzzy.Spec

/-- `Edit p s n`: the pattern `p` can be turned into `s` by `n` edits - deletions, insertions,
substitutions and transpositions of two adjacent symbols - where each symbol takes part in at
most one edit. -/
inductive Edit {α : Type} : List α → List α → Nat → Prop where
  | done : Edit [] [] 0
  | keep (a : α) {p s n} : Edit p s n → Edit (a :: p) (a :: s) n
  | subst (a b : α) {p s n} : Edit p s n → Edit (a :: p) (b :: s) (n + 1)
  | delete (a : α) {p s n} : Edit p s n → Edit (a :: p) s (n + 1)
  | insert (b : α) {p s n} : Edit p s n → Edit p (b :: s) (n + 1)
  | swap (a b : α) {p s n} : Edit p s n → Edit (a :: b :: p) (b :: a :: s) (n + 1)

/-- `d` is the least number of edits turning `p` into some contiguous part of `w`. -/
def IsBest {α : Type} (p w : List α) (d : Nat) : Prop :=
  (∃ s, s <:+: w ∧ Edit p s d) ∧ ∀ s n, s <:+: w → Edit p s n → d ≤ n

/-- The ranking of candidates (distance, text): smaller distance first, then fewer bytes, then
smaller text by code points. -/
def Before (a b : Int × Str) : Prop :=
  a.1 < b.1 ∨ (a.1 = b.1 ∧ (utf8Len a.2 < utf8Len b.2 ∨
    (utf8Len a.2 = utf8Len b.2 ∧ a.2.map Char.toNat < b.2.map Char.toNat)))

/-- `r` lists the best `k` elements of `xs` under the (strict) order `lt`, best first. -/
def IsTop {α : Type} (lt : α → α → Prop) (k : Nat) (xs r : List α) : Prop :=
  r.Pairwise (fun a b => ¬ lt b a) ∧ r.length = min k xs.length ∧
  ∃ rest, xs.Perm (r ++ rest) ∧ ∀ a ∈ r, ∀ b ∈ rest, ¬ lt b a

/-- A link `w` is offered for words of a query with the total distance `n`, when `left` is what is left of
the tolerance.  A word has to be within what is left (letter case ignored, `lower`), and not longer in bytes
than the link and what is left; when nothing is left, it has to be in the link, in the same letter case. -/
inductive Offered (lower : Char → Char) (w : Str) : Int → List Str → Int → Prop where
  | done {left} : Offered lower w left [] 0
  | within {q qs n} : q <:+: w → Offered lower w 0 qs n → Offered lower w 0 (q :: qs) n
  | near {left q qs d n} : 0 < left → (utf8Len q : Int) ≤ utf8Len w + left →
      IsBest (q.map lower) (w.map lower) d → min 32767 (d : Int) ≤ left →
      Offered lower w (left - min 32767 (d : Int)) qs n →
      Offered lower w left (q :: qs) (min 32767 (d : Int) + n)

/-- `ws` are the words of `s`: its maximal parts without white space. -/
inductive Words (isSpace : Char → Bool) : Str → List Str → Prop where
  | none {sp : Str} : (∀ c ∈ sp, isSpace c = true) → Words isSpace sp []
  | last {sp w : Str} : (∀ c ∈ sp, isSpace c = true) → w ≠ [] → (∀ c ∈ w, isSpace c = false) →
      Words isSpace (sp ++ w) [w]
  | next {sp w : Str} {c : Char} {rest : Str} {ws : List Str} : (∀ c ∈ sp, isSpace c = true) →
      w ≠ [] → (∀ c ∈ w, isSpace c = false) → isSpace c = true → Words isSpace rest ws →
      Words isSpace (sp ++ w ++ c :: rest) (w :: ws)

end Burl.Fuzzy.Spec
