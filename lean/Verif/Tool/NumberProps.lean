import Verif.Tool.ClientProps
import Verif.Tool.LineProps
/-! Numbers of lines on the command line of the client, and options of `visit`, exactly (C63). -/
namespace Burl.Tool.Client
open Burl
open Burl.Json (Json)
open Burl.Backend (argument Arg)
open Burl.Tool.Client.Spec

namespace Spec

/-- A digit and its value. -/
def Digit (b : Nat) (c : Char) (d : Nat) : Prop :=
  d < b ∧ ("0123456789abcdef".toList[d]? = some c ∨ "0123456789ABCDEF".toList[d]? = some c)

/-- Digits and their value; an underscore may stand between two digits. -/
inductive Digits (b : Nat) : Str → Nat → Prop where
  | one {c d} : Digit b c d → Digits b [c] d
  | next {s n c d} : Digits b s n → Digit b c d → Digits b (s ++ [c]) (n * b + d)
  | under {s n c d} : Digits b s n → Digit b c d → Digits b (s ++ ['_', c]) (n * b + d)

/-- Letters of prefixes and bases of numbers. -/
def bases : List (Char × Nat) :=
  [('b', 2), ('B', 2), ('o', 8), ('O', 8), ('x', 16), ('X', 16)]

/-- A number as in a Go program. -/
inductive Unsigned : Str → Nat → Prop where
  | decimal {s n} : s.head? ≠ some '0' → Digits 10 s n → Unsigned s n
  /-- A zero at the beginning makes the number octal. -/
  | octal {s n} : Digits 8 ('0' :: s) n → Unsigned ('0' :: s) n
  /-- The prefix is in place of a zero. -/
  | based {x b s n} : (x, b) ∈ bases → s ≠ [] → Digits b ('0' :: s) n → Unsigned ('0' :: x :: s) n

/-- The same with a sign; the number has 64 bits. -/
def Integer (t : Str) (n : Int) : Prop :=
  (∃ k : Nat, (Unsigned t k ∧ n = k) ∨ (∃ s, t = '+' :: s ∧ Unsigned s k ∧ n = k) ∨
    ∃ s, t = '-' :: s ∧ Unsigned s k ∧ n = -k) ∧ -2 ^ 63 ≤ n ∧ n < 2 ^ 63

/-- Options of `visit`: the file and the line before them and after them.  The first word that is not an
option, or `--`, ends them. -/
inductive Visits : Emacs.Location → List Str → Emacs.Location → Prop where
  | none {q} : Visits q [] q
  | plain {q a args} : NotOption a → Visits q (a :: args) q
  | dashes {q args} : Visits q (dashes :: args) q
  | line1 {q d t n args q'} : d = "-".toList ∨ d = "--".toList → Integer t n →
      Visits { q with lineNo := n } args q' → Visits q ((d ++ "line".toList) :: t :: args) q'
  | line2 {q d t n args q'} : d = "-".toList ∨ d = "--".toList → Integer t n →
      Visits { q with lineNo := n } args q' → Visits q ((d ++ "line=".toList ++ t) :: args) q'
  | file1 {q d p args q'} : d = "-".toList ∨ d = "--".toList →
      Visits { q with filePath := p } args q' → Visits q ((d ++ "file".toList) :: p :: args) q'
  | file2 {q d p args q'} : d = "-".toList ∨ d = "--".toList →
      Visits { q with filePath := p } args q' → Visits q ((d ++ "file=".toList ++ p) :: args) q'

end Spec

/-! ### Digits -/

/-- Characters of digits are ASCII. -/
theorem digit_ascii {c : Char} {d : Nat} (h : digit c = some d) : c.toNat < 128 := by
  unfold digit at h
  split at h
  · rename_i h1
    have : c.toNat ≤ '9'.toNat := h1.2
    have e : '9'.toNat = 57 := rfl
    omega
  · split at h
    · rename_i h1
      by_cases hu : 'A' ≤ c ∧ c ≤ 'Z'
      · have : c.toNat ≤ 'Z'.toNat := hu.2
        have e : 'Z'.toNat = 90 := rfl
        omega
      · have : c.toLower = c := by
          unfold Char.toLower
          rw [dif_neg]
          exact hu
        rw [this] at h1
        have : c.toNat ≤ 'z'.toNat := h1.2
        have e : 'z'.toNat = 122 := rfl
        omega
    · cases h

theorem digit_iff {b : Nat} (hb : b ≤ 16) {c : Char} {d : Nat} :
    (digit c = some d ∧ d < b) ↔ Digit b c d := by
  have key : ∀ n : Fin 128, ∀ d : Fin 16, digit (Char.ofNat n) = some d.val ↔
      ("0123456789abcdef".toList[d.val]? = some (Char.ofNat n) ∨
        "0123456789ABCDEF".toList[d.val]? = some (Char.ofNat n)) := by decide +kernel
  unfold Digit
  constructor
  · rintro ⟨h1, h2⟩
    have := key ⟨c.toNat, digit_ascii h1⟩ ⟨d, by omega⟩
    simp only [Char.ofNat_toNat] at this
    exact ⟨h2, this.1 h1⟩
  · rintro ⟨h2, h1⟩
    have hc : c.toNat < 128 := by
      have hall : ∀ d : Fin 16, ∀ c, ("0123456789abcdef".toList[d.val]? = some c ∨
          "0123456789ABCDEF".toList[d.val]? = some c) → c.toNat < 128 := by
        intro d c h
        have hm : c ∈ "0123456789abcdef0123456789ABCDEF".toList := by
          rcases h with h | h
          · exact List.mem_append_left _ (List.mem_of_getElem? h)
          · exact List.mem_append_right "0123456789abcdef".toList (List.mem_of_getElem? h)
        have : ∀ c ∈ "0123456789abcdef0123456789ABCDEF".toList, c.toNat < 128 := by decide
        exact this c hm
      exact hall ⟨d, by omega⟩ c h1
    have := key ⟨c.toNat, hc⟩ ⟨d, by omega⟩
    simp only [Char.ofNat_toNat] at this
    exact ⟨this.2 h1, h2⟩

theorem digit_underscore : digit '_' = none := by decide

/-- The rest of digits after one of them. -/
def rest (b : Nat) : Str → Nat → Option Nat
  | [], n => some n
  | '_' :: c :: s, n => match digit c with
    | some d => if d < b then rest b s (n * b + d) else none
    | none => none
  | c :: s, n => match digit c with
    | some d => if d < b then rest b s (n * b + d) else none
    | none => none

theorem rest_cons {b : Nat} {c : Char} {s : Str} {n m : Nat} (hc : c ≠ '_') :
    rest b (c :: s) n = some m ↔ ∃ d, digit c = some d ∧ d < b ∧ rest b s (n * b + d) = some m := by
  rw [rest.eq_def]
  split
  · rename_i h; cases h
  · rename_i h; injection h with h; exact absurd h hc
  · rename_i h1 h
    injection h with h2 h3
    subst h2 h3
    cases digit c with
    | none => simp
    | some d =>
      simp only [Option.some.injEq, exists_eq_left']
      split <;> simp [*]

theorem rest_under {b : Nat} {c : Char} {s : Str} {n m : Nat} :
    rest b ('_' :: c :: s) n = some m ↔
      ∃ d, digit c = some d ∧ d < b ∧ rest b s (n * b + d) = some m := by
  rw [rest]
  cases digit c with
  | none => simp
  | some d =>
    simp only [Option.some.injEq, exists_eq_left']
    split <;> simp [*]

theorem rest_alone {b n : Nat} : rest b ['_'] n = none := by
  rw [rest]
  · rw [digit_underscore]
  · intro c s _ h; cases h

/-- Digits one after another. -/
theorem digits_rest {b : Nat} (hb : b ≤ 16) {x : Str} {k : Nat} (hx : Digits b x k) :
    ∀ (l : Nat) (s : Str) (n m : Nat), s.length ≤ l → (k = n → Digits b x n →
      rest b s n = some m → Digits b (x ++ s) m) := by
  intro l
  induction l generalizing x k with
  | zero =>
    intro s n m hl e hn h
    have : s = [] := List.length_eq_zero_iff.1 (by omega)
    subst this
    rw [rest] at h
    injection h with h
    subst h
    rw [List.append_nil]
    exact hn
  | succ l ih =>
    intro s n m hl e hn h
    cases s with
    | nil =>
      rw [rest] at h
      injection h with h
      subst h
      rw [List.append_nil]
      exact hn
    | cons c s =>
      by_cases hc : c = '_'
      · subst hc
        cases s with
        | nil => rw [rest_alone] at h; cases h
        | cons c s =>
          obtain ⟨d, h1, h2, h3⟩ := rest_under.1 h
          have hd := (digit_iff hb).1 ⟨h1, h2⟩
          have := Digits.under hn hd
          have := ih this s _ m (by simp at hl; omega) rfl this h3
          simpa using this
      · obtain ⟨d, h1, h2, h3⟩ := (rest_cons hc).1 h
        have hd := (digit_iff hb).1 ⟨h1, h2⟩
        have := Digits.next hn hd
        have := ih this s _ m (by simp at hl; omega) rfl this h3
        simpa using this

theorem rest_append {b : Nat} : ∀ (l : Nat) (s t : Str) (n m : Nat), s.length ≤ l →
    rest b s n = some m → rest b (s ++ t) n = rest b t m := by
  intro l
  induction l with
  | zero =>
    intro s t n m hl h
    have : s = [] := List.length_eq_zero_iff.1 (by omega)
    subst this
    rw [rest] at h
    injection h with h
    rw [h]; rfl
  | succ l ih =>
    intro s t n m hl h
    have both : ∀ (s' : Str) (d : Nat), s'.length ≤ l → rest b s' (n * b + d) = some m → ∀ x,
        rest b (s' ++ t) (n * b + d) = some x ↔ rest b t m = some x := by
      intro s' d hl h x
      rw [ih s' t _ m hl h]
    apply Option.ext
    intro x
    cases s with
    | nil =>
      rw [rest] at h
      injection h with h
      rw [h]; rfl
    | cons c s =>
      by_cases hc : c = '_'
      · subst hc
        cases s with
        | nil => rw [rest_alone] at h; cases h
        | cons c s =>
          obtain ⟨d, h1, h2, h3⟩ := rest_under.1 h
          rw [List.cons_append, List.cons_append, ← both s d (by simp at hl; omega) h3 x]
          constructor
          · intro h
            obtain ⟨d', g1, g2, g3⟩ := rest_under.1 h
            rw [h1] at g1; cases g1
            exact g3
          · exact fun h => rest_under.2 ⟨d, h1, h2, h⟩
      · obtain ⟨d, h1, h2, h3⟩ := (rest_cons hc).1 h
        rw [List.cons_append, ← both s d (by simp at hl; omega) h3 x]
        constructor
        · intro h
          obtain ⟨d', g1, g2, g3⟩ := (rest_cons hc).1 h
          rw [h1] at g1; cases g1
          exact g3
        · exact fun h => (rest_cons hc).2 ⟨d, h1, h2, h⟩

theorem digits_iff {b : Nat} (hb : b ≤ 16) {c : Char} {s : Str} {n : Nat} :
    Digits b (c :: s) n ↔ ∃ d, Digit b c d ∧ rest b s d = some n := by
  constructor
  · intro h
    have key : ∀ {x : Str} {n : Nat}, Digits b x n → ∃ c s d, x = c :: s ∧ Digit b c d ∧
        rest b s d = some n := by
      intro x n h
      induction h with
      | one hd => exact ⟨_, [], _, rfl, hd, rfl⟩
      | next _ hd ih =>
        obtain ⟨c, s, d, rfl, h1, h2⟩ := ih
        obtain ⟨g1, g2⟩ := (digit_iff hb).2 hd
        refine ⟨c, s ++ [_], d, rfl, h1, ?_⟩
        rw [rest_append _ s _ _ _ (Nat.le_refl _) h2]
        refine (rest_cons ?_).2 ⟨_, g1, g2, rfl⟩
        rintro rfl
        rw [digit_underscore] at g1; cases g1
      | under _ hd ih =>
        obtain ⟨c, s, d, rfl, h1, h2⟩ := ih
        obtain ⟨g1, g2⟩ := (digit_iff hb).2 hd
        refine ⟨c, s ++ ['_', _], d, rfl, h1, ?_⟩
        rw [rest_append _ s _ _ _ (Nat.le_refl _) h2]
        exact rest_under.2 ⟨_, g1, g2, rfl⟩
    obtain ⟨c', s', d, e, h1, h2⟩ := key h
    injection e with e1 e2
    subst e1 e2
    exact ⟨d, h1, h2⟩
  · rintro ⟨d, h1, h2⟩
    have h3 : Digits b [c] d := .one h1
    exact digits_rest hb h3 _ s d n (Nat.le_refl _) rfl h3 h2

/-! ### `strconv` -/

theorem digit_counts {hex : Bool} {b : Nat} (h : b ≤ if hex then 16 else 10) {c : Char} {d : Nat}
    (h1 : digit c = some d) (h2 : d < b) :
    (('0' ≤ c ∧ c ≤ '9') ∨ (hex = true ∧ 'a' ≤ c.toLower ∧ c.toLower ≤ 'f')) ∧ c ≠ '_' := by
  refine ⟨?_, ?_⟩
  · unfold digit at h1
    split at h1
    · rename_i hc; exact .inl hc
    · split at h1
      · rename_i hc
        injection h1 with h1
        cases hex with
        | false => simp at h; omega
        | true =>
          refine .inr ⟨rfl, hc.1, ?_⟩
          simp at h
          have : 'a'.toNat ≤ c.toLower.toNat := hc.1
          have e : 'a'.toNat = 97 := rfl
          show c.toLower.toNat ≤ 'f'.toNat
          have e' : 'f'.toNat = 102 := rfl
          omega
      · cases h1
  · rintro rfl
    rw [digit_underscore] at h1; cases h1

theorem digits_cons {b : Nat} {c : Char} {s : Str} {n m : Nat} (hc : c ≠ '_') :
    digits b (c :: s) n = some m ↔
      ∃ d, digit c = some d ∧ d < b ∧ digits b s (n * b + d) = some m := by
  rw [digits, if_neg hc]
  cases digit c with
  | none => simp
  | some d =>
    simp only [Option.some.injEq, exists_eq_left', ge_iff_le]
    split
    · simp; omega
    · simp; omega

theorem scan_iff {hex : Bool} {b : Nat} (h : b ≤ if hex then 16 else 10) : ∀ (l : Nat) (s : Str) (n m : Nat),
    s.length ≤ l →
    ((digits b s n = some m ∧ underscores hex s .digit = true) ↔ rest b s n = some m) := by
  intro l
  induction l with
  | zero =>
    intro s n m hl
    have : s = [] := List.length_eq_zero_iff.1 (by omega)
    subst this
    simp [digits, underscores, rest]
  | succ l ih =>
    intro s n m hl
    cases s with
    | nil => simp [digits, underscores, rest]
    | cons c s =>
      by_cases hc : c = '_'
      · subst hc
        have e1 : digits b ('_' :: s) n = digits b s n := by rw [digits, if_pos rfl]
        have e2 : underscores hex ('_' :: s) .digit = underscores hex s .underscore := by
          rw [underscores, if_neg, if_pos rfl]
          · rfl
          · rintro (h | h)
            · exact absurd h.2 (by decide)
            · exact absurd h.2.1 (by decide)
        rw [e1, e2]
        cases s with
        | nil =>
          rw [rest_alone]
          simp [underscores]
        | cons c s =>
          rw [rest_under]
          constructor
          · rintro ⟨h1, h2⟩
            have hc : c ≠ '_' := by
              rintro rfl
              rw [underscores, if_neg, if_pos rfl] at h2
              · cases h2
              · rintro (h | h)
                · exact absurd h.2 (by decide)
                · exact absurd h.2.1 (by decide)
            obtain ⟨d, g1, g2, g3⟩ := (digits_cons hc).1 h1
            rw [underscores, if_pos (digit_counts h g1 g2).1] at h2
            exact ⟨d, g1, g2, (ih s _ m (by simp at hl; omega)).1 ⟨g3, h2⟩⟩
          · rintro ⟨d, g1, g2, g3⟩
            obtain ⟨h1, h2⟩ := digit_counts h g1 g2
            obtain ⟨g4, g5⟩ := (ih s _ m (by simp at hl; omega)).2 g3
            exact ⟨(digits_cons h2).2 ⟨d, g1, g2, g4⟩, by rw [underscores, if_pos h1, g5]⟩
      · rw [rest_cons hc, digits_cons hc]
        constructor
        · rintro ⟨⟨d, g1, g2, g3⟩, h2⟩
          rw [underscores, if_pos (digit_counts h g1 g2).1] at h2
          exact ⟨d, g1, g2, (ih s _ m (by simp at hl; omega)).1 ⟨g3, h2⟩⟩
        · rintro ⟨d, g1, g2, g3⟩
          obtain ⟨h1, h2⟩ := digit_counts h g1 g2
          obtain ⟨g4, g5⟩ := (ih s _ m (by simp at hl; omega)).2 g3
          exact ⟨⟨d, g1, g2, g4⟩, by rw [underscores, if_pos h1, g5]⟩

theorem underscores_none {hex : Bool} {b : Nat} (h : b ≤ if hex then 16 else 10) : ∀ (s : Str) (n m : Nat)
    (i : Before), i ≠ .underscore → digits b s n = some m → '_' ∉ s → underscores hex s i = true
  | [], _, _, i, hi, _, _ => by rw [underscores]; simpa using hi
  | c :: s, n, m, i, _, hd, hu => by
    have hc : c ≠ '_' := fun e => hu (by simp [e])
    obtain ⟨d, g1, g2, g3⟩ := (digits_cons hc).1 hd
    rw [underscores, if_pos (digit_counts h g1 g2).1]
    exact underscores_none h s _ m .digit (by simp) g3 fun e => hu (by simp [e])

/-- The condition of `ParseUint` in terms of digits after the first one or after the prefix. -/
theorem parse_rest {hex : Bool} {b : Nat} (h : b ≤ if hex then 16 else 10) {s t : Str} {n k : Nat}
    (hs : s ≠ []) (hb : digits (base s).1 (base s).2 0 = digits b t k) (hu : '_' ∈ s ↔ '_' ∈ t)
    (ho : underscoreOK s = underscores hex t .digit) :
    parseUint s = some n ↔ rest b t k = some n ∧ n < 2 ^ 64 := by
  rw [parseUint, if_neg hs, hb, ho, ← scan_iff h _ t k n (Nat.le_refl _)]
  cases hd : digits b t k with
  | none => simp
  | some m =>
    simp only [Option.some.injEq]
    by_cases h1 : m ≥ 2 ^ 64
    · rw [if_pos h1]
      constructor
      · intro h; cases h
      · rintro ⟨⟨rfl, -⟩, h2⟩; omega
    · rw [if_neg h1]
      by_cases h2 : '_' ∈ s
      · by_cases h3 : underscores hex t .digit = true
        · rw [if_neg (by simp [h3])]
          simp only [Option.some.injEq]
          constructor
          · rintro rfl; exact ⟨⟨rfl, h3⟩, by omega⟩
          · exact fun h => h.1.1
        · rw [if_pos ⟨h2, h3⟩]
          constructor
          · intro h; cases h
          · exact fun h => absurd h.1.2 h3
      · rw [if_neg fun h => h2 h.1]
        simp only [Option.some.injEq]
        constructor
        · rintro rfl
          exact ⟨⟨rfl, underscores_none h t k _ .digit (by simp) hd fun e => h2 (hu.2 e)⟩, by omega⟩
        · exact fun h => h.1.1

theorem digit_zero {b d : Nat} (hb : b ≤ 16) (h0 : 0 < b) : Digit b '0' d ↔ d = 0 := by
  rw [← digit_iff hb]
  constructor
  · rintro ⟨h, -⟩
    have : digit '0' = some 0 := by decide
    rw [this] at h
    injection h with h
    exact h.symm
  · rintro rfl; exact ⟨by decide, h0⟩

theorem digits_zero {b : Nat} (hb : b ≤ 16) (h0 : 0 < b) {s : Str} {n : Nat} :
    Digits b ('0' :: s) n ↔ rest b s 0 = some n := by
  rw [digits_iff hb]
  constructor
  · rintro ⟨d, h1, h2⟩
    rw [(digit_zero hb h0).1 h1] at h2
    exact h2
  · exact fun h => ⟨0, (digit_zero hb h0).2 rfl, h⟩

theorem digits_ne {b : Nat} {s : Str} {n : Nat} (h : Digits b s n) : s ≠ [] := by
  cases h <;> simp

theorem lower_bases {x : Char} : (x.toLower = 'b' ↔ x = 'b' ∨ x = 'B') ∧
    (x.toLower = 'o' ↔ x = 'o' ∨ x = 'O') ∧ (x.toLower = 'x' ↔ x = 'x' ∨ x = 'X') := by
  by_cases hx : x.toNat < 128
  · have key : ∀ n : Fin 128, ((Char.ofNat n).toLower = 'b' ↔ Char.ofNat n = 'b' ∨ Char.ofNat n = 'B') ∧
        ((Char.ofNat n).toLower = 'o' ↔ Char.ofNat n = 'o' ∨ Char.ofNat n = 'O') ∧
        ((Char.ofNat n).toLower = 'x' ↔ Char.ofNat n = 'x' ∨ Char.ofNat n = 'X') := by decide +kernel
    have := key ⟨x.toNat, hx⟩
    simpa only [Char.ofNat_toNat] using this
  · have hl : x.toLower = x := by
      unfold Char.toLower
      rw [dif_neg]
      intro h
      have : x.toNat ≤ 'Z'.toNat := h.2
      have e : 'Z'.toNat = 90 := rfl
      omega
    have ne : ∀ c : Char, c.toNat < 128 → x ≠ c := fun c hc e => hx (e ▸ hc)
    rw [hl]
    simp [ne 'B' (by decide), ne 'O' (by decide), ne 'X' (by decide)]

/-- What `strconv.ParseUint` reads. -/
theorem parseUint_exact {s : Str} {n : Nat} : parseUint s = some n ↔ Unsigned s n ∧ n < 2 ^ 64 := by
  cases s with
  | nil =>
    constructor
    · intro h; cases h
    · rintro ⟨h, -⟩
      cases h with
      | decimal _ h => exact absurd rfl (digits_ne h)
  | cons c s =>
    by_cases hc : c = '0'
    · subst hc
      -- octal numbers
      have oct : (∀ y s', s = y :: s' → s' ≠ [] → (y, 2) ∉ bases ∧ (y, 8) ∉ bases ∧ (y, 16) ∉ bases) →
          underscoreOK ('0' :: s) = underscores false s .digit →
          (parseUint ('0' :: s) = some n ↔ Unsigned ('0' :: s) n ∧ n < 2 ^ 64) := by
        intro hno ho
        have hbase : base ('0' :: s) = (8, s) := by
          match s, hno with
          | [], _ => rfl
          | [x], _ => rfl
          | x :: y :: s, hno =>
            obtain ⟨n2, n8, n16⟩ := hno x (y :: s) rfl (by simp)
            simp only [bases, List.mem_cons, Prod.mk.injEq, Nat.reduceEqDiff, and_false, and_true,
              List.not_mem_nil, or_false, false_or, not_or] at n2 n8 n16
            rw [base, if_neg (by rw [lower_bases.1]; simpa using n2),
              if_neg (by rw [lower_bases.2.1]; simpa using n8),
              if_neg (by rw [lower_bases.2.2]; simpa using n16)]
        rw [parse_rest (hex := false) (b := 8) (t := s) (k := 0) (by decide) (by simp) (by rw [hbase])
          (by simp) ho, ← digits_zero (by decide) (by decide)]
        refine and_congr_left fun _ => ⟨.octal, fun h => ?_⟩
        cases h with
        | decimal h _ => exact absurd rfl h
        | octal h => exact h
        | @based x b s' _ hb hne _ =>
          exfalso
          obtain ⟨n2, n8, n16⟩ := hno x s' rfl hne
          simp only [bases, List.mem_cons, Prod.mk.injEq, List.not_mem_nil, or_false] at hb
          rcases hb with ⟨rfl, rfl⟩ | ⟨rfl, rfl⟩ | ⟨rfl, rfl⟩ | ⟨rfl, rfl⟩ | ⟨rfl, rfl⟩ | ⟨rfl, rfl⟩
          · exact n2 (by simp [bases])
          · exact n2 (by simp [bases])
          · exact n8 (by simp [bases])
          · exact n8 (by simp [bases])
          · exact n16 (by simp [bases])
          · exact n16 (by simp [bases])
      have plain : ∀ y s', s = y :: s' → ¬(y.toLower = 'b' ∨ y.toLower = 'o' ∨ y.toLower = 'x') →
          underscoreOK ('0' :: s) = underscores false s .digit := by
        rintro y s' rfl h
        rw [underscoreOK, if_neg h, underscores, if_pos (.inl (by decide))]
      -- numbers with prefixes
      have pre : ∀ {hex : Bool} {b : Nat} {x y : Char} {s' : Str}, s = x :: y :: s' →
          (b ≤ if hex then 16 else 10) → 0 < b → (x, b) ∈ bases → (∀ b', (x, b') ∈ bases → b' = b) →
          digit x = none ∨ (∃ d, digit x = some d ∧ 8 ≤ d) → x ≠ '_' →
          base ('0' :: s) = (b, y :: s') →
          underscoreOK ('0' :: s) = underscores hex (y :: s') .digit →
          (parseUint ('0' :: s) = some n ↔ Unsigned ('0' :: s) n ∧ n < 2 ^ 64) := by
        rintro hex b x y s' rfl hb h0 hin hun hx hxu hbase ho
        have hb16 : b ≤ 16 := by cases hex <;> simp at hb <;> omega
        rw [parse_rest (hex := hex) (b := b) (t := y :: s') (k := 0) hb (by simp) (by rw [hbase])
          (by simp [Ne.symm hxu]) ho, ← digits_zero hb16 h0]
        refine and_congr_left fun _ => ⟨.based hin (by simp), fun h => ?_⟩
        cases h with
        | decimal h _ => exact absurd rfl h
        | octal h =>
          rw [digits_zero (by decide) (by decide), rest_cons hxu] at h
          obtain ⟨d, h1, h2, -⟩ := h
          rcases hx with hx | ⟨d', hx, h3⟩
          · rw [hx] at h1; cases h1
          · rw [hx] at h1; injection h1 with h1; omega
        | based hin' _ h => rwa [hun _ hin'] at h
      match s, oct, plain, @pre with
      | [], oct, _, _ => exact oct (by simp) rfl
      | [x], oct, plain, _ =>
        by_cases hx : x.toLower = 'b' ∨ x.toLower = 'o' ∨ x.toLower = 'x'
        · -- a prefix without digits
          rw [lower_bases.1, lower_bases.2.1, lower_bases.2.2] at hx
          have hd : digit x = none ∨ ∃ d, digit x = some d ∧ 8 ≤ d := by
            rcases hx with (rfl | rfl) | (rfl | rfl) | (rfl | rfl) <;> exact .inr ⟨_, rfl, by decide⟩
          have hu : x ≠ '_' := by
            rcases hx with (rfl | rfl) | (rfl | rfl) | (rfl | rfl) <;> decide
          constructor
          · intro h
            rw [parseUint, if_neg (by simp)] at h
            have : digits (base ['0', x]).1 (base ['0', x]).2 0 = none := by
              show digits 8 [x] 0 = none
              rw [digits, if_neg hu]
              rcases hd with hd | ⟨d, hd, h8⟩
              · rw [hd]
              · rw [hd]; simp only; rw [if_pos h8]
            rw [this] at h
            cases h
          · rintro ⟨h, -⟩
            cases h with
            | decimal h _ => exact absurd rfl h
            | octal h =>
              rw [digits_zero (by decide) (by decide), rest_cons hu] at h
              obtain ⟨d, h1, h2, -⟩ := h
              rcases hd with hx | ⟨d', hx, h3⟩
              · rw [hx] at h1; cases h1
              · rw [hx] at h1; injection h1 with h1; omega
            | based _ h _ => exact absurd rfl h
        · refine oct ?_ (plain x [] rfl hx)
          intro y s' e hne
          injection e with _ e
          exact absurd e.symm hne
      | x :: y :: s, oct, plain, pre =>
        by_cases hb : x.toLower = 'b'
        · have hx := lower_bases.1.1 hb
          refine pre (hex := false) (b := 2) rfl (by decide) (by decide) ?_ ?_ ?_ ?_ ?_ ?_
          · rcases hx with rfl | rfl <;> simp [bases]
          · rcases hx with rfl | rfl <;> simp [bases]
          · rcases hx with rfl | rfl <;> exact .inr ⟨_, rfl, by decide⟩
          · rcases hx with rfl | rfl <;> decide
          · rw [base, if_pos hb]
          · rw [underscoreOK, if_pos (.inl hb), hb]; rfl
        by_cases ho : x.toLower = 'o'
        · have hx := lower_bases.2.1.1 ho
          refine pre (hex := false) (b := 8) rfl (by decide) (by decide) ?_ ?_ ?_ ?_ ?_ ?_
          · rcases hx with rfl | rfl <;> simp [bases]
          · rcases hx with rfl | rfl <;> simp [bases]
          · rcases hx with rfl | rfl <;> exact .inr ⟨_, rfl, by decide⟩
          · rcases hx with rfl | rfl <;> decide
          · rw [base, if_neg hb, if_pos ho]
          · rw [underscoreOK, if_pos (.inr (.inl ho)), ho]; rfl
        by_cases hh : x.toLower = 'x'
        · have hx := lower_bases.2.2.1 hh
          refine pre (hex := true) (b := 16) rfl (by decide) (by decide) ?_ ?_ ?_ ?_ ?_ ?_
          · rcases hx with rfl | rfl <;> simp [bases]
          · rcases hx with rfl | rfl <;> simp [bases]
          · rcases hx with rfl | rfl <;> exact .inr ⟨_, rfl, by decide⟩
          · rcases hx with rfl | rfl <;> decide
          · rw [base, if_neg hb, if_neg ho, if_pos hh]
          · rw [underscoreOK, if_pos (.inr (.inr hh)), hh]; rfl
        refine oct ?_ (plain x _ rfl (by simp [hb, ho, hh]))
        intro z s' e _
        injection e with e _
        subst e
        rw [lower_bases.1] at hb
        rw [lower_bases.2.1] at ho
        rw [lower_bases.2.2] at hh
        simp only [not_or] at hb ho hh
        simp [bases, hb, ho, hh]
    · have hbase : base (c :: s) = (10, c :: s) := by
        unfold base
        split
        · rename_i h; injection h with h; exact absurd h hc
        · rename_i h; injection h with h; exact absurd h hc
        · rfl
      have hok : underscoreOK (c :: s) = underscores false (c :: s) .start := by
        unfold underscoreOK
        split
        · rename_i h; injection h with h; exact absurd h hc
        · rfl
      have hun : Unsigned (c :: s) n ↔ Digits 10 (c :: s) n := by
        constructor
        · intro h
          cases h with
          | decimal _ h => exact h
          | octal => exact absurd rfl hc
          | based => exact absurd rfl hc
        · exact .decimal (by simpa using hc)
      rw [hun, digits_iff (by decide)]
      by_cases hu : c = '_'
      · subst hu
        constructor
        · intro h
          have : underscores false ('_' :: s) .start = false := by
            rw [underscores, if_neg (by decide), if_pos rfl]; rfl
          rw [parseUint, if_neg (by simp), hok, this] at h
          split at h
          · cases h
          · split at h
            · cases h
            · rw [if_pos (by simp)] at h; cases h
        · rintro ⟨⟨d, h, -⟩, -⟩
          have := ((digit_iff (b := 10) (by decide)).2 h).1
          rw [digit_underscore] at this; cases this
      · cases hd : digit c with
        | none =>
          constructor
          · intro h
            have : digits (base (c :: s)).1 (base (c :: s)).2 0 = none := by
              rw [hbase]; show digits 10 (c :: s) 0 = none
              rw [digits, if_neg hu, hd]
            rw [parseUint, if_neg (by simp), this] at h
            cases h
          · rintro ⟨⟨d, h, -⟩, -⟩
            have := ((digit_iff (b := 10) (by decide)).2 h).1
            rw [hd] at this; cases this
        | some d =>
          by_cases hlt : d < 10
          · have hdig : Digit 10 c d := (digit_iff (by decide)).1 ⟨hd, hlt⟩
            rw [parse_rest (hex := false) (b := 10) (t := s) (k := d) (by decide) (by simp) ?_
              (by simp [Ne.symm hu]) ?_]
            · refine and_congr_left fun _ => ⟨fun h => ⟨d, hdig, h⟩, ?_⟩
              rintro ⟨d', h1, h2⟩
              have := ((digit_iff (b := 10) (by decide)).2 h1).1
              rw [hd] at this
              injection this with this
              rwa [this]
            · rw [hbase]
              show digits 10 (c :: s) 0 = digits 10 s d
              rw [digits, if_neg hu, hd]
              simp only
              rw [if_neg (by omega), Nat.zero_mul, Nat.zero_add]
            · rw [hok, underscores, if_pos (digit_counts (hex := false) (b := 10) (by decide) hd hlt).1]
          · constructor
            · intro h
              have : digits (base (c :: s)).1 (base (c :: s)).2 0 = none := by
                rw [hbase]; show digits 10 (c :: s) 0 = none
                rw [digits, if_neg hu, hd]
                simp only
                rw [if_pos (by omega)]
              rw [parseUint, if_neg (by simp), this] at h
              cases h
            · rintro ⟨⟨d', h, -⟩, -⟩
              have := (digit_iff (b := 10) (by decide)).2 h
              rw [hd] at this
              have e := Option.some.inj this.1
              omega

/-- Numbers do not begin with signs. -/
theorem unsigned_sign {c : Char} (hc : c = '+' ∨ c = '-') {s : Str} {k : Nat} : ¬Unsigned (c :: s) k := by
  intro h
  cases h with
  | decimal _ h =>
    rw [digits_iff (by decide)] at h
    obtain ⟨d, h, -⟩ := h
    have := ((digit_iff (b := 10) (by decide)).2 h).1
    rcases hc with rfl | rfl
    · have e : digit '+' = none := by decide
      rw [e] at this; cases this
    · have e : digit '-' = none := by decide
      rw [e] at this; cases this
  | octal => rcases hc with h | h <;> exact absurd h (by decide)
  | based => rcases hc with h | h <;> exact absurd h (by decide)

theorem parse_pos {s : Str} {n : Int} :
    ((parseUint s).bind fun n => if n ≥ 2 ^ 63 then none else some (n : Int)) = some n ↔
      ∃ k : Nat, Unsigned s k ∧ n = k ∧ n < 2 ^ 63 := by
  simp only [Option.bind_eq_some_iff, parseUint_exact]
  constructor
  · rintro ⟨k, ⟨h1, -⟩, h2⟩
    split at h2
    · cases h2
    · injection h2 with h2
      exact ⟨k, h1, h2.symm, by omega⟩
  · rintro ⟨k, h1, h2, h3⟩
    refine ⟨k, ⟨h1, by omega⟩, ?_⟩
    rw [if_neg (by omega), h2]

theorem parse_neg {s : Str} {n : Int} :
    ((parseUint s).bind fun n => if n > 2 ^ 63 then none else some (-(n : Int))) = some n ↔
      ∃ k : Nat, Unsigned s k ∧ n = -k ∧ -2 ^ 63 ≤ n := by
  simp only [Option.bind_eq_some_iff, parseUint_exact]
  constructor
  · rintro ⟨k, ⟨h1, -⟩, h2⟩
    split at h2
    · cases h2
    · injection h2 with h2
      exact ⟨k, h1, h2.symm, by omega⟩
  · rintro ⟨k, h1, h2, h3⟩
    refine ⟨k, ⟨h1, by omega⟩, ?_⟩
    rw [if_neg (by omega), h2]

/-- What `strconv.ParseInt` reads. -/
theorem parseInt_exact {t : Str} {n : Int} : parseInt t = some n ↔ Integer t n := by
  unfold parseInt Integer
  split
  · rename_i s
    rw [parse_pos]
    constructor
    · rintro ⟨k, h1, h2, h3⟩
      exact ⟨⟨k, .inr (.inl ⟨s, rfl, h1, h2⟩)⟩, by omega, h3⟩
    · rintro ⟨⟨k, h | ⟨s', e, h⟩ | ⟨s', e, h⟩⟩, h2, h3⟩
      · exact absurd h.1 (unsigned_sign (.inl rfl))
      · injection e with _ e; subst e; exact ⟨k, h.1, h.2, h3⟩
      · injection e with e; exact absurd e (by decide)
  · rename_i s
    rw [parse_neg]
    constructor
    · rintro ⟨k, h1, h2, h3⟩
      exact ⟨⟨k, .inr (.inr ⟨s, rfl, h1, h2⟩)⟩, h3, by omega⟩
    · rintro ⟨⟨k, h | ⟨s', e, h⟩ | ⟨s', e, h⟩⟩, h2, h3⟩
      · exact absurd h.1 (unsigned_sign (.inr rfl))
      · injection e with e; exact absurd e (by decide)
      · injection e with _ e; subst e; exact ⟨k, h.1, h.2, h2⟩
  · rename_i hp hm
    rw [parse_pos]
    constructor
    · rintro ⟨k, h1, h2, h3⟩
      exact ⟨⟨k, .inl ⟨h1, h2⟩⟩, by omega, h3⟩
    · rintro ⟨⟨k, h | ⟨s', e, h⟩ | ⟨s', e, h⟩⟩, h2, h3⟩
      · exact ⟨k, h.1, h.2, h3⟩
      · exact absurd e (hp s')
      · exact absurd e (hm s')

/-! ### Options of `visit` -/

theorem visitFlags_exact : ∀ {l : Nat} {args : List Str} {q q' : Emacs.Location}, args.length ≤ l →
    (visitFlags q args = some q' ↔ Visits q args q') := by
  intro l
  induction l with
  | zero =>
    intro args q q' hl
    obtain rfl := List.length_eq_zero_iff.mp (Nat.le_zero.1 hl)
    simp only [visitFlags, Option.some.injEq]
    exact ⟨fun h => h ▸ .none, fun h => by cases h; rfl⟩
  | succ l ih =>
    intro args q q' hl
    constructor
    · intro h
      rw [visitFlags.eq_def] at h
      split at h
      · injection h with h; subst h; exact .none
      rename_i a args
      have hl : args.length ≤ l := by simpa using hl
      split at h
      · rename_i hc
        injection h with h; subst h
        exact .plain (classify_plain.1 hc)
      · rename_i hc
        injection h with h; subst h
        rw [classify_stop.1 hc]
        exact .dashes
      · cases h
      · rename_i name value hc
        obtain ⟨d, hd, h1, h2⟩ := Line.classify_inv hc
        split at h
        · rename_i hn
          subst hn
          split at h
          · rename_i v
            rw [h2 v rfl, List.append_assoc d]
            obtain ⟨n, hn, h⟩ := Option.bind_eq_some_iff.1 h
            exact .line2 hd (parseInt_exact.1 hn) ((ih hl).1 h)
          · rw [h1 rfl]
            split at h
            · cases h
            · obtain ⟨n, hn, h⟩ := Option.bind_eq_some_iff.1 h
              exact .line1 hd (parseInt_exact.1 hn) ((ih (by simp at hl; omega)).1 h)
        · split at h
          · rename_i hn
            subst hn
            split at h
            · rename_i v
              rw [h2 v rfl, List.append_assoc d]
              exact .file2 hd ((ih hl).1 h)
            · rw [h1 rfl]
              split at h
              · cases h
              · exact .file1 hd ((ih (by simp at hl; omega)).1 h)
          · cases h
    · intro h
      rw [visitFlags.eq_def]
      cases h with
      | none => rfl
      | plain h => simp only [classify_plain.2 h]
      | dashes => simp only [classify_stop.2 rfl]
      | @line1 _ d t n args _ hd hn h =>
        have : Args.classify (d ++ "line".toList) = .flag "line".toList none := by
          rcases hd with rfl | rfl <;> rfl
        simp only [this]
        rw [if_pos trivial, parseInt_exact.2 hn]
        exact (ih (by simp at hl; omega)).2 h
      | @line2 _ d t n args _ hd hn h =>
        have : Args.classify (d ++ "line=".toList ++ t) = .flag "line".toList (some t) := by
          rcases hd with rfl | rfl <;> rfl
        simp only [this]
        rw [if_pos trivial, parseInt_exact.2 hn]
        exact (ih (by simpa using hl)).2 h
      | @file1 _ d p args _ hd h =>
        have : Args.classify (d ++ "file".toList) = .flag "file".toList none := by
          rcases hd with rfl | rfl <;> rfl
        simp only [this]
        rw [if_neg (by decide), if_pos trivial]
        exact (ih (by simp at hl; omega)).2 h
      | @file2 _ d p args _ hd h =>
        have : Args.classify (d ++ "file=".toList ++ p) = .flag "file".toList (some p) := by
          rcases hd with rfl | rfl <;> rfl
        simp only [this]
        rw [if_neg (by decide), if_pos trivial]
        exact (ih (by simpa using hl)).2 h

/-- C63: a request is sent for `visit` exactly if its options can be read, and it is for the file and the
line of the last ones; numbers are as in Go programs. -/
theorem c63_visit_exact {parse : Str → Option Json} {args : List Str} {q : Emacs.Location} :
    (∃ m d, subcommand parse ("visit".toList :: args) = .ok (m, d) ∧
      argument .visit (.arr [d]) = some (.visit q)) ↔ Visits ⟨[], 0⟩ args q := by
  rw [← visitFlags_exact (Nat.le_refl _), subcommand_visit]
  cases hv : visitFlags ⟨[], 0⟩ args with
  | none => simp
  | some q' =>
    obtain ⟨h3, h4⟩ := (visitFlags_file hv).2 (by decide) (by decide)
    constructor
    · rintro ⟨m, d, h, h'⟩
      simp only [Except.ok.injEq, Prod.mk.injEq] at h
      rw [← h.2, location_argument h3 h4] at h'
      injection h' with h'
      injection h' with h'
      rw [h']
    · rintro h
      injection h with h
      subst h
      exact ⟨_, _, rfl, location_argument h3 h4⟩

/-- C63: the number of a line is read as one of a Go program, if it fits. -/
theorem c63_number {parse : Str → Option Json} {t : Str} {n : Int} :
    (∃ m d, subcommand parse ["visit".toList, "--line".toList, t] = .ok (m, d) ∧
      argument .visit (.arr [d]) = some (.visit ⟨[], n⟩)) ↔ Integer t n := by
  rw [c63_visit_exact, ← visitFlags_exact (Nat.le_refl _), ← parseInt_exact]
  show (parseInt t).bind (fun n => visitFlags { (⟨[], 0⟩ : Emacs.Location) with lineNo := n } []) = _ ↔ _
  cases parseInt t with
  | none => simp
  | some k => simp [visitFlags]

/-! ### Examples -/

/-- A hexadecimal number with an underscore, a binary one with an underscore after its prefix, a zero that
makes a number octal. -/
example : Integer "-0x1_f".toList (-31) ∧ Integer "0b_10".toList 2 ∧ Integer "010".toList 8 ∧
    (∀ n, ¬Integer "08".toList n) ∧ (∀ n, ¬Integer "1__0".toList n) ∧ (∀ n, ¬Integer "0x".toList n) ∧
    Integer "-9223372036854775808".toList (-2 ^ 63) ∧ ∀ n, ¬Integer "9223372036854775808".toList n := by
  simp only [← parseInt_exact]
  refine ⟨by decide +kernel, by decide +kernel, by decide +kernel, ?_, ?_, ?_, by decide +kernel, ?_⟩
  all_goals
    intro n h
  · have : parseInt "08".toList = none := by decide +kernel
    rw [this] at h; cases h
  · have : parseInt "1__0".toList = none := by decide +kernel
    rw [this] at h; cases h
  · have : parseInt "0x".toList = none := by decide +kernel
    rw [this] at h; cases h
  · have : parseInt "9223372036854775808".toList = none := by decide +kernel
    rw [this] at h; cases h

/-- Options before two dashes, the last line counts. -/
example : Visits ⟨[], 0⟩ ["-line=3".toList, "--file".toList, "a.org".toList, "--line".toList, "0o17".toList,
    "--".toList, "--line".toList] ⟨"a.org".toList, 15⟩ :=
  .line2 (d := "-".toList) (t := "3".toList) (n := 3) (.inl rfl) (parseInt_exact.1 (by decide +kernel))
    (.file1 (d := "--".toList) (.inr rfl) (.line1 (d := "--".toList) (.inr rfl)
      (parseInt_exact.1 (by decide +kernel)) .dashes))

end Burl.Tool.Client
