import Verif.JsonText.EncodeLemmas
/-! Strings of Go are sequences of bytes; here is what `encoding/json` does with those that are not
UTF-8.  In the rest of the model strings are sequences of characters. -/
namespace Burl.JsonText
open Burl

/-- The bytes of a string. -/
def utf8 (s : Str) : Bytes := s.flatMap putRune

/-- The loop of `(*encodeState).string` with `escapeHTML` on bytes; the first argument is a bound for
the number of rounds. -/
def encRaw (short : Bool) : Nat → Bytes → Bytes
  | 0, _ => []
  | _ + 1, [] => []
  | f + 1, b :: bs =>
    let (c, n) := getRune (b :: bs)
    if c = runeError ∧ n = 1 then [92, 117, 102, 102, 102, 100] ++ encRaw short f bs
    else encRune short c ++ encRaw short f ((b :: bs).drop n)

/-- `(*encodeState).string` on bytes. -/
def encString (short : Bool) (s : Bytes) : Bytes := 34 :: (encRaw short s.length s ++ [34])

theorem putRune_length_pos (c : Char) : 0 < (putRune c).length := by
  obtain ⟨b, bs, e⟩ := putRune_ne c
  rw [e]; simp

theorem putRune_runeError : (putRune runeError).length = 3 := by decide

theorem encRaw_utf8 (short : Bool) (s : Str) (f : Nat) (rest : Bytes) :
    encRaw short (s.length + f) (utf8 s ++ rest) = s.flatMap (encRune short) ++ encRaw short f rest := by
  induction s with
  | nil => simp [utf8]
  | cons c s ih =>
    have e : utf8 (c :: s) ++ rest = putRune c ++ (utf8 s ++ rest) := by simp [utf8]
    have hg := getRune_put c (utf8 s ++ rest)
    have hd : List.drop (putRune c).length (putRune c ++ (utf8 s ++ rest)) = utf8 s ++ rest :=
      List.drop_left
    have h3 : c = runeError → (putRune c).length ≠ 1 := by rintro rfl; rw [putRune_runeError]; decide
    rw [e, List.flatMap_cons, List.append_assoc, ← ih, List.length_cons, Nat.add_right_comm]
    obtain ⟨b, bs, eb⟩ := putRune_ne c
    rw [eb, List.cons_append] at hg hd ⊢
    rw [eb] at h3
    rw [encRaw]
    simp only [hg, hd]
    rw [if_neg fun h => h3 h.1 h.2]

theorem utf8_length (s : Str) : s.length ≤ (utf8 s).length := by
  induction s with
  | nil => simp
  | cons c s ih =>
    have := putRune_length_pos c
    simp only [utf8, List.flatMap_cons, List.length_append, List.length_cons] at *
    omega

/-- Text in UTF-8 is encoded as its characters are. -/
theorem encString_utf8 (short : Bool) (s : Str) : encString short (utf8 s) = encStr short s := by
  have h := encRaw_utf8 short s ((utf8 s).length - s.length) []
  have hl := utf8_length s
  rw [List.append_nil, Nat.add_sub_cancel' hl] at h
  rw [encString, h, encStr]
  cases (utf8 s).length - s.length <;> simp [encRaw]

/-- Different bytes that are not a part of a character are encoded alike. -/
theorem encString_bad (short : Bool) (s : Str) :
    encString short (utf8 s ++ [0xFF]) = encString short (utf8 s ++ [0xFE]) := by
  have hl := utf8_length s
  have h := fun r => encRaw_utf8 short s ((utf8 s).length - s.length + 1) r
  have e : s.length + ((utf8 s).length - s.length + 1) = (utf8 s).length + 1 := by omega
  simp only [e] at h
  rw [encString, encString, List.length_append, List.length_append, List.length_singleton,
    List.length_singleton, h, h]
  cases (utf8 s).length - s.length <;> simp [encRaw, getRune]

end Burl.JsonText
