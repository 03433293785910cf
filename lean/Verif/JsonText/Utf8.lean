import Verif.JsonText.Model
import Verif.JsonText.Spec
/-! Encoding and decoding of UTF-8. -/
namespace Burl.JsonText
open Burl

theorem toNat_range (c : Char) : c.toNat < 0xD800 ∨ (0xDFFF < c.toNat ∧ c.toNat < 0x110000) := by
  exact c.valid

theorem ofNat_toNat (c : Char) : Char.ofNat c.toNat = c := by simp

theorem putRune_eq (c : Char) : putRune c = String.utf8EncodeChar c := by
  have h := toNat_range c
  have e : c.val.toNat = c.toNat := rfl
  unfold putRune String.utf8EncodeChar
  simp only [e]
  generalize c.toNat = n at h
  by_cases h1 : n < 0x80
  · rw [if_pos h1, if_pos (by omega)]
  by_cases h2 : n < 0x800
  · rw [if_neg h1, if_pos h2, if_neg (by omega), if_pos (by omega),
      show 0xC0 + n / 64 = n / 64 % 32 + 192 by omega, Nat.add_comm 0x80]
  by_cases h3 : n < 0x10000
  · rw [if_neg h1, if_neg h2, if_pos h3, if_neg (by omega), if_neg (by omega), if_pos (by omega),
      show 0xE0 + n / 4096 = n / 4096 % 16 + 224 by omega, Nat.add_comm 0x80, Nat.add_comm 0x80]
  · rw [if_neg h1, if_neg h2, if_neg h3, if_neg (by omega), if_neg (by omega), if_neg (by omega),
      show 0xF0 + n / 262144 = n / 262144 % 8 + 240 by omega, Nat.add_comm 0x80, Nat.add_comm 0x80,
      Nat.add_comm 0x80]

theorem toNat_ofNat_lt {n : Nat} (h : n < 256) : (UInt8.ofNat n).toNat = n := by
  simp [Nat.mod_eq_of_lt h]

theorem getRune_put (c : Char) (rest : Bytes) :
    getRune (putRune c ++ rest) = (c, (putRune c).length) := by
  have h := toNat_range c
  have e := ofNat_toNat c
  unfold putRune
  simp only
  split
  · simp only [List.cons_append, List.nil_append, getRune, toNat_ofNat_lt (show c.toNat < 256 by omega)]
    rw [if_pos (by omega), e]
    rfl
  · split
    · simp only [List.cons_append, List.nil_append, getRune,
        toNat_ofNat_lt (show 0xC0 + c.toNat / 64 < 256 by omega)]
      rw [if_neg (by omega), if_neg (by omega), if_pos (by omega)]
      simp only [within, toNat_ofNat_lt (show 0x80 + c.toNat % 64 < 256 by omega)]
      rw [if_pos (by simp; omega), show (0xC0 + c.toNat / 64 - 0xC0) * 64 + (0x80 + c.toNat % 64 - 0x80) =
        c.toNat by omega, e]
      rfl
    · split
      · simp only [List.cons_append, List.nil_append, getRune,
          toNat_ofNat_lt (show 0xE0 + c.toNat / 4096 < 256 by omega)]
        rw [if_neg (by omega), if_neg (by omega), if_neg (by omega), if_pos (by omega)]
        simp only [within, toNat_ofNat_lt (show 0x80 + c.toNat % 64 < 256 by omega),
          toNat_ofNat_lt (show 0x80 + c.toNat / 64 % 64 < 256 by omega)]
        rw [if_pos (by simp; split <;> split <;> omega),
          show (0xE0 + c.toNat / 4096 - 0xE0) * 4096 + (0x80 + c.toNat / 64 % 64 - 0x80) * 64 +
            (0x80 + c.toNat % 64 - 0x80) = c.toNat by omega, e]
        rfl
      · simp only [List.cons_append, List.nil_append, getRune,
          toNat_ofNat_lt (show 0xF0 + c.toNat / 262144 < 256 by omega)]
        rw [if_neg (by omega), if_neg (by omega), if_neg (by omega), if_neg (by omega), if_pos (by omega)]
        simp only [within, toNat_ofNat_lt (show 0x80 + c.toNat % 64 < 256 by omega),
          toNat_ofNat_lt (show 0x80 + c.toNat / 64 % 64 < 256 by omega),
          toNat_ofNat_lt (show 0x80 + c.toNat / 4096 % 64 < 256 by omega)]
        rw [if_pos (by simp; split <;> split <;> omega),
          show (0xF0 + c.toNat / 262144 - 0xF0) * 262144 + (0x80 + c.toNat / 4096 % 64 - 0x80) * 4096 +
            (0x80 + c.toNat / 64 % 64 - 0x80) * 64 + (0x80 + c.toNat % 64 - 0x80) = c.toNat by omega, e]
        rfl

theorem toNat_ofNat {n : Nat} (h : n < 0xD800 ∨ (0xDFFF < n ∧ n < 0x110000)) : (Char.ofNat n).toNat = n := by
  rw [Char.ofNat, dif_pos h]
  rfl

/-- Bytes that are not the beginning of a text of a character. -/
theorem getRune_bad {b : UInt8} {bs : Bytes} (h : ∀ c, ¬putRune c <+: b :: bs) : getRune (b :: bs) = (runeError, 1) := by
  have hb : b.toNat < 256 := b.toNat_lt
  have e0 : UInt8.ofNat b.toNat = b := by simp
  rw [getRune.eq_def]
  dsimp only
  split
  · exfalso
    refine h (Char.ofNat b.toNat) ⟨bs, ?_⟩
    rw [putRune, toNat_ofNat (by omega)]
    rw [if_pos (by assumption), e0]
    rfl
  split
  · rfl
  split
  · cases bs with
    | nil => rfl
    | cons b1 bs =>
      have e1 : UInt8.ofNat b1.toNat = b1 := by simp
      dsimp only
      refine if_neg ?_
      · intro hw
        simp only [within, Bool.and_eq_true, decide_eq_true_eq] at hw
        exfalso
        refine h (Char.ofNat ((b.toNat - 0xC0) * 64 + (b1.toNat - 0x80))) ⟨bs, ?_⟩
        rw [putRune, toNat_ofNat (by omega)]
        rw [if_neg (by omega), if_pos (by omega),
          show 0xC0 + ((b.toNat - 0xC0) * 64 + (b1.toNat - 0x80)) / 64 = b.toNat by omega,
          show 0x80 + ((b.toNat - 0xC0) * 64 + (b1.toNat - 0x80)) % 64 = b1.toNat by omega, e0, e1]
        rfl
  split
  · match bs with
    | [] => rfl
    | [_] => rfl
    | b1 :: b2 :: bs =>
      have e1 : UInt8.ofNat b1.toNat = b1 := by simp
      have e2 : UInt8.ofNat b2.toNat = b2 := by simp
      dsimp only
      refine if_neg ?_
      · intro hw
        simp only [within, Bool.and_eq_true, decide_eq_true_eq] at hw
        have hv : 0x800 ≤ (b.toNat - 0xE0) * 4096 + (b1.toNat - 0x80) * 64 + (b2.toNat - 0x80) ∧
            ((b.toNat - 0xE0) * 4096 + (b1.toNat - 0x80) * 64 + (b2.toNat - 0x80) < 0xD800 ∨
              0xDFFF < (b.toNat - 0xE0) * 4096 + (b1.toNat - 0x80) * 64 + (b2.toNat - 0x80)) ∧
            0x80 ≤ b1.toNat ∧ b1.toNat ≤ 0xBF := by
          obtain ⟨⟨h1, h2⟩, h3, h4⟩ := hw
          split at h1 <;> split at h2 <;> omega
        exfalso
        refine h (Char.ofNat ((b.toNat - 0xE0) * 4096 + (b1.toNat - 0x80) * 64 + (b2.toNat - 0x80))) ⟨bs, ?_⟩
        rw [putRune, toNat_ofNat (by omega)]
        rw [if_neg (by omega), if_neg (by omega), if_pos (by omega),
          show 0xE0 + ((b.toNat - 0xE0) * 4096 + (b1.toNat - 0x80) * 64 + (b2.toNat - 0x80)) / 4096 = b.toNat by omega,
          show 0x80 + ((b.toNat - 0xE0) * 4096 + (b1.toNat - 0x80) * 64 + (b2.toNat - 0x80)) / 64 % 64 = b1.toNat by omega,
          show 0x80 + ((b.toNat - 0xE0) * 4096 + (b1.toNat - 0x80) * 64 + (b2.toNat - 0x80)) % 64 = b2.toNat by omega,
          e0, e1, e2]
        rfl
  split
  · match bs with
    | [] => rfl
    | [_] => rfl
    | [_, _] => rfl
    | b1 :: b2 :: b3 :: bs =>
      have e1 : UInt8.ofNat b1.toNat = b1 := by simp
      have e2 : UInt8.ofNat b2.toNat = b2 := by simp
      have e3 : UInt8.ofNat b3.toNat = b3 := by simp
      dsimp only
      refine if_neg ?_
      · intro hw
        simp only [within, Bool.and_eq_true, decide_eq_true_eq] at hw
        have hv : 0x10000 ≤ (b.toNat - 0xF0) * 262144 + (b1.toNat - 0x80) * 4096 + (b2.toNat - 0x80) * 64 + (b3.toNat - 0x80) ∧
            (b.toNat - 0xF0) * 262144 + (b1.toNat - 0x80) * 4096 + (b2.toNat - 0x80) * 64 + (b3.toNat - 0x80) < 0x110000 ∧
            0x80 ≤ b1.toNat ∧ b1.toNat ≤ 0xBF := by
          obtain ⟨⟨⟨h1, h2⟩, h3, h4⟩, h5, h6⟩ := hw
          split at h1 <;> split at h2 <;> omega
        exfalso
        refine h (Char.ofNat ((b.toNat - 0xF0) * 262144 + (b1.toNat - 0x80) * 4096 + (b2.toNat - 0x80) * 64 +
          (b3.toNat - 0x80))) ⟨bs, ?_⟩
        rw [putRune, toNat_ofNat (by omega)]
        rw [if_neg (by omega), if_neg (by omega), if_neg (by omega),
          show 0xF0 + ((b.toNat - 0xF0) * 262144 + (b1.toNat - 0x80) * 4096 + (b2.toNat - 0x80) * 64 +
            (b3.toNat - 0x80)) / 262144 = b.toNat by omega,
          show 0x80 + ((b.toNat - 0xF0) * 262144 + (b1.toNat - 0x80) * 4096 + (b2.toNat - 0x80) * 64 +
            (b3.toNat - 0x80)) / 4096 % 64 = b1.toNat by omega,
          show 0x80 + ((b.toNat - 0xF0) * 262144 + (b1.toNat - 0x80) * 4096 + (b2.toNat - 0x80) * 64 +
            (b3.toNat - 0x80)) / 64 % 64 = b2.toNat by omega,
          show 0x80 + ((b.toNat - 0xF0) * 262144 + (b1.toNat - 0x80) * 4096 + (b2.toNat - 0x80) * 64 +
            (b3.toNat - 0x80)) % 64 = b3.toNat by omega, e0, e1, e2, e3]
        rfl
  · rfl

theorem putRune_ascii {c : Char} (h : c.toNat < 128) : putRune c = [UInt8.ofNat c.toNat] := by
  simp [putRune, h]

theorem putRune_high {c : Char} (h : 128 ≤ c.toNat) : ∀ b ∈ putRune c, 128 ≤ b.toNat := by
  have hr := toNat_range c
  intro b hb
  unfold putRune at hb
  simp only at hb
  rw [if_neg (by omega)] at hb
  split at hb
  · simp only [List.mem_cons, List.not_mem_nil, or_false] at hb
    rcases hb with rfl | rfl <;> rw [toNat_ofNat_lt (by omega)] <;> omega
  · split at hb
    · simp only [List.mem_cons, List.not_mem_nil, or_false] at hb
      rcases hb with rfl | rfl | rfl <;> rw [toNat_ofNat_lt (by omega)] <;> omega
    · simp only [List.mem_cons, List.not_mem_nil, or_false] at hb
      rcases hb with rfl | rfl | rfl | rfl <;> rw [toNat_ofNat_lt (by omega)] <;> omega

theorem putRune_ne (c : Char) : ∃ b bs, putRune c = b :: bs := by
  unfold putRune
  simp only
  split
  · exact ⟨_, _, rfl⟩
  · split
    · exact ⟨_, _, rfl⟩
    · split <;> exact ⟨_, _, rfl⟩

/-- Bytes of a character that may stand in a string as it is. -/
theorem putRune_plain {c : Char} (h1 : c ≠ '"') (h2 : c ≠ '\\') (h3 : 32 ≤ c.toNat) :
    ∀ b ∈ putRune c, b ≠ 34 ∧ b ≠ 92 ∧ 32 ≤ b.toNat := by
  intro b hb
  by_cases h : c.toNat < 128
  · rw [putRune_ascii h, List.mem_singleton] at hb
    have e : b.toNat = c.toNat := by rw [hb, toNat_ofNat_lt (by omega)]
    refine ⟨?_, ?_, by omega⟩
    · rintro rfl
      apply h1
      rw [← ofNat_toNat c, ← e]; rfl
    · rintro rfl
      apply h2
      rw [← ofNat_toNat c, ← e]; rfl
  · have := putRune_high (by omega) b hb
    refine ⟨?_, ?_, by omega⟩ <;> rintro rfl <;> simp at this

end Burl.JsonText
