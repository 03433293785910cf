import Verif.JsonText.DecodeLemmas
/-! What is written by the encoder. -/
namespace Burl.JsonText
open Burl
open Burl.Json (Json)
open Burl.Rpc (isDigit)
open Burl.Rpc.Spec (Piece Num strText)
open Burl.JsonText.Spec

/-! ### Strings -/

theorem hexVal_hex {n : Nat} (h : n < 16) : hexVal (hex n) n := by
  have hn : n = 0 ∨ n = 1 ∨ n = 2 ∨ n = 3 ∨ n = 4 ∨ n = 5 ∨ n = 6 ∨ n = 7 ∨ n = 8 ∨ n = 9 ∨ n = 10 ∨
      n = 11 ∨ n = 12 ∨ n = 13 ∨ n = 14 ∨ n = 15 := by omega
  rcases hn with h | h | h | h | h | h | h | h | h | h | h | h | h | h | h | h <;> subst h <;>
    simp [hexVal, hex]

/-- The text of a character is a piece of a literal for this character. -/
theorem encRune_means (short : Bool) (c : Char) : ∃ ps, body ps = encRune short c ∧
    ∀ qs s, StrMeans qs s → StrMeans (ps ++ qs) (c :: s) := by
  unfold encRune
  by_cases h1 : c = '"' ∨ c = '\\'
  · simp only [h1, if_true]
    refine ⟨[.esc (UInt8.ofNat c.toNat)], by simp [Piece.text], fun qs s h => .esc ?_ h⟩
    rcases h1 with rfl | rfl <;> decide
  simp only [h1, if_false]
  by_cases h2 : c = '\n'
  · simp only [h2, if_true]
    exact ⟨[.esc 110], by simp [Piece.text], fun qs s h => .esc (by decide) h⟩
  simp only [h2, if_false]
  by_cases h3 : c = '\r'
  · simp only [h3, if_true]
    exact ⟨[.esc 114], by simp [Piece.text], fun qs s h => .esc (by decide) h⟩
  simp only [h3, if_false]
  by_cases h4 : c = '\t'
  · simp only [h4, if_true]
    exact ⟨[.esc 116], by simp [Piece.text], fun qs s h => .esc (by decide) h⟩
  simp only [h4, if_false]
  by_cases h5 : short = true ∧ c.toNat = 8
  · rw [if_pos h5]
    exact ⟨[.esc 98], by simp [Piece.text], fun qs s h => .esc (by rw [h5.2]; decide) h⟩
  rw [if_neg h5]
  by_cases h6 : short = true ∧ c.toNat = 12
  · rw [if_pos h6]
    exact ⟨[.esc 102], by simp [Piece.text], fun qs s h => .esc (by rw [h6.2]; decide) h⟩
  rw [if_neg h6]
  by_cases h7 : c.toNat < 32 ∨ c = '<' ∨ c = '>' ∨ c = '&'
  · rw [if_pos h7]
    have hn : c.toNat < 256 := by
      rcases h7 with h | rfl | rfl | rfl
      · omega
      · decide
      · decide
      · decide
    refine ⟨[.u 48 48 (hex (c.toNat / 16)) (hex (c.toNat % 16))], by simp [Piece.text], fun qs s h => .u ?_ h⟩
    exact ⟨0, 0, c.toNat / 16, c.toNat % 16, by simp [hexVal], by simp [hexVal], hexVal_hex (by omega),
      hexVal_hex (by omega), by omega⟩
  rw [if_neg h7]
  by_cases h8 : c.toNat = 0x2028 ∨ c.toNat = 0x2029
  · rw [if_pos h8]
    refine ⟨[.u 50 48 50 (hex (c.toNat % 16))], by simp [Piece.text], fun qs s h => .u ?_ h⟩
    exact ⟨2, 0, 2, c.toNat % 16, by simp [hexVal], by simp [hexVal], by simp [hexVal],
      hexVal_hex (by omega), by omega⟩
  rw [if_neg h8]
  simp only [not_or, Nat.not_lt] at h7 h1
  refine ⟨(String.utf8EncodeChar c).map .plain, ?_, fun qs s h => .plain h1.1 h1.2 h7.1 h⟩
  rw [body_plain, putRune_eq]

theorem encStr_means (short : Bool) (s : Str) : ∃ ps, strText ps = encStr short s ∧ StrMeans ps s := by
  have h : ∃ ps, body ps = s.flatMap (encRune short) ∧ StrMeans ps s := by
    induction s with
    | nil => exact ⟨[], rfl, .nil⟩
    | cons c s ih =>
      obtain ⟨ps, h1, h2⟩ := ih
      obtain ⟨qs, h3, h4⟩ := encRune_means short c
      exact ⟨qs ++ ps, by rw [body_append, h3, h1, List.flatMap_cons], h4 _ _ h2⟩
  obtain ⟨ps, h1, h2⟩ := h
  exact ⟨ps, by rw [strText_eq, h1, encStr], h2⟩

/-! ### Numbers -/

theorem digit_of {n : Nat} (h : n < 10) : isDigit (UInt8.ofNat (48 + n)) = true ∧
    (UInt8.ofNat (48 + n)).toNat - 48 = n ∧ (UInt8.ofNat (48 + n) = 48 → n = 0) := by
  have hn : n = 0 ∨ n = 1 ∨ n = 2 ∨ n = 3 ∨ n = 4 ∨ n = 5 ∨ n = 6 ∨ n = 7 ∨ n = 8 ∨ n = 9 := by omega
  rcases hn with h | h | h | h | h | h | h | h | h | h <;> subst h <;> decide

theorem decimal_append (a : Bytes) (d : UInt8) :
    decimal (a ++ [d]) = decimal a * 10 + (d.toNat - 48) := by
  induction a with
  | nil => simp [decimal]
  | cons x a ih =>
    rw [List.cons_append, decimal, ih, decimal, List.length_append, List.length_singleton, Nat.pow_succ,
      Nat.add_mul, Nat.mul_assoc, Nat.add_assoc]

theorem decimal_encNat (n : Nat) : decimal (encNat n) = n := by
  induction n using Nat.strongRecOn with
  | ind n ih =>
    rw [encNat]
    split
    · rename_i h
      simp [decimal]
      exact (digit_of h).2.1
    · rw [decimal_append, ih (n / 10) (by omega), (digit_of (Nat.mod_lt n (by omega))).2.1]
      omega

theorem encNat_shape (n : Nat) : ∃ d ds, encNat n = d :: ds ∧ isDigit d = true ∧ ds.all isDigit = true ∧
    (n ≠ 0 → d ≠ 48) ∧ (n = 0 → ds = []) := by
  induction n using Nat.strongRecOn with
  | ind n ih =>
    rw [encNat]
    split
    · rename_i h
      exact ⟨_, _, rfl, (digit_of h).1, rfl, fun h0 e => h0 ((digit_of h).2.2 e), fun _ => rfl⟩
    · obtain ⟨d, ds, e, h1, h2, h3, -⟩ := ih (n / 10) (by omega)
      refine ⟨d, _, by rw [e, List.cons_append], h1, ?_, fun _ => h3 (by omega), fun h => by omega⟩
      have hd := (digit_of (Nat.mod_lt n (by omega : 10 > 0))).1
      rw [List.all_append, h2, List.all_cons, hd]; rfl

theorem encInt_means (n : Int) : ∃ m : Num, m.text = encInt n ∧ m.ok = true ∧ numValue m = .num n := by
  obtain ⟨d, ds, e, h1, h2, h3, h4⟩ := encNat_shape n.natAbs
  refine ⟨⟨decide (n < 0), encNat n.natAbs, [], none, false⟩, ?_, ?_, ?_⟩
  · simp only [Num.text, encInt]
    by_cases h : n < 0 <;> simp [h]
  · rw [e]
    simp only [Num.ok]
    cases ds with
    | nil => simp [h1]
    | cons x xs =>
      have hn : n.natAbs ≠ 0 := fun h => by simpa using h4 h
      simp only [List.all_cons, Bool.and_eq_true] at h2
      simp [h1, h3 hn, h2.1]
      exact fun x hx => List.all_eq_true.mp h2.2 x hx
  · simp only [numValue, decimal_encNat, and_self, if_true]
    congr 1
    by_cases h : n < 0 <;> simp [h] <;> omega

theorem num_ascii {n : Num} (h : n.ok = true) : ∀ b ∈ n.text, b.toNat < 128 := by
  have hd : ∀ b : UInt8, Rpc.Spec.digit b = true → b.toNat < 128 := by
    intro b hb
    simp only [Rpc.Spec.digit, Bool.and_eq_true, decide_eq_true_eq, UInt8.le_iff_toNat_le] at hb
    have : (57 : UInt8).toNat = 57 := rfl
    omega
  have hall : ∀ ds : List UInt8, ds.all Rpc.Spec.digit = true → ∀ b ∈ ds, b.toNat < 128 :=
    fun ds h b hb => hd b (List.all_eq_true.mp h b hb)
  simp only [Num.ok, Bool.and_eq_true] at h
  obtain ⟨⟨h1, h2⟩, h3⟩ := h
  have hi : n.int.all Rpc.Spec.digit = true := by
    split at h1
    · cases h1
    · rename_i d e; rw [e, List.all_cons, h1]; rfl
    · rename_i d ds _ e; rw [e]
      simp only [Bool.and_eq_true] at h1
      rw [List.all_cons, h1.1.1, h1.2]; rfl
  intro b hb
  simp only [Num.text, List.mem_append] at hb
  rcases hb with ((hb | hb) | hb) | hb
  · split at hb
    · simp at hb; subst hb; decide
    · simp at hb
  · exact hall _ hi b hb
  · split at hb
    · simp at hb
    · rcases List.mem_cons.mp hb with rfl | hb
      · decide
      · exact hall _ h2 b hb
  · split at hb
    · simp at hb
    · rename_i sgn ds e
      rw [e] at h3
      simp only [Bool.and_eq_true] at h3
      rcases List.mem_cons.mp hb with rfl | hb
      · cases n.upper <;> decide
      · rcases List.mem_append.mp hb with hb | hb
        · split at hb <;> simp at hb <;> subst hb <;> decide
        · exact hall _ h3.2 b hb

theorem ascii_put {x : Bytes} (h : ∀ b ∈ x, b.toNat < 128) :
    (x.map fun b => Char.ofNat b.toNat).flatMap putRune = x := by
  induction x with
  | nil => rfl
  | cons b x ih =>
    have hb := h b (by simp)
    have hn : (Char.ofNat b.toNat).toNat = b.toNat := by
      simp only [Char.toNat, Char.ofNat]
      rw [dif_pos (by simp only [Nat.isValidChar]; omega)]
      rfl
    rw [List.map_cons, List.flatMap_cons, ih fun c hc => h c (List.mem_cons_of_mem _ hc), putRune, hn,
      if_pos hb]
    simp

theorem real_text {n : Num} {t : Str} (h : numValue n = .real t) :
    t = n.text.map fun b => Char.ofNat b.toNat := by
  unfold numValue at h
  split at h
  · cases h
  · injection h with h; exact h.symm

/-! ### Values -/

mutual
theorem enc_means (short : Bool) : ∀ (v : Json) (d : Nat), Plain d v →
    ∃ t : Text, t.text = enc short v ∧ t.ok d = true ∧ Means t v
  | .null, d, _ => ⟨.null, by simp only [enc]; decide, rfl, by rw [Means]⟩
  | .bool true, d, _ => ⟨.bool true, by simp only [enc]; decide, rfl, by rw [Means]⟩
  | .bool false, d, _ => ⟨.bool false, by simp only [enc]; decide, rfl, by rw [Means]⟩
  | .real t, d, h => by
    simp only [Plain] at h
    obtain ⟨n, h1, h2⟩ := h
    refine ⟨.num n, ?_, by rw [Rpc.Spec.Json.ok, h1], by rw [Means, h2]⟩
    rw [Rpc.Spec.Json.text, enc, real_text h2, ascii_put (num_ascii h1)]
  | .num n, d, _ => by
    obtain ⟨m, h1, h2, h3⟩ := encInt_means n
    exact ⟨.num m, by rw [Rpc.Spec.Json.text, h1, enc], by rw [Rpc.Spec.Json.ok, h2], by rw [Means, h3]⟩
  | .str s, d, _ => by
    obtain ⟨ps, h1, h2⟩ := encStr_means short s
    exact ⟨.str ps, by rw [Rpc.Spec.Json.text, h1, enc], by rw [Rpc.Spec.Json.ok, strMeans_ok h2],
      by rw [Means]; exact ⟨s, h2, rfl⟩⟩
  | .arr vs, 0, h => by simp [Plain] at h
  | .obj vs, 0, h => by simp [Plain] at h
  | .arr vs, d + 1, h => by
    rw [Plain] at h
    obtain ⟨ts, h1, h2, h3⟩ := encElems_means short vs d h
    exact ⟨.arr ts, by rw [Rpc.Spec.Json.text, h1, enc], by rw [Rpc.Spec.Json.ok, h2],
      by rw [Means]; exact ⟨vs, h3, rfl⟩⟩
  | .obj ms, d + 1, h => by
    rw [Plain] at h
    obtain ⟨ts, h1, h2, h3⟩ := encMembers_means short ms d h
    exact ⟨.obj ts, by rw [Rpc.Spec.Json.text, h1, enc], by rw [Rpc.Spec.Json.ok, h2],
      by rw [Means]; exact ⟨ms, h3, rfl⟩⟩
theorem encElems_means (short : Bool) : ∀ (vs : List Json) (d : Nat), AllPlain d vs →
    ∃ ts : List Text, Rpc.Spec.arrText ts = encElems short vs ∧ Rpc.Spec.arrOk d ts = true ∧
      ElemsMean ts vs
  | [], d, _ => ⟨[], by rw [Rpc.Spec.arrText, encElems], by rw [Rpc.Spec.arrOk], by rw [ElemsMean]⟩
  | [v], d, h => by
    rw [AllPlain] at h
    obtain ⟨t, h1, h2, h3⟩ := enc_means short v d h.1
    refine ⟨[t], by rw [Rpc.Spec.arrText, h1, encElems], by rw [Rpc.Spec.arrOk, h2, Rpc.Spec.arrOk]; rfl, ?_⟩
    rw [ElemsMean]
    exact ⟨v, [], h3, by rw [ElemsMean], rfl⟩
  | v :: w :: vs, d, h => by
    rw [AllPlain] at h
    obtain ⟨t, h1, h2, h3⟩ := enc_means short v d h.1
    obtain ⟨ts, h4, h5, h6⟩ := encElems_means short (w :: vs) d h.2
    have h7 := h6
    rw [ElemsMean.eq_def] at h7
    cases ts with
    | nil => simp at h7
    | cons u us =>
      refine ⟨t :: u :: us, by rw [Rpc.Spec.arrText, h1, h4, encElems], by rw [Rpc.Spec.arrOk, h2, h5]; rfl, ?_⟩
      rw [ElemsMean]
      exact ⟨v, w :: vs, h3, h6, rfl⟩
theorem encMembers_means (short : Bool) : ∀ (ms : List (Str × Json)) (d : Nat), MembersPlain d ms →
    ∃ ts : List (List Piece × Text), Rpc.Spec.objText ts = encMembers short ms ∧
      Rpc.Spec.objOk d ts = true ∧ MembersMean ts ms
  | [], d, _ => ⟨[], by rw [Rpc.Spec.objText, encMembers], by rw [Rpc.Spec.objOk], by rw [MembersMean]⟩
  | [(k, v)], d, h => by
    rw [MembersPlain] at h
    obtain ⟨t, h1, h2, h3⟩ := enc_means short v d h.1
    obtain ⟨ps, h4, h5⟩ := encStr_means short k
    refine ⟨[(ps, t)], by rw [Rpc.Spec.objText, h1, h4, encMembers],
      by rw [Rpc.Spec.objOk, strMeans_ok h5, h2, Rpc.Spec.objOk]; rfl, ?_⟩
    rw [MembersMean]
    exact ⟨k, v, [], h5, h3, by rw [MembersMean], rfl⟩
  | (k, v) :: m :: ms, d, h => by
    rw [MembersPlain] at h
    obtain ⟨t, h1, h2, h3⟩ := enc_means short v d h.1
    obtain ⟨ps, h4, h5⟩ := encStr_means short k
    obtain ⟨ts, h6, h7, h8⟩ := encMembers_means short (m :: ms) d h.2
    have h9 := h8
    rw [MembersMean.eq_def] at h9
    cases ts with
    | nil => simp at h9
    | cons u us =>
      refine ⟨(ps, t) :: u :: us, by rw [Rpc.Spec.objText, h1, h4, h6, encMembers],
        by rw [Rpc.Spec.objOk, strMeans_ok h5, h2, h7]; rfl, ?_⟩
      rw [MembersMean]
      exact ⟨k, v, m :: ms, h5, h3, h8, rfl⟩
end

end Burl.JsonText
