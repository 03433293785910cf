import Verif.JsonText.Utf8
import Verif.Rpc.JsonLemmas
/-! Decoding gives what a text says. -/
namespace Burl.JsonText
open Burl Burl.JsonText.Spec
open Burl.Json (Json)
open Burl.Rpc.Spec (Piece Num strText Blank Padded)
open Burl.Rpc (isSpace isDigit)

/-- The text of pieces of a string. -/
def body (ps : List Piece) : Bytes := (ps.map Piece.text).flatten

@[simp] theorem body_nil : body [] = [] := rfl
@[simp] theorem body_cons (p : Piece) (ps : List Piece) : body (p :: ps) = p.text ++ body ps := by
  simp [body]
theorem body_append (a b : List Piece) : body (a ++ b) = body a ++ body b := by simp [body]
@[simp] theorem body_plain (bs : Bytes) : body (bs.map .plain) = bs := by
  induction bs with
  | nil => rfl
  | cons b bs ih => simp [ih, Piece.text]

theorem strText_eq (ps : List Piece) : strText ps = 34 :: (body ps ++ [34]) := rfl

/-! ### Strings -/

theorem unhex_of {b : UInt8} {n : Nat} (h : hexVal b n) : unhex b = some n := by
  unfold hexVal at h
  unfold unhex
  simp only
  rcases h with ⟨h1, h2, h3⟩ | ⟨h1, h2, h3⟩ | ⟨h1, h2, h3⟩
  · rw [if_pos ⟨h1, h2⟩]; congr 1; omega
  · rw [if_neg (by omega), if_pos ⟨h1, h2⟩]; congr 1; omega
  · rw [if_neg (by omega), if_neg (by omega), if_pos ⟨h1, h2⟩]; congr 1; omega

theorem getu4_of {a b c d : UInt8} {n : Nat} (h : code a b c d n) (rest : Bytes) :
    getu4 (92 :: 117 :: a :: b :: c :: d :: rest) = some n := by
  obtain ⟨i, j, k, l, h1, h2, h3, h4, rfl⟩ := h
  simp only [getu4, and_self, if_true, unhex_of h1, unhex_of h2, unhex_of h3, unhex_of h4, Option.bind_some]
  congr 1
  omega

theorem hexVal_lt {b : UInt8} {n : Nat} (h : hexVal b n) : n < 16 := by
  unfold hexVal at h; omega

theorem code_lt {a b c d : UInt8} {n : Nat} (h : code a b c d n) : n < 65536 := by
  obtain ⟨i, j, k, l, h1, h2, h3, h4, rfl⟩ := h
  have := hexVal_lt h1; have := hexVal_lt h2; have := hexVal_lt h3; have := hexVal_lt h4
  omega

theorem unescape_of {b : UInt8} {c : Char} (h : (b, c.toNat) ∈ escapes) :
    b ≠ 117 ∧ unescape b = some c := by
  rw [← ofNat_toNat c]
  generalize c.toNat = n at h ⊢
  simp only [escapes, List.mem_cons, Prod.mk.injEq, List.not_mem_nil, or_false] at h
  rcases h with ⟨rfl, rfl⟩ | ⟨rfl, rfl⟩ | ⟨rfl, rfl⟩ | ⟨rfl, rfl⟩ | ⟨rfl, rfl⟩ | ⟨rfl, rfl⟩ |
    ⟨rfl, rfl⟩ | ⟨rfl, rfl⟩ <;> exact ⟨by decide, by decide⟩

theorem strMeans_ok {ps : List Piece} {s : Str} (h : StrMeans ps s) : ps.all Piece.ok = true := by
  have hx : ∀ {b : UInt8} {n : Nat}, hexVal b n → Rpc.Spec.hexDigit b = true := by
    intro b n h
    simp only [hexVal] at h
    simp only [Rpc.Spec.hexDigit, Rpc.Spec.digit, Bool.or_eq_true, Bool.and_eq_true, decide_eq_true_eq,
      UInt8.le_iff_toNat_le]
    simp
    omega
  have hc : ∀ {a b c d : UInt8} {n : Nat}, code a b c d n → (Piece.u a b c d).ok = true := by
    intro a b c d n h
    obtain ⟨i, j, k, l, h1, h2, h3, h4, rfl⟩ := h
    simp only [Piece.ok, hx h1, hx h2, hx h3, hx h4, Bool.and_self]
  induction h with
  | nil => rfl
  | @plain c ps s h1 h2 h3 _ ih =>
    rw [List.all_append, ih, Bool.and_true, List.all_map, List.all_eq_true]
    intro b hb
    rw [← putRune_eq] at hb
    obtain ⟨g1, g2, g3⟩ := putRune_plain h1 h2 h3 b hb
    simp [Piece.ok, g1, g2, UInt8.le_iff_toNat_le, g3]
  | @esc b c ps s h1 _ ih =>
    rw [List.all_cons, ih, Bool.and_true]
    simp only [escapes, List.mem_cons, Prod.mk.injEq, List.not_mem_nil, or_false] at h1
    rcases h1 with ⟨rfl, _⟩ | ⟨rfl, _⟩ | ⟨rfl, _⟩ | ⟨rfl, _⟩ | ⟨rfl, _⟩ | ⟨rfl, _⟩ |
      ⟨rfl, _⟩ | ⟨rfl, _⟩ <;> rfl
  | u h1 _ ih => rw [List.all_cons, ih, hc h1]; rfl
  | pair h1 h2 _ _ _ _ _ _ ih => rw [List.all_cons, List.all_cons, ih, hc h1, hc h2]; rfl
  | byte h1 _ _ ih =>
    rw [List.all_cons, ih, Bool.and_true]
    simp only [Piece.ok, Bool.and_eq_true, bne_iff_ne, decide_eq_true_eq, UInt8.le_iff_toNat_le]
    refine ⟨⟨?_, ?_⟩, ?_⟩
    · rintro rfl; simp at h1
    · rintro rfl; simp at h1
    · show 32 ≤ _; omega
  | lone h1 _ _ _ _ ih => rw [List.all_cons, ih, hc h1]; rfl

/-- Bytes above 127 in a text of pieces are written as they are. -/
theorem plain_prefix : ∀ {bs : Bytes} {ps : List Piece} {rest : Bytes}, (∀ b ∈ bs, 128 ≤ b.toNat) →
    (∀ b ∈ rest.head?, b.toNat < 128) → bs <+: body ps ++ rest → bs.map Piece.plain <+: ps := by
  intro bs
  induction bs with
  | nil => intros; exact List.nil_prefix
  | cons b bs ih =>
    intro ps rest h1 h2 h
    have hb := h1 b (by simp)
    cases ps with
    | nil =>
      cases rest with
      | nil => simp at h
      | cons r rest =>
        rw [body_nil, List.nil_append, List.cons_prefix_cons] at h
        have := h2 r (by simp)
        rw [h.1] at hb
        omega
    | cons p ps =>
      cases p with
      | plain a =>
        simp only [body_cons, Piece.text, List.cons_append, List.nil_append, List.cons_prefix_cons] at h
        rw [List.map_cons, List.cons_prefix_cons, h.1]
        exact ⟨rfl, ih (fun x hx => h1 x (List.mem_cons_of_mem _ hx)) h2 h.2⟩
      | esc a =>
        simp only [body_cons, Piece.text, List.cons_append, List.nil_append, List.cons_prefix_cons] at h
        rw [h.1] at hb
        simp at hb
      | u a a1 a2 a3 =>
        simp only [body_cons, Piece.text, List.cons_append, List.nil_append, List.cons_prefix_cons] at h
        rw [h.1] at hb
        simp at hb

theorem putRune_bad {b : UInt8} {ps : List Piece} {rest : Bytes} (h1 : 128 ≤ b.toNat)
    (h2 : ∀ c, ¬(String.utf8EncodeChar c).map Piece.plain <+: .plain b :: ps)
    (h3 : ∀ b ∈ rest.head?, b.toNat < 128) (c : Char) : ¬putRune c <+: b :: (body ps ++ rest) := by
  intro h
  apply h2 c
  rw [← putRune_eq]
  obtain ⟨x, xs, e⟩ := putRune_ne c
  have hx : x = b := by rw [e, List.cons_prefix_cons] at h; exact h.1
  have hc : 128 ≤ c.toNat := by
    refine Nat.le_of_not_lt fun hlt => ?_
    rw [putRune_ascii hlt] at e
    cases e
    rw [← hx, toNat_ofNat_lt (by omega)] at h1
    omega
  refine plain_prefix (rest := rest) (putRune_high hc) h3 ?_
  simpa [Piece.text] using h

theorem hexVal_of {b : UInt8} {n : Nat} (hb : unhex b = some n) : hexVal b n := by
  unfold unhex at hb
  unfold hexVal
  simp only at hb
  split at hb
  · cases hb; left; omega
  · split at hb
    · cases hb; right; left; omega
    · split at hb
      · cases hb; right; right; omega
      · cases hb

/-- The code at the beginning of a text of pieces. -/
theorem getu4_body {ps : List Piece} {lo : Nat} (hok : ps.all Piece.ok = true) (h : getu4 (body ps) = some lo) :
    ∃ a b c d ps', ps = .u a b c d :: ps' ∧ code a b c d lo := by
  cases ps with
  | nil => simp [getu4] at h
  | cons p ps =>
    simp only [List.all_cons, Bool.and_eq_true] at hok
    cases p with
    | plain a =>
      have h1 := hok.1
      simp only [Piece.ok, Bool.and_eq_true, bne_iff_ne] at h1
      simp only [body_cons, Piece.text, List.cons_append, List.nil_append] at h
      unfold getu4 at h
      split at h
      · rename_i heq
        rw [if_neg (fun hc => h1.1.2 ((List.cons.inj heq).1.trans hc.1))] at h
        cases h
      · cases h
    | esc a =>
      have h1 := hok.1
      simp only [body_cons, Piece.text, List.cons_append, List.nil_append] at h
      unfold getu4 at h
      split at h
      · rename_i heq
        have hn : a ≠ 117 := by rintro rfl; simp [Piece.ok] at h1
        rw [if_neg (fun hc => hn ((List.cons.inj (List.cons.inj heq).2).1.trans hc.2))] at h
        cases h
      · cases h
    | u a b c d =>
      refine ⟨a, b, c, d, ps, rfl, ?_⟩
      simp only [body_cons, Piece.text, List.cons_append, List.nil_append, getu4, and_self, if_true] at h
      simp only [Option.bind_eq_some_iff, Option.some.injEq] at h
      obtain ⟨w, hw, x, hx, y, hy, z, hz, rfl⟩ := h
      exact ⟨w, x, y, z, hexVal_of hw, hexVal_of hx, hexVal_of hy, hexVal_of hz, by omega⟩

theorem unquote_of {ps : List Piece} {s : Str} (h : StrMeans ps s) :
    ∀ f, (body ps).length < f → unquote f (body ps) = some s := by
  induction h with
  | nil =>
    intro f hf
    obtain ⟨f, rfl⟩ : ∃ g, f = g + 1 := ⟨f - 1, by simp at hf; omega⟩
    rfl
  | @plain c ps s h1 h2 h3 _ ih =>
    intro f hf
    rw [body_append, body_plain, ← putRune_eq] at hf ⊢
    obtain ⟨b, bs, hb⟩ := putRune_ne c
    have hp := putRune_plain h1 h2 h3 b (by simp [hb])
    have hg := getRune_put c (body ps)
    simp only [List.length_append] at hf
    obtain ⟨f, rfl⟩ : ∃ g, f = g + 1 := ⟨f - 1, by omega⟩
    rw [hb, List.cons_append] at hg ⊢
    have hlt : ¬ (b = 34 ∨ b < 32) := by
      rintro (h | h)
      · exact hp.1 h
      · have : b.toNat < 32 := by simpa [UInt8.lt_iff_toNat_lt] using h
        omega
    simp only [unquote, if_neg hp.2.1, if_neg hlt, hg]
    have hdrop : (b :: (bs ++ body ps)).drop (b :: bs).length = body ps := by
      rw [← List.cons_append, List.drop_left]
    rw [hdrop, ih f (by rw [hb, List.length_cons] at hf; omega)]
    rfl
  | @esc b c ps s h1 _ ih =>
    intro f hf
    obtain ⟨h2, h3⟩ := unescape_of h1
    simp only [body_cons, Piece.text, List.cons_append, List.nil_append, List.length_cons] at hf ⊢
    obtain ⟨f, rfl⟩ : ∃ g, f = g + 1 := ⟨f - 1, by omega⟩
    simp only [unquote, if_true, if_neg h2, h3, ih f (by omega), Option.map_some]
  | @u h i j k c ps s h1 _ ih =>
    intro f hf
    simp only [body_cons, Piece.text, List.cons_append, List.nil_append, List.length_cons] at hf ⊢
    obtain ⟨f, rfl⟩ : ∃ g, f = g + 1 := ⟨f - 1, by omega⟩
    have hs : ∀ lo, surrogates c.toNat lo = none := by
      intro lo
      have := toNat_range c
      rw [surrogates, if_neg (by omega)]
    have hr : runeOf c.toNat = c := by
      have := toNat_range c
      rw [runeOf, if_neg (by omega), ofNat_toNat]
    have hb : ∀ o : Option Nat, o.bind (surrogates c.toNat) = none := by
      intro o; cases o <;> simp [hs]
    simp only [unquote, if_true, getu4_of h1, List.drop_succ_cons, List.drop_zero, hb, hr,
      ih f (by omega), Option.map_some]
  | @pair h i j k h' i' j' k' hi lo c ps s h1 h2 h3 h4 h5 h6 h7 _ ih =>
    intro f hf
    simp only [body_cons, Piece.text, List.cons_append, List.nil_append, List.length_cons] at hf ⊢
    obtain ⟨f, rfl⟩ : ∃ g, f = g + 1 := ⟨f - 1, by omega⟩
    have hs : surrogates hi lo = some c := by
      have e : (hi - 0xD800) * 0x400 + (lo - 0xDC00) + 0x10000 = c.toNat := by omega
      rw [surrogates, if_pos (by omega), e, ofNat_toNat]
    simp only [unquote, if_true, getu4_of h1, List.drop_succ_cons, List.drop_zero, getu4_of h2,
      Option.bind_some, hs, ih f (by omega), Option.map_some]
  | @byte b ps s h1 h2 _ ih =>
    intro f hf
    have hb : getRune (b :: body ps) = (runeError, 1) :=
      getRune_bad (fun c => by simpa using putRune_bad (rest := []) h1 h2 (by simp) c)
    simp only [body_cons, Piece.text, List.cons_append, List.nil_append, List.length_cons] at hf ⊢
    obtain ⟨f, rfl⟩ : ∃ g, f = g + 1 := ⟨f - 1, by omega⟩
    have hn : b ≠ 92 := by rintro rfl; simp at h1
    have hlt : ¬ (b = 34 ∨ b < 32) := by
      rintro (rfl | h)
      · simp at h1
      · have : b.toNat < 32 := by simpa [UInt8.lt_iff_toNat_lt] using h
        omega
    simp only [unquote, if_neg hn, if_neg hlt, hb, List.drop_succ_cons, List.drop_zero, ih f (by omega)]
    rfl
  | @lone h i j k n ps s h1 h2 h3 h4 hps ih =>
    intro f hf
    simp only [body_cons, Piece.text, List.cons_append, List.nil_append, List.length_cons] at hf ⊢
    obtain ⟨f, rfl⟩ : ∃ g, f = g + 1 := ⟨f - 1, by omega⟩
    have hb : (getu4 (body ps)).bind (surrogates n) = none := by
      cases hg : getu4 (body ps) with
      | none => rfl
      | some lo =>
        obtain ⟨a, b, c, d, ps', e, hcode⟩ := getu4_body (strMeans_ok hps) hg
        rw [Option.bind_some, surrogates, if_neg]
        intro hc
        exact h4 _ _ _ _ _ _ e hcode (by omega) (by omega)
    have hr : runeOf n = Char.ofNat 0xFFFD := by
      rw [runeOf, if_pos (by omega)]
      rfl
    simp only [unquote, if_true, getu4_of h1, List.drop_succ_cons, List.drop_zero, hb, hr,
      ih f (by omega), Option.map_some]

theorem hexDigit_ne {b : UInt8} (h : Rpc.Spec.hexDigit b = true) : b ≠ 34 ∧ b ≠ 92 := by
  constructor <;> rintro rfl <;> simp [Rpc.Spec.hexDigit, Rpc.Spec.digit] at h

theorem rawString_of (ps : List Piece) (h : ps.all Piece.ok = true) (rest : Bytes) :
    rawString false (body ps ++ 34 :: rest) = some (body ps, rest) := by
  induction ps with
  | nil => simp [rawString]
  | cons p ps ih =>
    simp only [List.all_cons, Bool.and_eq_true] at h
    have ih := ih h.2
    cases p with
    | plain b =>
      have h1 := h.1
      simp only [Piece.ok, Bool.and_eq_true, bne_iff_ne] at h1
      have e : (b == 92) = false := by simpa using h1.1.2
      simp [Piece.text, rawString, h1.1.1, e, ih]
    | esc b => simp [Piece.text, rawString, ih]
    | u a b c d =>
      have h1 := h.1
      simp only [Piece.ok, Bool.and_eq_true] at h1
      obtain ⟨⟨⟨ha, hb⟩, hc⟩, hd⟩ := h1
      have ha := hexDigit_ne ha; have hb := hexDigit_ne hb
      have hc := hexDigit_ne hc; have hd := hexDigit_ne hd
      have ea : (a == 92) = false := by simpa using ha.2
      have eb : (b == 92) = false := by simpa using hb.2
      have ec : (c == 92) = false := by simpa using hc.2
      have ed : (d == 92) = false := by simpa using hd.2
      simp [Piece.text, rawString, ih, ha.1, hb.1, hc.1, hd.1, ea, eb, ec, ed]

theorem string_of {ps : List Piece} {s : Str} (h : StrMeans ps s) (rest : Bytes) :
    string (body ps ++ 34 :: rest) = some (s, rest) := by
  rw [string, rawString_of ps (strMeans_ok h)]
  simp only [Option.bind_some, unquote_of h _ (Nat.lt_succ_self _), Option.map_some]

/-! ### Numbers -/

theorem natOf_eq (ds : Bytes) : natOf ds = decimal ds := by
  have h : ∀ (ds : Bytes) (n : Nat), ds.foldl (fun n d => n * 10 + (d.toNat - 48)) n =
      n * 10 ^ ds.length + decimal ds := by
    intro ds
    induction ds with
    | nil => intro n; simp [decimal]
    | cons d ds ih =>
      intro n
      rw [List.foldl_cons, ih, decimal, List.length_cons, Nat.add_mul, Nat.pow_succ, Nat.mul_assoc,
        Nat.mul_comm 10, Nat.add_assoc]
  rw [natOf, h]; simp

/-- Digits of the integral part. -/
theorem int_ok {n : Num} (h : n.ok = true) : n.int ≠ [] ∧ n.int.all isDigit = true ∧
    n.frac.all isDigit = true := by
  obtain ⟨neg, int, frac, exp, upper⟩ := n
  simp only [Num.ok, Bool.and_eq_true] at h
  obtain ⟨⟨h1, h2⟩, -⟩ := h
  refine ⟨?_, ?_, h2⟩
  · rintro rfl; simp at h1
  · match int, h1 with
    | [d], h1 => simpa using h1
    | d :: e :: ds, h1 =>
      simp at h1
      simp [h1.1.1, h1.2]
      exact h1.2.2

theorem isDigit_45 {ds : Bytes} (h : ds.all isDigit = true) : ds.head? ≠ some 45 := by
  cases ds with
  | nil => simp
  | cons d ds =>
    simp only [List.head?_cons, ne_eq, Option.some.injEq]
    rintro rfl
    simp [isDigit] at h

theorem number_of {n : Num} (h : n.ok = true) : number n.text = numValue n := by
  obtain ⟨hne, h1, h2⟩ := int_ok h
  obtain ⟨neg, int, frac, exp, upper⟩ := n
  simp only at hne h1 h2
  by_cases hf : frac = [] ∧ exp = none
  · obtain ⟨rfl, rfl⟩ := hf
    have h45 := isDigit_45 h1
    cases neg with
    | true => simp [Num.text, number, numValue, h1, natOf_eq]
    | false => simp [Num.text, number, numValue, h1, h45, natOf_eq]
  · have hx : ∃ tl b, isDigit b = false ∧ b ∈ tl ∧
        (⟨neg, int, frac, exp, upper⟩ : Num).text = (if neg then [45] else []) ++ (int ++ tl) := by
      simp only [Num.text, List.append_assoc]
      cases frac with
      | cons d ds =>
        refine ⟨_, 46, by decide, ?_, rfl⟩
        simp
      | nil =>
        cases exp with
        | none => simp at hf
        | some e =>
          refine ⟨_, if upper then 69 else 101, by cases upper <;> decide, ?_, rfl⟩
          simp
    obtain ⟨tl, b, hb, hm, ht⟩ := hx
    have hno : ∀ pre : Bytes, (pre ++ tl).all isDigit = false := by
      intro pre
      rw [List.all_eq_false]
      exact ⟨b, List.mem_append_right _ hm, by simp [hb]⟩
    unfold numValue
    rw [if_neg hf, number, ht, if_neg, if_neg]
    · rw [← List.append_assoc, hno]; simp
    · rintro ⟨g1, g2⟩
      cases neg with
      | true =>
        simp only [if_true, List.cons_append, List.nil_append, List.tail_cons] at g2
        rw [hno] at g2; cases g2
      | false =>
        obtain ⟨d, ds, rfl⟩ := List.exists_cons_of_ne_nil hne
        simp only [Bool.false_eq_true, if_false, List.nil_append, List.cons_append, List.head?_cons,
          Option.some.injEq] at g1
        subst g1
        simp [isDigit] at h1

theorem inNumber_text {n : Num} (h : n.ok = true) : n.text.all inNumber = true := by
  obtain ⟨hne, h1, h2⟩ := int_ok h
  obtain ⟨neg, int, frac, exp, upper⟩ := n
  simp only [Num.ok, Bool.and_eq_true] at h
  simp only at h1 h2
  have hd : ∀ ds : Bytes, ds.all isDigit = true → ds.all inNumber = true := by
    intro ds h
    rw [List.all_eq_true] at h ⊢
    intro b hb
    simp [inNumber, h b hb]
  simp only [Num.text, List.all_append, Bool.and_eq_true]
  refine ⟨⟨⟨by cases neg <;> rfl, hd _ h1⟩, ?_⟩, ?_⟩
  · split
    · rfl
    · rw [List.all_cons, hd _ h2]; rfl
  · match exp, h.2 with
    | none, _ => rfl
    | some (sgn, ds), h3 =>
      simp only [Bool.and_eq_true] at h3
      have := hd _ h3.2
      rcases sgn with _ | _ | _ <;> cases upper <;> simp [this] <;> decide

theorem takeWhile_append_stop {p : UInt8 → Bool} {a b : Bytes} (ha : a.all p = true)
    (hb : ∀ x, b.head? = some x → p x = false) :
    (a ++ b).takeWhile p = a ∧ (a ++ b).dropWhile p = b := by
  induction a with
  | nil =>
    cases b with
    | nil => simp
    | cons x xs => simp [hb x rfl]
  | cons x xs ih =>
    simp only [List.all_cons, Bool.and_eq_true] at ha
    simp [ha.1, ih ha.2]

/-! ### Values -/

theorem skip_head {b : UInt8} {bs : Bytes} (h : isSpace b = false) : skip (b :: bs) = b :: bs := by
  simp [skip, h]

/-- What may follow a value. -/
def Stop (rest : Bytes) : Prop := ∀ b, rest.head? = some b → inNumber b = false

theorem Stop.cons {b : UInt8} {rest : Bytes} (h : inNumber b = false) : Stop (b :: rest) := by
  rintro _ ⟨⟩; exact h

theorem num_head {n : Num} (h : n.ok = true) : ∃ b bs, n.text = b :: bs ∧ isSpace b = false ∧
    b ≠ 91 ∧ b ≠ 123 ∧ b ≠ 34 ∧ b ≠ 110 ∧ b ≠ 116 ∧ b ≠ 102 := by
  obtain ⟨hne, h1, -⟩ := int_ok h
  obtain ⟨neg, int, frac, exp, upper⟩ := n
  obtain ⟨d, ds, rfl⟩ := List.exists_cons_of_ne_nil hne
  cases neg with
  | true =>
    refine ⟨45, _, by simp only [Num.text, if_true, List.cons_append]; rfl, ?_⟩
    decide
  | false =>
    refine ⟨d, _, by simp only [Num.text, Bool.false_eq_true, if_false, List.nil_append, List.cons_append]; rfl, ?_⟩
    simp only [List.all_cons, Bool.and_eq_true] at h1
    rcases Rpc.isDigit_cases d h1.1 with h | h | h | h | h | h | h | h | h | h <;> subst h <;> decide

theorem skip_blank {w : Bytes} (h : Blank w) (rest : Bytes) : skip (w ++ rest) = skip rest := by
  induction w with
  | nil => rfl
  | cons b w ih =>
    have hb := Rpc.isSpace_of (h b (by simp))
    have := ih fun x hx => h x (by simp [hx])
    simpa [skip, hb] using this

theorem value_blank {w : Bytes} (h : Blank w) (f : Nat) (rest : Bytes) :
    value f (w ++ rest) = value f rest := by
  cases f with
  | zero => rfl
  | succ f => rw [value, value, skip_blank h]

theorem Stop.blank {w : Bytes} (hw : Blank w) {rest : Bytes} (h : Stop rest) : Stop (w ++ rest) := by
  cases w with
  | nil => exact h
  | cons b w =>
    refine Stop.cons ?_
    rcases hw b (by simp) with rfl | rfl | rfl | rfl <;> decide

/-- A name with white space around it. -/
theorem name_of {k : List Piece} {s : Str} (hs : StrMeans k s) {a : Bytes}
    (ha : Padded (· = strText k) a) (rest : Bytes) :
    ∃ r r', skip (a ++ 58 :: rest) = 34 :: r ∧ string r = some (s, r') ∧ skip r' = 58 :: rest := by
  obtain ⟨w, y, w', h1, rfl, h2, rfl⟩ := ha
  refine ⟨body k ++ 34 :: (w' ++ 58 :: rest), w' ++ 58 :: rest, ?_, string_of hs _, ?_⟩
  · rw [List.append_assoc, skip_blank h1, strText_eq]
    simp only [List.cons_append, List.append_assoc, List.nil_append]
    rw [skip_head (by decide)]
  · rw [skip_blank h2, skip_head (by decide)]

mutual
theorem value_of : ∀ (t : Text) (d : Nat) (v : Json), t.ok d = true → Means t v →
    ∀ (x : Bytes), t.Writes x → ∀ (f : Nat) (rest : Bytes), 2 * x.length ≤ f → Stop rest →
    value f (x ++ rest) = some (v, rest)
  | .null, _, v, _, hm, x, hx, f, rest, hf, _ => by
    rw [Means] at hm; subst hm
    have e : x = [110, 117, 108, 108] := by rw [Rpc.Spec.Json.Writes] at hx; rw [hx]; decide
    subst e
    obtain ⟨f, rfl⟩ : ∃ g, f = g + 1 := ⟨f - 1, by simp at hf; omega⟩
    rfl
  | .bool true, _, v, _, hm, x, hx, f, rest, hf, _ => by
    rw [Means] at hm; subst hm
    have e : x = [116, 114, 117, 101] := by rw [Rpc.Spec.Json.Writes] at hx; rw [hx]; decide
    subst e
    obtain ⟨f, rfl⟩ : ∃ g, f = g + 1 := ⟨f - 1, by simp at hf; omega⟩
    rfl
  | .bool false, _, v, _, hm, x, hx, f, rest, hf, _ => by
    rw [Means] at hm; subst hm
    have e : x = [102, 97, 108, 115, 101] := by rw [Rpc.Spec.Json.Writes] at hx; rw [hx]; decide
    subst e
    obtain ⟨f, rfl⟩ : ∃ g, f = g + 1 := ⟨f - 1, by simp at hf; omega⟩
    rfl
  | .num n, _, v, h, hm, x, hx, f, rest, hf, hr => by
    rw [Means] at hm; subst hm
    rw [Rpc.Spec.Json.ok] at h
    rw [Rpc.Spec.Json.Writes] at hx; subst hx
    obtain ⟨h1, h2⟩ := takeWhile_append_stop (inNumber_text h) hr
    obtain ⟨b, bs, e, hs, hb⟩ := num_head h
    obtain ⟨f, rfl⟩ : ∃ g, f = g + 1 := ⟨f - 1, by rw [e] at hf; simp at hf; omega⟩
    have e' : n.text ++ rest = b :: (bs ++ rest) := by rw [e]; rfl
    rw [e', value, skip_head hs]
    simp only [hb, if_false]
    rw [← e', h1, h2, number_of h]
  | .str s, _, v, _, hm, x, hx, f, rest, hf, _ => by
    rw [Means] at hm
    obtain ⟨y, hy, rfl⟩ := hm
    rw [Rpc.Spec.Json.Writes, strText_eq] at hx; subst hx
    obtain ⟨f, rfl⟩ : ∃ g, f = g + 1 := ⟨f - 1, by simp at hf; omega⟩
    simp only [List.cons_append, List.append_assoc, List.nil_append]
    rw [value, skip_head (by decide)]
    simp only [if_neg (by decide : ¬ (34 : UInt8) = 91), if_neg (by decide : ¬ (34 : UInt8) = 123), if_true]
    rw [string_of hy]; rfl
  | .arr vs, 0, _, h, _, _, _, _, _, _, _ => by simp [Rpc.Spec.Json.ok] at h
  | .obj vs, 0, _, h, _, _, _, _, _, _, _ => by simp [Rpc.Spec.Json.ok] at h
  | .arr [], d + 1, v, h, hm, x, hx, f, rest, hf, _ => by
    rw [Means] at hm
    obtain ⟨ws, hw, rfl⟩ := hm
    rw [ElemsMean] at hw; subst hw
    rw [Rpc.Spec.Json.Writes] at hx
    obtain ⟨y, hy, rfl⟩ := hx
    rw [Rpc.Spec.arrWrites] at hy
    obtain ⟨f, rfl⟩ : ∃ g, f = g + 1 := ⟨f - 1, by simp at hf; omega⟩
    simp only [List.cons_append, List.append_assoc, List.nil_append]
    rw [value, skip_head (by decide)]
    simp only [if_true, skip_blank hy, skip_head (b := 93) (bs := rest) (by decide), List.head?_cons,
      List.tail_cons]
  | .arr (t :: ts), d + 1, v, h, hm, x, hx, f, rest, hf, _ => by
    rw [Means] at hm
    obtain ⟨ws, hw, rfl⟩ := hm
    rw [Rpc.Spec.Json.ok] at h
    rw [Rpc.Spec.Json.Writes] at hx
    obtain ⟨y, hy, rfl⟩ := hx
    obtain ⟨w, b, bs, e0, e1, e2, e3⟩ := Rpc.arrWrites_head h hy
    simp only [List.length_cons, List.length_append, List.length_nil] at hf
    obtain ⟨f, rfl⟩ : ∃ g, f = g + 1 := ⟨f - 1, by omega⟩
    have := elements_of t ts d ws h hw y hy f rest (by omega)
    simp only [List.cons_append, List.append_assoc, List.nil_append]
    rw [value, skip_head (by decide)]
    simp only [if_true]
    rw [this, if_neg]
    · rfl
    · rw [e1, List.append_assoc, skip_blank e0, List.cons_append, skip_head e3]
      simpa using e2
  | .obj [], d + 1, v, h, hm, x, hx, f, rest, hf, _ => by
    rw [Means] at hm
    obtain ⟨ws, hw, rfl⟩ := hm
    rw [MembersMean] at hw; subst hw
    rw [Rpc.Spec.Json.Writes] at hx
    obtain ⟨y, hy, rfl⟩ := hx
    rw [Rpc.Spec.objWrites] at hy
    obtain ⟨f, rfl⟩ : ∃ g, f = g + 1 := ⟨f - 1, by simp at hf; omega⟩
    simp only [List.cons_append, List.append_assoc, List.nil_append]
    rw [value, skip_head (by decide)]
    simp only [if_neg (by decide : ¬ (123 : UInt8) = 91), if_true, skip_blank hy,
      skip_head (b := 125) (bs := rest) (by decide), List.head?_cons, List.tail_cons]
  | .obj ((k, t) :: ts), d + 1, v, h, hm, x, hx, f, rest, hf, _ => by
    rw [Means] at hm
    obtain ⟨ws, hw, rfl⟩ := hm
    rw [Rpc.Spec.Json.ok] at h
    rw [Rpc.Spec.Json.Writes] at hx
    obtain ⟨y, hy, rfl⟩ := hx
    obtain ⟨w, bs, e0, e1⟩ := Rpc.objWrites_head hy
    simp only [List.length_cons, List.length_append, List.length_nil] at hf
    obtain ⟨f, rfl⟩ : ∃ g, f = g + 1 := ⟨f - 1, by omega⟩
    have := members_of k t ts d ws h hw y hy f rest (by omega)
    simp only [List.cons_append, List.append_assoc, List.nil_append]
    rw [value, skip_head (by decide)]
    simp only [if_neg (by decide : ¬ (123 : UInt8) = 91), if_true]
    rw [this, if_neg]
    · rfl
    · rw [e1, List.append_assoc, skip_blank e0, List.cons_append, skip_head (by decide)]
      simp
  termination_by t => 2 * sizeOf t
/-- A value with white space around it. -/
theorem padded_of : ∀ (t : Text) (d : Nat) (v : Json), t.ok d = true → Means t v →
    ∀ (x : Bytes), Padded (fun y => t.Writes y) x → ∀ (f : Nat) (rest : Bytes), 2 * x.length ≤ f →
    Stop rest → ∃ r, value f (x ++ rest) = some (v, r) ∧ skip r = skip rest
  | t, d, v, h, hm, x, hx, f, rest, hf, hr => by
    obtain ⟨w, y, w', h1, h2, h3, rfl⟩ := hx
    simp only [List.length_append] at hf
    refine ⟨w' ++ rest, ?_, skip_blank h3 _⟩
    simp only [List.append_assoc]
    rw [value_blank h1, value_of t d v h hm y h2 f _ (by omega) (hr.blank h3)]
  termination_by t => 2 * sizeOf t + 1
/-- Elements and the closing bracket. -/
theorem elements_of : ∀ (t : Text) (ts : List Text) (d : Nat) (vs : List Json),
    Rpc.Spec.arrOk d (t :: ts) = true → ElemsMean (t :: ts) vs → ∀ (x : Bytes),
    Rpc.Spec.arrWrites (t :: ts) x → ∀ (f : Nat) (rest : Bytes), 2 * x.length + 1 ≤ f →
    elements f (x ++ 93 :: rest) = some (vs, rest)
  | t, [], d, vs, h, hm, x, hx, f, rest, hf => by
    rw [ElemsMean] at hm
    obtain ⟨w, ws, h1, h2, rfl⟩ := hm
    rw [ElemsMean] at h2; subst h2
    rw [Rpc.Spec.arrOk, Bool.and_eq_true] at h
    rw [Rpc.Spec.arrWrites] at hx
    obtain ⟨f, rfl⟩ : ∃ g, f = g + 1 := ⟨f - 1, by omega⟩
    obtain ⟨r, e1, e2⟩ := padded_of t d w h.1 h1 x hx f (93 :: rest) (by omega) (Stop.cons (by decide))
    rw [elements, e1]
    simp only [Option.bind_some]
    rw [e2, skip_head (by decide)]
    rfl
  | t, u :: ts, d, vs, h, hm, x, hx, f, rest, hf => by
    rw [ElemsMean] at hm
    obtain ⟨w, ws, h1, h2, rfl⟩ := hm
    rw [Rpc.Spec.arrOk, Bool.and_eq_true] at h
    rw [Rpc.Spec.arrWrites] at hx
    obtain ⟨y, z, hy, hz, rfl⟩ := hx
    simp only [List.length_cons, List.length_append] at hf
    obtain ⟨f, rfl⟩ : ∃ g, f = g + 1 := ⟨f - 1, by omega⟩
    rw [List.append_assoc, List.cons_append, elements]
    obtain ⟨r, e1, e2⟩ := padded_of t d w h.1 h1 y hy f (44 :: (z ++ 93 :: rest)) (by omega)
      (Stop.cons (by decide))
    rw [e1]
    simp only [Option.bind_some]
    rw [e2, skip_head (by decide)]
    simp only [if_true]
    rw [elements_of u ts d ws h.2 h2 z hz f rest (by omega)]
    rfl
  termination_by t ts => 2 * sizeOf (t :: ts)
/-- Members and the closing bracket. -/
theorem members_of : ∀ (k : List Piece) (t : Text) (ts : List (List Piece × Text)) (d : Nat)
    (vs : List (Str × Json)), Rpc.Spec.objOk d ((k, t) :: ts) = true → MembersMean ((k, t) :: ts) vs →
    ∀ (x : Bytes), Rpc.Spec.objWrites ((k, t) :: ts) x → ∀ (f : Nat) (rest : Bytes),
    2 * x.length + 1 ≤ f → members f (x ++ 125 :: rest) = some (vs, rest)
  | k, t, [], d, vs, h, hm, x, hx, f, rest, hf => by
    rw [MembersMean] at hm
    obtain ⟨s, w, ws, h0, h1, h2, rfl⟩ := hm
    rw [MembersMean] at h2; subst h2
    rw [Rpc.Spec.objOk, Bool.and_eq_true, Bool.and_eq_true] at h
    rw [Rpc.Spec.objWrites] at hx
    obtain ⟨a, y, ha, hy, rfl⟩ := hx
    simp only [List.length_cons, List.length_append] at hf
    obtain ⟨f, rfl⟩ : ∃ g, f = g + 1 := ⟨f - 1, by omega⟩
    simp only [List.cons_append, List.append_assoc]
    obtain ⟨r1, r2, g1, g2, g3⟩ := name_of h0 ha (y ++ 125 :: rest)
    obtain ⟨r, e1, e2⟩ := padded_of t d w h.1.2 h1 y hy f (125 :: rest) (by omega) (Stop.cons (by decide))
    rw [members, g1]
    simp only [ne_eq, not_true, if_false]
    rw [g2]
    simp only [Option.bind_some]
    rw [g3]
    simp only [not_true, if_false]
    rw [e1]
    simp only [Option.bind_some]
    rw [e2, skip_head (by decide)]
    rfl
  | k, t, (k', t') :: ts, d, vs, h, hm, x, hx, f, rest, hf => by
    rw [MembersMean] at hm
    obtain ⟨s, w, ws, h0, h1, h2, rfl⟩ := hm
    rw [Rpc.Spec.objOk, Bool.and_eq_true, Bool.and_eq_true] at h
    rw [Rpc.Spec.objWrites] at hx
    obtain ⟨a, y, z, ha, hy, hz, rfl⟩ := hx
    simp only [List.length_cons, List.length_append] at hf
    obtain ⟨f, rfl⟩ : ∃ g, f = g + 1 := ⟨f - 1, by omega⟩
    simp only [List.cons_append, List.append_assoc]
    obtain ⟨r1, r2, g1, g2, g3⟩ := name_of h0 ha (y ++ 44 :: (z ++ 125 :: rest))
    obtain ⟨r, e1, e2⟩ := padded_of t d w h.1.2 h1 y hy f (44 :: (z ++ 125 :: rest)) (by omega)
      (Stop.cons (by decide))
    rw [members, g1]
    simp only [ne_eq, not_true, if_false]
    rw [g2]
    simp only [Option.bind_some]
    rw [g3]
    simp only [not_true, if_false]
    rw [e1]
    simp only [Option.bind_some]
    rw [e2, skip_head (by decide)]
    simp only [if_true]
    rw [members_of k' t' ts d ws h.2 h2 z hz f rest (by omega)]
    rfl
  termination_by k t ts => 2 * sizeOf ((k, t) :: ts)
end

/-! ### Whole texts -/

theorem checkValid_run {s s' : Rpc.JState} {bs : Bytes} (h : Rpc.run s bs = some s') (rest : Bytes) :
    checkValid s (bs ++ rest) = checkValid s' rest := by
  induction bs generalizing s with
  | nil => simp only [Rpc.run] at h; cases h; rfl
  | cons b bs ih =>
    rw [List.cons_append, checkValid]
    rw [Rpc.run] at h
    split at h
    · rename_i s1 hs
      rw [hs]; exact ih h
    · cases h

theorem checkValid_end {s : Rpc.JState} (h : Rpc.EndsAs s []) {w : Bytes} (hw : Blank w) :
    checkValid s w = true := by
  cases w with
  | nil => rw [checkValid, h 32 (by simp)]; rfl
  | cons b w =>
    have hb := hw b (by simp)
    rw [checkValid, h b (by simp [hb]), Rpc.stepEndValue]
    simp only [Rpc.isSpace_of hb, Bool.true_and]
    exact Rpc.Blank.all fun x hx => hw x (by simp [hx])

theorem checkValid_writes {t : Text} (h : t.ok 10000 = true) {x : Bytes} (hx : t.Writes x) {w : Bytes}
    (hw : Blank w) : checkValid Rpc.json.start (x ++ w) = true := by
  have hend : ∀ {s s' : Rpc.JState} {bs : Bytes}, Rpc.run s bs = some s' → Rpc.EndsAs s' [] →
      checkValid s (bs ++ w) = true := by
    intro s s' bs h1 h2
    rw [checkValid_run h1 w]
    exact checkValid_end h2 hw
  match t, h with
  | .null, _ =>
    rw [Rpc.Spec.Json.Writes] at hx; subst hx
    exact hend (s' := ⟨.endValue, []⟩) (by decide) (Rpc.EndsAs.endValue _)
  | .bool true, _ =>
    rw [Rpc.Spec.Json.Writes] at hx; subst hx
    exact hend (s' := ⟨.endValue, []⟩) (by decide) (Rpc.EndsAs.endValue _)
  | .bool false, _ =>
    rw [Rpc.Spec.Json.Writes] at hx; subst hx
    exact hend (s' := ⟨.endValue, []⟩) (by decide) (Rpc.EndsAs.endValue _)
  | .num n, h =>
    rw [Rpc.Spec.Json.ok] at h
    rw [Rpc.Spec.Json.Writes] at hx; subst hx
    obtain ⟨s', h1, h2⟩ := Rpc.run_num n h []
    exact hend h1 h2
  | .str ps, h =>
    rw [Rpc.Spec.Json.ok] at h
    rw [Rpc.Spec.Json.Writes] at hx; subst hx
    have := Rpc.run_strText .beginValue (.inl rfl) ps h [] []
    rw [List.append_nil] at this
    exact hend (s := ⟨.beginValue, []⟩) (s' := ⟨.endValue, []⟩) (by rw [this]; rfl) (Rpc.EndsAs.endValue _)
  | .arr vs, h =>
    rw [Rpc.Spec.Json.ok] at h
    rw [Rpc.Spec.Json.Writes] at hx
    obtain ⟨y, hy, rfl⟩ := hx
    obtain ⟨s', h1, h2⟩ := Rpc.run_arr vs 9999 h y hy [] (by simp)
    rw [List.cons_append, List.append_assoc]
    show checkValid ⟨.beginValueOrEmpty, [.arr]⟩ _ = true
    rw [checkValid_run h1, List.cons_append, checkValid, h2]
    exact Rpc.Blank.all hw
  | .obj vs, h =>
    rw [Rpc.Spec.Json.ok] at h
    rw [Rpc.Spec.Json.Writes] at hx
    obtain ⟨y, hy, rfl⟩ := hx
    obtain ⟨s', h1, h2⟩ := Rpc.run_obj vs 9999 h y hy [] (by simp)
    rw [List.cons_append, List.append_assoc]
    show checkValid ⟨.beginStringOrEmpty, [.key]⟩ _ = true
    rw [checkValid_run h1, List.cons_append, checkValid, h2]
    exact Rpc.Blank.all hw

theorem parse_writes {t : Text} {d : Nat} {v : Json} (h : t.ok d = true) (hm : Means t v) {x : Bytes}
    (hx : Padded (fun y => t.Writes y) x) : parse x = some v := by
  obtain ⟨r, e, -⟩ := padded_of t d v h hm x hx (2 * x.length + 2) [] (by omega) (by simp [Stop])
  rw [List.append_nil] at e
  rw [parse, e]; rfl

theorem unmarshal_writes {t : Text} {v : Json} (h : t.ok 10000 = true) (hm : Means t v) {x : Bytes}
    (hx : Padded (fun y => t.Writes y) x) : unmarshal x = some v := by
  rw [unmarshal, parse_writes h hm hx, if_pos]
  obtain ⟨w, y, w', h1, h2, h3, rfl⟩ := hx
  have := Rpc.run_blank .beginValue (by simp) h1 [] []
  rw [List.append_nil] at this
  show checkValid ⟨.beginValue, []⟩ _ = true
  rw [checkValid_run this]
  exact checkValid_writes h h2 h3

theorem unmarshal_of {t : Text} {v : Json} (h : t.ok 10000 = true) (hm : Means t v) :
    unmarshal t.text = some v := unmarshal_writes h hm (Rpc.Padded.self (Rpc.writes_text t))

end Burl.JsonText
