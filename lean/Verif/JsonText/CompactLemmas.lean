import Verif.JsonText.EncodeLemmas
/-! `compact` keeps the meaning of texts. -/
namespace Burl.JsonText
open Burl
open Burl.Json (Json)
open Burl.Rpc (isDigit isSpace)
open Burl.Rpc.Spec (Piece Num strText Blank Padded)
open Burl.JsonText.Spec

theorem lineEnd_false {b : UInt8} (h : b ≠ 0xE2) (bs : Bytes) : lineEnd (b :: bs) = false := by
  have e : (0xE2 == b) = false := by simpa using Ne.symm h
  simp [lineEnd, List.isPrefixOf, e]

theorem compact_in {b : UInt8} {bs : Bytes} (h : lineEnd (b :: bs) = false) :
    compact true false (b :: bs) =
      if b = 60 ∨ b = 62 ∨ b = 38 then
        [92, 117, 48, 48, hex (b.toNat / 16), hex (b.toNat % 16)] ++ compact true false bs
      else if b = 34 then b :: compact false false bs
      else b :: compact true (b == 92) bs := by
  rw [compact.eq_def]
  simp only [h, Bool.false_eq_true, if_false]

theorem compact_byte {b : UInt8} (h0 : b ≠ 0xE2) (h1 : ¬ (b = 60 ∨ b = 62 ∨ b = 38)) (h2 : b ≠ 34)
    (h3 : b ≠ 92) (bs : Bytes) : compact true false (b :: bs) = b :: compact true false bs := by
  rw [compact_in (lineEnd_false h0 bs)]
  have e : (b == 92) = false := by simpa using h3
  simp [h1, h2, e]

theorem compact_bytes {a : Bytes} (h : ∀ b ∈ a, b ≠ 0xE2 ∧ ¬ (b = 60 ∨ b = 62 ∨ b = 38) ∧ b ≠ 34 ∧ b ≠ 92)
    (bs : Bytes) : compact true false (a ++ bs) = a ++ compact true false bs := by
  induction a with
  | nil => rfl
  | cons b a ih =>
    obtain ⟨h0, h1, h2, h3⟩ := h b (by simp)
    rw [List.cons_append, compact_byte h0 h1 h2 h3, ih (fun x hx => h x (List.mem_cons_of_mem _ hx))]
    rfl

theorem compact_hex {b : UInt8} {n : Nat} (h : hexVal b n) :
    b ≠ 0xE2 ∧ ¬ (b = 60 ∨ b = 62 ∨ b = 38) ∧ b ≠ 34 ∧ b ≠ 92 := by
  refine ⟨?_, ?_, ?_, ?_⟩
  · rintro rfl; simp [hexVal] at h
  · rintro (rfl | rfl | rfl) <;> simp [hexVal] at h
  · rintro rfl; simp [hexVal] at h
  · rintro rfl; simp [hexVal] at h

/-- After a backslash. -/
theorem compact_esc (b : UInt8) (bs : Bytes) :
    compact true false (92 :: b :: bs) = 92 :: b :: compact true false bs := by
  rw [compact_in (lineEnd_false (by decide) _)]
  simp [compact]

theorem compact_u {h i j k : UInt8} {n : Nat} (hc : code h i j k n) (bs : Bytes) :
    compact true false ((Piece.u h i j k).text ++ bs) = (Piece.u h i j k).text ++ compact true false bs := by
  obtain ⟨w, x, y, z, h1, h2, h3, h4, -⟩ := hc
  have := compact_bytes (a := [h, i, j, k]) (by
    intro b hb
    simp only [List.mem_cons, List.not_mem_nil, or_false] at hb
    rcases hb with rfl | rfl | rfl | rfl
    · exact compact_hex h1
    · exact compact_hex h2
    · exact compact_hex h3
    · exact compact_hex h4) bs
  simp only [List.cons_append, List.nil_append] at this
  simp only [Piece.text, List.cons_append, List.nil_append]
  rw [compact_esc, this]

/-- Bytes after the first one. -/
theorem putRune_tail {c : Char} {b : UInt8} {bs : Bytes} (h : putRune c = b :: bs) :
    ∀ x ∈ bs, 128 ≤ x.toNat ∧ x.toNat < 192 := by
  have hr := toNat_range c
  intro x hx
  unfold putRune at h
  simp only at h
  split at h
  · cases h; simp at hx
  · split at h
    · cases h
      simp only [List.mem_cons, List.not_mem_nil, or_false] at hx
      subst hx
      rw [toNat_ofNat_lt (by omega)]; omega
    · split at h
      · cases h
        simp only [List.mem_cons, List.not_mem_nil, or_false] at hx
        rcases hx with rfl | rfl <;> rw [toNat_ofNat_lt (by omega)] <;> omega
      · cases h
        simp only [List.mem_cons, List.not_mem_nil, or_false] at hx
        rcases hx with rfl | rfl | rfl <;> rw [toNat_ofNat_lt (by omega)] <;> omega

theorem lineEnd_of {s : Bytes} (h : lineEnd s = true) :
    (getRune s).1 = Char.ofNat 0x2028 ∨ (getRune s).1 = Char.ofNat 0x2029 := by
  simp only [lineEnd, Bool.or_eq_true, List.isPrefixOf_iff_prefix] at h
  rcases h with ⟨r, rfl⟩ | ⟨r, rfl⟩
  · left; simp [getRune, within]
  · right; simp [getRune, within]

/-- What is kept of the beginning of a string: bytes above 127 and codes of low surrogates. -/
structure Kept (ps qs : List Piece) : Prop where
  plain : ∀ bs : Bytes, (∀ b ∈ bs, 128 ≤ b.toNat) → bs.map Piece.plain <+: qs → bs.map Piece.plain <+: ps
  low : ∀ a b c d n qs', qs = .u a b c d :: qs' → code a b c d n → 0xD800 ≤ n → n ≤ 0xDFFF → ∃ ps', ps = .u a b c d :: ps'

theorem kept_other {p : Piece} {ps qs : List Piece} (h : ∀ b, p ≠ .plain b) : Kept (p :: ps) (p :: qs) := by
  constructor
  · intro bs _ hp
    cases bs with
    | nil => exact List.nil_prefix
    | cons b bs =>
      rw [List.map_cons, List.cons_prefix_cons] at hp
      exact absurd hp.1.symm (h b)
  · rintro a b c d n qs' e - - -
    cases e
    exact ⟨_, rfl⟩

theorem kept_code {a b c d : UInt8} {n : Nat} {ps qs : List Piece} (h : code a b c d n) (hn : n < 0xD800) :
    Kept ps (.u a b c d :: qs) := by
  constructor
  · intro bs _ hp
    cases bs with
    | nil => exact List.nil_prefix
    | cons b bs =>
      rw [List.map_cons, List.cons_prefix_cons] at hp
      exact absurd hp.1 (by simp)
  · rintro a' b' c' d' n' qs' e h' hlo -
    cases e
    have e1 := getu4_of h []
    rw [getu4_of h' []] at e1
    cases e1
    omega

theorem kept_plain {b : UInt8} {ps qs : List Piece} (h : Kept ps qs) : Kept (.plain b :: ps) (.plain b :: qs) := by
  constructor
  · intro bs hb hp
    cases bs with
    | nil => exact List.nil_prefix
    | cons x bs =>
      rw [List.map_cons, List.cons_prefix_cons] at hp ⊢
      exact ⟨hp.1, h.plain bs (fun y hy => hb y (List.mem_cons_of_mem _ hy)) hp.2⟩
  · rintro a b c d n qs' e
    cases e

theorem kept_bytes {xs : Bytes} {ps qs : List Piece} (h : Kept ps qs) :
    Kept (xs.map .plain ++ ps) (xs.map .plain ++ qs) := by
  induction xs with
  | nil => exact h
  | cons x xs ih => exact kept_plain ih

theorem compact_plain {c : Char} (h1 : c ≠ '"') (h2 : c ≠ '\\') (h3 : 32 ≤ c.toNat) (rest : Bytes) :
    ∃ ps, compact true false (putRune c ++ rest) = body ps ++ compact true false rest ∧
      (∀ qs s, StrMeans qs s → StrMeans (ps ++ qs) (c :: s)) ∧
      ∀ us qs, Kept us qs → Kept ((String.utf8EncodeChar c).map .plain ++ us) (ps ++ qs) := by
  by_cases hl : c = Char.ofNat 0x2028 ∨ c = Char.ofNat 0x2029
  · have hc : c.toNat = 0x2028 ∨ c.toNat = 0x2029 := by
      rcases hl with rfl | rfl
      · left; decide
      · right; decide
    have hcode : code 50 48 50 (hex (c.toNat % 16)) c.toNat :=
      ⟨2, 0, 2, c.toNat % 16, by simp [hexVal], by simp [hexVal], by simp [hexVal],
        hexVal_hex (by omega), by omega⟩
    refine ⟨[.u 50 48 50 (hex (c.toNat % 16))], ?_, fun qs s h => .u hcode h,
      fun us qs _ => kept_code hcode (by omega)⟩
    rcases hl with rfl | rfl <;> rfl
  by_cases hx : c = '<' ∨ c = '>' ∨ c = '&'
  · have hn : c.toNat < 256 := by rcases hx with rfl | rfl | rfl <;> decide
    have hcode : code 48 48 (hex (c.toNat / 16)) (hex (c.toNat % 16)) c.toNat :=
      ⟨0, 0, c.toNat / 16, c.toNat % 16, by simp [hexVal], by simp [hexVal], hexVal_hex (by omega),
        hexVal_hex (by omega), by omega⟩
    refine ⟨[.u 48 48 (hex (c.toNat / 16)) (hex (c.toNat % 16))], ?_, fun qs s h => .u hcode h,
      fun us qs _ => kept_code hcode (by omega)⟩
    have e : putRune c = [UInt8.ofNat c.toNat] :=
      putRune_ascii (by rcases hx with rfl | rfl | rfl <;> decide)
    rw [e, List.cons_append, List.nil_append, compact_in (lineEnd_false (by
      rcases hx with rfl | rfl | rfl <;> decide) _), if_pos (by
      rcases hx with rfl | rfl | rfl <;> decide), toNat_ofNat_lt (by
      rcases hx with rfl | rfl | rfl <;> decide)]
    simp [Piece.text]
  refine ⟨(String.utf8EncodeChar c).map .plain, ?_, fun qs s h => .plain h1 h2 h3 h, fun us qs h => kept_bytes h⟩
  rw [body_plain, ← putRune_eq]
  have hle : lineEnd (putRune c ++ rest) = false := by
    rcases Bool.eq_false_or_eq_true (lineEnd (putRune c ++ rest)) with h | h
    · have := lineEnd_of h
      rw [getRune_put] at this
      exact absurd this hl
    · exact h
  have hp := putRune_plain h1 h2 h3
  have hlt : ∀ b ∈ putRune c, ¬ (b = 60 ∨ b = 62 ∨ b = 38) := by
    intro b hb hcon
    by_cases h : c.toNat < 128
    · rw [putRune_ascii h, List.mem_singleton] at hb
      have e : b.toNat = c.toNat := by rw [hb, toNat_ofNat_lt (by omega)]
      have e' := ofNat_toNat c
      rw [← e] at e'
      rcases hcon with rfl | rfl | rfl
      · exact hx (.inl (by rw [← e']; rfl))
      · exact hx (.inr (.inl (by rw [← e']; rfl)))
      · exact hx (.inr (.inr (by rw [← e']; rfl)))
    · have := putRune_high (by omega) b hb
      rcases hcon with rfl | rfl | rfl <;> simp at this
  obtain ⟨b, bs, e⟩ := putRune_ne c
  have htl := putRune_tail e
  rw [e] at hle hp hlt ⊢
  rw [List.cons_append] at hle ⊢
  obtain ⟨g1, g2, -⟩ := hp b (by simp)
  have g3 := hlt b (by simp)
  have e2 : (b == 92) = false := by simpa using g2
  rw [compact_in hle]
  simp only [if_false, g3, g1, e2]
  rw [compact_bytes]
  · rfl
  · intro x hx'
    obtain ⟨k1, k2⟩ := htl x hx'
    obtain ⟨k3, k4, -⟩ := hp x (List.mem_cons_of_mem _ hx')
    exact ⟨by rintro rfl; simp at k2, hlt x (List.mem_cons_of_mem _ hx'), k3, k4⟩

theorem lineEnd_prefix {s : Bytes} (h : lineEnd s = true) : ∃ c, putRune c <+: s := by
  simp only [lineEnd, Bool.or_eq_true, List.isPrefixOf_iff_prefix] at h
  rcases h with h | h
  · exact ⟨Char.ofNat 0x2028, h⟩
  · exact ⟨Char.ofNat 0x2029, h⟩

theorem compact_body {ps : List Piece} {s : Str} (h : StrMeans ps s) (rest : Bytes) :
    ∃ qs, compact true false (body ps ++ 34 :: rest) = body qs ++ 34 :: compact false false rest ∧
      StrMeans qs s ∧ Kept ps qs := by
  induction h with
  | nil =>
    refine ⟨[], ?_, .nil, fun _ _ h => h, fun _ _ _ _ _ _ h => by cases h⟩
    simp only [body_nil, List.nil_append]
    rw [compact_in (lineEnd_false (by decide) _)]
    simp
  | plain h1 h2 h3 _ ih =>
    obtain ⟨qs, e, hq, hk⟩ := ih
    obtain ⟨ps', e', hp, hk'⟩ := compact_plain h1 h2 h3 (body _ ++ 34 :: rest)
    refine ⟨ps' ++ qs, ?_, hp _ _ hq, hk' _ _ hk⟩
    rw [body_append, body_plain, List.append_assoc, ← putRune_eq, e', e, body_append, List.append_assoc]
  | esc hb _ ih =>
    obtain ⟨qs, e, hq, -⟩ := ih
    refine ⟨.esc _ :: qs, ?_, .esc hb hq, kept_other (by simp)⟩
    simp only [body_cons, Piece.text, List.cons_append, List.nil_append]
    rw [compact_esc, e]
  | u hc _ ih =>
    obtain ⟨qs, e, hq, -⟩ := ih
    refine ⟨.u _ _ _ _ :: qs, ?_, .u hc hq, kept_other (by simp)⟩
    rw [body_cons, List.append_assoc, compact_u hc, e, body_cons, List.append_assoc]
  | pair hc hc' g1 g2 g3 g4 g5 _ ih =>
    obtain ⟨qs, e, hq, -⟩ := ih
    refine ⟨.u _ _ _ _ :: .u _ _ _ _ :: qs, ?_, .pair hc hc' g1 g2 g3 g4 g5 hq, kept_other (by simp)⟩
    simp only [body_cons, List.append_assoc]
    rw [compact_u hc, compact_u hc', e]
  | @byte b ps s h1 h2 hps ih =>
    obtain ⟨qs, e, hq, hk⟩ := ih
    refine ⟨.plain b :: qs, ?_, .byte h1 (fun c hc => ?_) hq, kept_plain hk⟩
    · simp only [body_cons, Piece.text, List.cons_append, List.nil_append]
      have hle : lineEnd (b :: (body ps ++ 34 :: rest)) = false := by
        rcases Bool.eq_false_or_eq_true (lineEnd (b :: (body ps ++ 34 :: rest))) with h | h
        · obtain ⟨c, hc⟩ := lineEnd_prefix h
          exact absurd hc (putRune_bad h1 h2 (by simp) c)
        · exact h
      have k1 : ¬ (b = 60 ∨ b = 62 ∨ b = 38) := by rintro (rfl | rfl | rfl) <;> simp at h1
      have k2 : b ≠ 34 := by rintro rfl; simp at h1
      have k3 : (b == 92) = false := by
        simp only [beq_eq_false_iff_ne]
        rintro rfl
        simp at h1
      rw [compact_in hle, if_neg k1, if_neg k2, k3, e]
    · obtain ⟨x, xs, ex⟩ := putRune_ne c
      have hx : x = b := by
        rw [← putRune_eq, ex, List.map_cons, List.cons_prefix_cons] at hc
        exact Piece.plain.inj hc.1
      have hc' : 128 ≤ c.toNat := by
        refine Nat.le_of_not_lt fun hlt => ?_
        rw [putRune_ascii hlt] at ex
        cases ex
        rw [← hx, toNat_ofNat_lt (by omega)] at h1
        omega
      exact absurd ((kept_plain hk).plain _ (by rw [← putRune_eq]; exact putRune_high hc') hc) (h2 c)
  | @lone h i j k n ps s h1 h2 h3 h4 hps ih =>
    obtain ⟨qs, e, hq, hk⟩ := ih
    refine ⟨.u h i j k :: qs, ?_, .lone h1 h2 h3 ?_ hq, kept_other (by simp)⟩
    · rw [body_cons, List.append_assoc, compact_u h1, e, body_cons, List.append_assoc]
    · intro a b c d lo qs' eq hcode hn hlo
      obtain ⟨ps', ep⟩ := hk.low a b c d lo qs' eq hcode (by omega) (by omega)
      exact h4 _ _ _ _ _ _ ep hcode hn hlo

theorem compact_str {ps : List Piece} {s : Str} (h : StrMeans ps s) (rest : Bytes) :
    ∃ qs, compact false false (strText ps ++ rest) = strText qs ++ compact false false rest ∧
      StrMeans qs s := by
  obtain ⟨qs, e, hq, -⟩ := compact_body h rest
  refine ⟨qs, ?_, hq⟩
  rw [strText_eq, strText_eq]
  simp only [List.cons_append, List.append_assoc, List.nil_append]
  rw [compact, ← e]
  rfl

/-- Outside of strings. -/
theorem compact_out {b : UInt8} (h1 : isSpace b = false) (h2 : b ≠ 34) (bs : Bytes) :
    compact false false (b :: bs) = b :: compact false false bs := by
  have e : (b == 34) = false := by simpa using h2
  rw [compact, h1, e]; simp

theorem compact_outs {a : Bytes} (h : ∀ b ∈ a, isSpace b = false ∧ b ≠ 34) (bs : Bytes) :
    compact false false (a ++ bs) = a ++ compact false false bs := by
  induction a with
  | nil => rfl
  | cons b a ih =>
    obtain ⟨h1, h2⟩ := h b (by simp)
    rw [List.cons_append, compact_out h1 h2, ih (fun x hx => h x (List.mem_cons_of_mem _ hx))]
    rfl

theorem inNumber_out {b : UInt8} (h : inNumber b = true) : isSpace b = false ∧ b ≠ 34 := by
  simp only [inNumber, Bool.or_eq_true, beq_iff_eq] at h
  rcases h with ((((h | rfl) | rfl) | rfl) | rfl) | rfl
  · rcases Rpc.isDigit_cases b h with h | h | h | h | h | h | h | h | h | h <;> subst h <;> decide
  all_goals decide

theorem compact_blank {w : Bytes} (h : Blank w) (rest : Bytes) :
    compact false false (w ++ rest) = compact false false rest := by
  induction w with
  | nil => rfl
  | cons b w ih =>
    rw [List.cons_append, compact, Rpc.isSpace_of (h b (by simp))]
    simpa using ih fun x hx => h x (by simp [hx])

/-- A name with white space around it. -/
theorem compact_name {k : List Piece} {s : Str} (h : StrMeans k s) {a : Bytes}
    (ha : Padded (· = strText k) a) (rest : Bytes) :
    ∃ k', compact false false (a ++ rest) = strText k' ++ compact false false rest ∧ StrMeans k' s := by
  obtain ⟨w, y, w', h1, rfl, h2, rfl⟩ := ha
  obtain ⟨k', e, h3⟩ := compact_str h (w' ++ rest)
  refine ⟨k', ?_, h3⟩
  simp only [List.append_assoc]
  rw [compact_blank h1, e, compact_blank h2]

mutual
theorem compact_value : ∀ (t : Text) (d : Nat) (v : Json), t.ok d = true → Means t v →
    ∀ (x : Bytes), t.Writes x → ∀ rest : Bytes,
    ∃ t' : Text, compact false false (x ++ rest) = t'.text ++ compact false false rest ∧
      t'.ok d = true ∧ Means t' v
  | .null, d, v, h, hm, x, hx, rest => by
    rw [Rpc.Spec.Json.Writes] at hx; subst hx
    exact ⟨.null, compact_outs (by decide) rest, h, hm⟩
  | .bool true, d, v, h, hm, x, hx, rest => by
    rw [Rpc.Spec.Json.Writes] at hx; subst hx
    exact ⟨.bool true, compact_outs (by decide) rest, h, hm⟩
  | .bool false, d, v, h, hm, x, hx, rest => by
    rw [Rpc.Spec.Json.Writes] at hx; subst hx
    exact ⟨.bool false, compact_outs (by decide) rest, h, hm⟩
  | .num n, d, v, h, hm, x, hx, rest => by
    rw [Rpc.Spec.Json.Writes] at hx; subst hx
    refine ⟨.num n, ?_, h, hm⟩
    rw [Rpc.Spec.Json.ok] at h
    rw [Rpc.Spec.Json.text]
    exact compact_outs (fun b hb => inNumber_out (List.all_eq_true.mp (inNumber_text h) b hb)) rest
  | .str ps, d, v, h, hm, x, hx, rest => by
    rw [Rpc.Spec.Json.Writes] at hx; subst hx
    rw [Means] at hm
    obtain ⟨s, hs, rfl⟩ := hm
    obtain ⟨qs, e, hq⟩ := compact_str hs rest
    refine ⟨.str qs, by rw [Rpc.Spec.Json.text, e], ?_, ?_⟩
    · rw [Rpc.Spec.Json.ok]; exact strMeans_ok hq
    · rw [Means]; exact ⟨s, hq, rfl⟩
  | .arr ts, 0, v, h, _, _, _, _ => by simp [Rpc.Spec.Json.ok] at h
  | .obj ts, 0, v, h, _, _, _, _ => by simp [Rpc.Spec.Json.ok] at h
  | .arr ts, d + 1, v, h, hm, x, hx, rest => by
    rw [Means] at hm
    obtain ⟨vs, hv, rfl⟩ := hm
    rw [Rpc.Spec.Json.ok] at h
    rw [Rpc.Spec.Json.Writes] at hx
    obtain ⟨y, hy, rfl⟩ := hx
    obtain ⟨us, e, h1, h2⟩ := compact_elems ts d vs h hv y hy (93 :: rest)
    refine ⟨.arr us, ?_, by rw [Rpc.Spec.Json.ok]; exact h1, by rw [Means]; exact ⟨vs, h2, rfl⟩⟩
    rw [Rpc.Spec.Json.text]
    simp only [List.cons_append, List.append_assoc, List.nil_append]
    rw [compact_out (by decide) (by decide), e, compact_out (by decide) (by decide)]
  | .obj ts, d + 1, v, h, hm, x, hx, rest => by
    rw [Means] at hm
    obtain ⟨vs, hv, rfl⟩ := hm
    rw [Rpc.Spec.Json.ok] at h
    rw [Rpc.Spec.Json.Writes] at hx
    obtain ⟨y, hy, rfl⟩ := hx
    obtain ⟨us, e, h1, h2⟩ := compact_members ts d vs h hv y hy (125 :: rest)
    refine ⟨.obj us, ?_, by rw [Rpc.Spec.Json.ok]; exact h1, by rw [Means]; exact ⟨vs, h2, rfl⟩⟩
    rw [Rpc.Spec.Json.text]
    simp only [List.cons_append, List.append_assoc, List.nil_append]
    rw [compact_out (by decide) (by decide), e, compact_out (by decide) (by decide)]
  termination_by t => 2 * sizeOf t
theorem compact_padded : ∀ (t : Text) (d : Nat) (v : Json), t.ok d = true → Means t v →
    ∀ (x : Bytes), Padded (fun y => t.Writes y) x → ∀ rest : Bytes,
    ∃ t' : Text, compact false false (x ++ rest) = t'.text ++ compact false false rest ∧
      t'.ok d = true ∧ Means t' v
  | t, d, v, h, hm, x, hx, rest => by
    obtain ⟨w, y, w', h1, h2, h3, rfl⟩ := hx
    obtain ⟨t', e, h4⟩ := compact_value t d v h hm y h2 (w' ++ rest)
    refine ⟨t', ?_, h4⟩
    simp only [List.append_assoc]
    rw [compact_blank h1, e, compact_blank h3]
  termination_by t => 2 * sizeOf t + 1
theorem compact_elems : ∀ (ts : List Text) (d : Nat) (vs : List Json), Rpc.Spec.arrOk d ts = true →
    ElemsMean ts vs → ∀ (x : Bytes), Rpc.Spec.arrWrites ts x → ∀ rest : Bytes,
    ∃ us : List Text, compact false false (x ++ rest) =
      Rpc.Spec.arrText us ++ compact false false rest ∧ Rpc.Spec.arrOk d us = true ∧ ElemsMean us vs
  | [], d, vs, h, hm, x, hx, rest => by
    rw [Rpc.Spec.arrWrites] at hx
    exact ⟨[], by rw [Rpc.Spec.arrText, compact_blank hx]; rfl, h, hm⟩
  | [t], d, vs, h, hm, x, hx, rest => by
    rw [Rpc.Spec.arrWrites] at hx
    rw [ElemsMean] at hm
    obtain ⟨w, ws, h1, h2, rfl⟩ := hm
    rw [Rpc.Spec.arrOk, Bool.and_eq_true] at h
    obtain ⟨t', e, h3, h4⟩ := compact_padded t d w h.1 h1 x hx rest
    refine ⟨[t'], by rw [Rpc.Spec.arrText, e],
      by rw [Rpc.Spec.arrOk, h3, Rpc.Spec.arrOk]; rfl, ?_⟩
    rw [ElemsMean]; exact ⟨w, ws, h4, h2, rfl⟩
  | t :: u :: ts, d, vs, h, hm, x, hx, rest => by
    rw [Rpc.Spec.arrWrites] at hx
    obtain ⟨y, z, hy, hz, rfl⟩ := hx
    rw [ElemsMean] at hm
    obtain ⟨w, ws, h1, h2, rfl⟩ := hm
    rw [Rpc.Spec.arrOk, Bool.and_eq_true] at h
    obtain ⟨us, e5, h5, h6⟩ := compact_elems (u :: ts) d ws h.2 h2 z hz rest
    obtain ⟨t', e, h3, h4⟩ := compact_padded t d w h.1 h1 y hy (44 :: (z ++ rest))
    have h7 := h6
    rw [ElemsMean] at h2
    obtain ⟨w', ws', -, -, rfl⟩ := h2
    rw [ElemsMean.eq_def] at h7
    cases us with
    | nil => simp at h7
    | cons u' us =>
      refine ⟨t' :: u' :: us, ?_, by rw [Rpc.Spec.arrOk, h3, h5]; rfl, ?_⟩
      · rw [List.append_assoc, List.cons_append, e, compact_out (by decide) (by decide), e5,
          Rpc.Spec.arrText, List.append_assoc, List.cons_append]
      · rw [ElemsMean]; exact ⟨w, _, h4, h6, rfl⟩
  termination_by ts => 2 * sizeOf ts
theorem compact_members : ∀ (ts : List (List Piece × Text)) (d : Nat) (vs : List (Str × Json)),
    Rpc.Spec.objOk d ts = true → MembersMean ts vs → ∀ (x : Bytes), Rpc.Spec.objWrites ts x →
    ∀ rest : Bytes, ∃ us : List (List Piece × Text), compact false false (x ++ rest) =
      Rpc.Spec.objText us ++ compact false false rest ∧ Rpc.Spec.objOk d us = true ∧ MembersMean us vs
  | [], d, vs, h, hm, x, hx, rest => by
    rw [Rpc.Spec.objWrites] at hx
    exact ⟨[], by rw [Rpc.Spec.objText, compact_blank hx]; rfl, h, hm⟩
  | [(k, t)], d, vs, h, hm, x, hx, rest => by
    rw [Rpc.Spec.objWrites] at hx
    obtain ⟨a, y, ha, hy, rfl⟩ := hx
    rw [MembersMean] at hm
    obtain ⟨s, w, ws, h0, h1, h2, rfl⟩ := hm
    rw [Rpc.Spec.objOk, Bool.and_eq_true, Bool.and_eq_true] at h
    obtain ⟨t', e, h3, h4⟩ := compact_padded t d w h.1.2 h1 y hy rest
    obtain ⟨k', e', h5⟩ := compact_name h0 ha (58 :: (y ++ rest))
    refine ⟨[(k', t')], ?_, by rw [Rpc.Spec.objOk, strMeans_ok h5, h3, Rpc.Spec.objOk]; rfl, ?_⟩
    · rw [List.append_assoc, List.cons_append, e', compact_out (by decide) (by decide), e,
        Rpc.Spec.objText, List.append_assoc, List.cons_append]
    · rw [MembersMean]; exact ⟨s, w, ws, h5, h4, h2, rfl⟩
  | (k, t) :: (l, u) :: ts, d, vs, h, hm, x, hx, rest => by
    rw [Rpc.Spec.objWrites] at hx
    obtain ⟨a, y, z, ha, hy, hz, rfl⟩ := hx
    rw [MembersMean] at hm
    obtain ⟨s, w, ws, h0, h1, h2, rfl⟩ := hm
    rw [Rpc.Spec.objOk, Bool.and_eq_true, Bool.and_eq_true] at h
    obtain ⟨us, e5, h6, h7⟩ := compact_members ((l, u) :: ts) d ws h.2 h2 z hz rest
    obtain ⟨t', e, h3, h4⟩ := compact_padded t d w h.1.2 h1 y hy (44 :: (z ++ rest))
    obtain ⟨k', e', h5⟩ := compact_name h0 ha (58 :: (y ++ 44 :: (z ++ rest)))
    have h8 := h7
    rw [MembersMean] at h2
    obtain ⟨s', w', ws', -, -, -, rfl⟩ := h2
    rw [MembersMean.eq_def] at h8
    cases us with
    | nil => simp at h8
    | cons u' us =>
      refine ⟨(k', t') :: u' :: us, ?_, by rw [Rpc.Spec.objOk, strMeans_ok h5, h3, h6]; rfl, ?_⟩
      · simp only [List.append_assoc, List.cons_append]
        rw [e', compact_out (by decide) (by decide), e, compact_out (by decide) (by decide), e5,
          Rpc.Spec.objText]
        simp only [List.append_assoc, List.cons_append]
      · rw [MembersMean]; exact ⟨s, w, _, h5, h4, h7, rfl⟩
  termination_by ts => 2 * sizeOf ts
end

theorem compact_of {t : Text} {d : Nat} {v : Json} (h : t.ok d = true) (hm : Means t v) {x : Bytes}
    (hx : Padded (fun y => t.Writes y) x) :
    ∃ t' : Text, compact false false x = t'.text ∧ t'.ok d = true ∧ Means t' v := by
  obtain ⟨t', e, h1, h2⟩ := compact_padded t d v h hm x hx []
  refine ⟨t', ?_, h1, h2⟩
  simpa [compact] using e

end Burl.JsonText
