import Verif.JsonText.ScanLemmas
import Verif.JsonText.Props
import Verif.JsonText.Raw
/-! C68 for all bytes: every JSON text says something, nothing else is decoded. -/
namespace Burl.JsonText
open Burl Burl.JsonText.Spec
open Burl.Json (Json)
open Burl.Rpc.Spec (Piece Num strText Blank Padded)

theorem hexVal_total {b : UInt8} (h : Rpc.Spec.hexDigit b = true) : ∃ n, hexVal b n := by
  simp only [Rpc.Spec.hexDigit, Rpc.Spec.digit, Bool.or_eq_true, Bool.and_eq_true, decide_eq_true_eq,
    UInt8.le_iff_toNat_le] at h
  unfold hexVal
  rcases h with (⟨h1, h2⟩ | ⟨h1, h2⟩) | ⟨h1, h2⟩
  · exact ⟨b.toNat - 48, by simp at h1 h2; omega⟩
  · exact ⟨b.toNat - 87, by simp at h1 h2; omega⟩
  · exact ⟨b.toNat - 55, by simp at h1 h2; omega⟩

theorem code_total {a b c d : UInt8} (h : (Piece.u a b c d).ok = true) : ∃ n, code a b c d n := by
  simp only [Piece.ok, Bool.and_eq_true] at h
  obtain ⟨⟨⟨h1, h2⟩, h3⟩, h4⟩ := h
  obtain ⟨i, h1⟩ := hexVal_total h1
  obtain ⟨j, h2⟩ := hexVal_total h2
  obtain ⟨k, h3⟩ := hexVal_total h3
  obtain ⟨l, h4⟩ := hexVal_total h4
  exact ⟨_, i, j, k, l, h1, h2, h3, h4, rfl⟩

theorem code_unique {a b c d : UInt8} {m n : Nat} (h : code a b c d m) (h' : code a b c d n) : m = n := by
  have e := getu4_of h []
  rw [getu4_of h' []] at e
  exact (Option.some.inj e).symm

theorem strMeans_total : ∀ (n : Nat) (ps : List Piece), ps.length ≤ n → ps.all Piece.ok = true →
    ∃ s, StrMeans ps s := by
  intro n
  induction n with
  | zero =>
    intro ps h _
    obtain rfl : ps = [] := List.length_eq_zero_iff.1 (by omega)
    exact ⟨[], .nil⟩
  | succ n ih =>
    intro ps hn hok
    cases ps with
    | nil => exact ⟨[], .nil⟩
    | cons p ps =>
      have hok' := hok
      simp only [List.all_cons, Bool.and_eq_true] at hok
      simp only [List.length_cons] at hn
      obtain ⟨s, hs⟩ := ih ps (by omega) hok.2
      cases p with
      | plain b =>
        have h1 := hok.1
        simp only [Piece.ok, Bool.and_eq_true, bne_iff_ne, decide_eq_true_eq, UInt8.le_iff_toNat_le] at h1
        obtain ⟨⟨h1, h2⟩, h3⟩ := h1
        have h3 : 32 ≤ b.toNat := h3
        by_cases hb : b.toNat < 128
        · have hv : (Char.ofNat b.toNat).toNat = b.toNat := toNat_ofNat (by omega)
          have he : String.utf8EncodeChar (Char.ofNat b.toNat) = [b] := by
            rw [← putRune_eq, putRune_ascii (by omega), hv]
            simp
          have := StrMeans.plain (c := Char.ofNat b.toNat) (ps := ps) (s := s)
            (fun e => h1 (UInt8.toNat_inj.1 (by rw [← hv, e]; rfl)))
            (fun e => h2 (UInt8.toNat_inj.1 (by rw [← hv, e]; rfl))) (by omega) hs
          rw [he] at this
          exact ⟨_, this⟩
        · by_cases hc : ∃ c, (String.utf8EncodeChar c).map Piece.plain <+: .plain b :: ps
          · obtain ⟨c, qs, e⟩ := hc
            have hc' : 128 ≤ c.toNat := by
              refine Nat.le_of_not_lt fun hlt => ?_
              rw [← putRune_eq, putRune_ascii hlt] at e
              have e := Piece.plain.inj (List.cons.inj e).1
              rw [← e, toNat_ofNat_lt (by omega)] at hb
              omega
            have hl : qs.length ≤ n := by
              have := congrArg List.length e
              obtain ⟨x, xs, ex⟩ := putRune_ne c
              rw [← putRune_eq, ex] at this
              simp at this
              omega
            obtain ⟨s', hs'⟩ := ih qs hl (by
              rw [← e, List.all_append, Bool.and_eq_true] at hok'
              exact hok'.2)
            rw [← e]
            exact ⟨c :: s', .plain (by rintro rfl; simp at hc') (by rintro rfl; simp at hc') (by omega) hs'⟩
          · exact ⟨_, .byte (by omega) (fun c h => hc ⟨c, h⟩) hs⟩
      | esc b =>
        have h1 := hok.1
        have : ∃ c : Char, (b, c.toNat) ∈ escapes := by
          simp only [Piece.ok, List.contains_iff_mem, List.mem_cons, List.not_mem_nil, or_false] at h1
          rcases h1 with rfl | rfl | rfl | rfl | rfl | rfl | rfl | rfl
          · exact ⟨Char.ofNat 8, by decide⟩
          · exact ⟨Char.ofNat 12, by decide⟩
          · exact ⟨'\n', by decide⟩
          · exact ⟨'\r', by decide⟩
          · exact ⟨'\t', by decide⟩
          · exact ⟨'\\', by decide⟩
          · exact ⟨'/', by decide⟩
          · exact ⟨'"', by decide⟩
        obtain ⟨c, hc⟩ := this
        exact ⟨_, .esc hc hs⟩
      | u a b c d =>
        obtain ⟨m, hm⟩ := code_total hok.1
        have hlt := code_lt hm
        by_cases hsur : 0xD800 ≤ m ∧ m ≤ 0xDFFF
        · by_cases hp : ∃ a' b' c' d' lo ps', ps = .u a' b' c' d' :: ps' ∧ code a' b' c' d' lo ∧ m ≤ 0xDBFF ∧
              0xDC00 ≤ lo ∧ lo ≤ 0xDFFF
          · obtain ⟨a', b', c', d', lo, ps', rfl, hlo, g1, g2, g3⟩ := hp
            obtain ⟨s', hs'⟩ := ih ps' (by simp at hn; omega) (by
              have := hok.2
              simp only [List.all_cons, Bool.and_eq_true] at this
              exact this.2)
            exact ⟨Char.ofNat (0x10000 + (m - 0xD800) * 0x400 + (lo - 0xDC00)) :: s',
              .pair hm hlo hsur.1 g1 g2 g3 (toNat_ofNat (by omega)) hs'⟩
          · exact ⟨_, .lone hm hsur.1 hsur.2 (fun a' b' c' d' lo ps' e hc hle hlo =>
              hp ⟨a', b', c', d', lo, ps', e, hc, hle, hlo⟩) hs⟩
        · have hv : (Char.ofNat m).toNat = m := toNat_ofNat (by omega)
          exact ⟨Char.ofNat m :: s, .u (by rw [hv]; exact hm) hs⟩

mutual
theorem means_total : ∀ (t : Text) (d : Nat), t.ok d = true → ∃ v, Means t v
  | .null, _, _ => ⟨_, rfl⟩
  | .bool b, _, _ => ⟨_, rfl⟩
  | .num n, _, _ => ⟨_, rfl⟩
  | .str ps, d, h => by
    rw [Rpc.Spec.Json.ok] at h
    obtain ⟨s, hs⟩ := strMeans_total _ ps (Nat.le_refl _) h
    exact ⟨_, s, hs, rfl⟩
  | .arr ts, 0, h => by simp [Rpc.Spec.Json.ok] at h
  | .arr ts, d + 1, h => by
    rw [Rpc.Spec.Json.ok] at h
    obtain ⟨vs, hv⟩ := elemsMean_total ts d h
    exact ⟨_, vs, hv, rfl⟩
  | .obj ms, 0, h => by simp [Rpc.Spec.Json.ok] at h
  | .obj ms, d + 1, h => by
    rw [Rpc.Spec.Json.ok] at h
    obtain ⟨vs, hv⟩ := membersMean_total ms d h
    exact ⟨_, vs, hv, rfl⟩
theorem elemsMean_total : ∀ (ts : List Text) (d : Nat), Rpc.Spec.arrOk d ts = true → ∃ vs, ElemsMean ts vs
  | [], _, _ => ⟨_, rfl⟩
  | t :: ts, d, h => by
    rw [Rpc.Spec.arrOk, Bool.and_eq_true] at h
    obtain ⟨v, hv⟩ := means_total t d h.1
    obtain ⟨vs, hvs⟩ := elemsMean_total ts d h.2
    exact ⟨_, v, vs, hv, hvs, rfl⟩
theorem membersMean_total : ∀ (ms : List (List Piece × Text)) (d : Nat), Rpc.Spec.objOk d ms = true →
    ∃ vs, MembersMean ms vs
  | [], _, _ => ⟨_, rfl⟩
  | (k, t) :: ms, d, h => by
    rw [Rpc.Spec.objOk, Bool.and_eq_true, Bool.and_eq_true] at h
    obtain ⟨s, hs⟩ := strMeans_total _ k (Nat.le_refl _) h.1.1
    obtain ⟨v, hv⟩ := means_total t d h.1.2
    obtain ⟨vs, hvs⟩ := membersMean_total ms d h.2
    exact ⟨_, s, v, vs, hs, hv, hvs, rfl⟩
end

/-- A JSON text with white space around it (RFC 8259); brackets are nested at most 10000 deep. -/
def JsonText (x : Bytes) : Prop := ∃ t : Text, t.ok 10000 = true ∧ Padded t.Writes x

/-- C68: the value that is decoded is the one that the text says; anything that is decoded is a text. -/
theorem c68_exact {v : Json} {x : Bytes} : unmarshal x = some v ↔ Padded (TextFor 10000 v) x := by
  refine ⟨fun h => ?_, c68_decode⟩
  have hv : checkValid Rpc.json.start x = true := by
    refine Bool.of_not_eq_false fun hc => ?_
    rw [unmarshal, hc] at h
    cases h
  obtain ⟨t, ht, w, y, w', h1, h2, h3, rfl⟩ := text_of_valid hv
  obtain ⟨v', hm⟩ := means_total t _ ht
  have hp : Padded (TextFor 10000 v') (w ++ (y ++ w')) := ⟨w, y, w', h1, ⟨t, ht, hm, h2⟩, h3, rfl⟩
  have e := c68_decode hp
  rw [h] at e
  cases e
  exact hp

/-- C68: bytes are refused if and only if they are not a JSON text. -/
theorem c68_refused {x : Bytes} : unmarshal x = none ↔ ¬JsonText x := by
  constructor
  · rintro h ⟨t, ht, w, y, w', h1, h2, h3, rfl⟩
    obtain ⟨v, hm⟩ := means_total t _ ht
    rw [c68_decode (v := v) ⟨w, y, w', h1, ⟨t, ht, hm, h2⟩, h3, rfl⟩] at h
    cases h
  · intro h
    cases hu : unmarshal x with
    | none => rfl
    | some v =>
      obtain ⟨w, y, w', h1, ⟨t, ht, -, h2⟩, h3, rfl⟩ := c68_exact.1 hu
      exact absurd ⟨t, ht, w, y, w', h1, h2, h3, rfl⟩ h

/-- C68: a string says one sequence of characters. -/
theorem c68_string_unique {ps : List Piece} {s s' : Str} (h : StrMeans ps s) (h' : StrMeans ps s') : s = s' := by
  have e := unquote_of h _ (Nat.lt_succ_self _)
  rw [unquote_of h' _ (Nat.lt_succ_self _)] at e
  exact (Option.some.inj e).symm

/-! ### Cases -/

mutual
/-- Equality of values, for cases. -/
def same : Json → Json → Bool
  | .null, .null => true
  | .bool a, .bool b => a == b
  | .num a, .num b => a == b
  | .real a, .real b => a == b
  | .str a, .str b => a == b
  | .arr a, .arr b => sameAll a b
  | .obj a, .obj b => sameMembers a b
  | _, _ => false
/-- For elements. -/
def sameAll : List Json → List Json → Bool
  | [], [] => true
  | v :: vs, w :: ws => same v w && sameAll vs ws
  | _, _ => false
/-- For members. -/
def sameMembers : List (Str × Json) → List (Str × Json) → Bool
  | [], [] => true
  | (k, v) :: vs, (l, w) :: ws => k == l && same v w && sameMembers vs ws
  | _, _ => false
end

mutual
theorem same_eq : ∀ {v w : Json}, same v w = true → v = w
  | .null, w, h => by cases w <;> simp [same] at h ⊢
  | .bool a, w, h => by cases w <;> simp [same] at h ⊢; exact h
  | .num a, w, h => by cases w <;> simp [same] at h ⊢; exact h
  | .real a, w, h => by cases w <;> simp [same] at h ⊢; exact h
  | .str a, w, h => by cases w <;> simp [same] at h ⊢; exact h
  | .arr a, w, h => by cases w <;> simp [same] at h ⊢; exact sameAll_eq h
  | .obj a, w, h => by cases w <;> simp [same] at h ⊢; exact sameMembers_eq h
theorem sameAll_eq : ∀ {v w : List Json}, sameAll v w = true → v = w
  | [], w, h => by cases w <;> simp [sameAll] at h ⊢
  | a :: v, w, h => by
    cases w with
    | nil => simp [sameAll] at h
    | cons b w =>
      simp only [sameAll, Bool.and_eq_true] at h
      rw [same_eq h.1, sameAll_eq h.2]
theorem sameMembers_eq : ∀ {v w : List (Str × Json)}, sameMembers v w = true → v = w
  | [], w, h => by cases w <;> simp [sameMembers] at h ⊢
  | (k, a) :: v, w, h => by
    cases w with
    | nil => simp [sameMembers] at h
    | cons b w =>
      simp only [sameMembers, Bool.and_eq_true, beq_iff_eq] at h
      rw [h.1.1, same_eq h.1.2, sameMembers_eq h.2]
end

theorem says_this {x : Bytes} {v : Json} (h : (unmarshal x).any (same v) = true) :
    Padded (TextFor 10000 v) x := by
  rw [Option.any_eq_true] at h
  obtain ⟨w, e, h⟩ := h
  rw [same_eq h]
  exact c68_exact.1 e

theorem says_nothing {x : Bytes} (h : (unmarshal x).isNone = true) : ¬JsonText x :=
  c68_refused.1 (Option.isNone_iff_eq_none.1 h)

/-- A byte that is not UTF-8, a cut character and a lone surrogate are replaced: `"a<FF><E2><80>\uD800"`. -/
example : Padded (TextFor 10000 (.str ['a', Char.ofNat 0xFFFD, Char.ofNat 0xFFFD, Char.ofNat 0xFFFD, Char.ofNat 0xFFFD]))
    [34, 97, 0xFF, 0xE2, 0x80, 92, 117, 68, 56, 48, 48, 34] := says_this (by decide +kernel)

/-- Two low surrogates are not a pair. -/
example : Padded (TextFor 10000 (.str [Char.ofNat 0xFFFD, Char.ofNat 0xFFFD]))
    (utf8 "\"\\udc00\\udc00\"".toList) := says_this (by decide +kernel)

/-- A big letter in an exponent. -/
example : Padded (TextFor 10000 (.arr [.real "1E5".toList, .num 7])) (utf8 "[1E5 , 7]".toList) := says_this (by decide +kernel)

/-- Not texts: a comma at the end, a number with a leading zero, a tab in a string, two values. -/
example : ¬JsonText (utf8 "[1,]".toList) := says_nothing (by decide +kernel)
example : ¬JsonText (utf8 "01".toList) := says_nothing (by decide +kernel)
example : ¬JsonText (utf8 "\"\t\"".toList) := says_nothing (by decide +kernel)
example : ¬JsonText (utf8 "{} {}".toList) := says_nothing (by decide +kernel)
example : ¬JsonText [] := says_nothing (by decide +kernel)

end Burl.JsonText
