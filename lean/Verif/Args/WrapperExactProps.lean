import Verif.Args.WrapperProps
/-! C48: exactly which paths make the wrapper print a well-formed message. -/
namespace Burl.Args
open Burl Burl.Frame.Spec Burl.Rpc.Spec

namespace Spec

/-- Bytes that continue a character in UTF-8. -/
def Continues (b : UInt8) : Prop := 128 ≤ b ∧ b < 192

/-- What is printed is one frame with a JSON object that has an error. -/
def WellFormed (out : Bytes) : Prop := ∃ m, out = frame m ∧ IsErrorObject m

end Spec
open Spec

theorem trByte_newline {b : UInt8} : trByte b = 10 ↔ b = 10 := by
  unfold trByte
  split
  · rename_i h; subst h; decide
  split
  · rename_i h; subst h; decide
  · exact Iff.rfl

theorem strip_exact {p : Bytes} (hp : p.getLast? ≠ some 10) (k : Nat) :
    stripNewlines ((p ++ List.replicate k 10).map trByte) = p.map trByte := by
  unfold stripNewlines
  have h10 : trByte 10 = 10 := by decide
  rw [List.map_append, List.map_replicate, h10, List.reverse_append, List.reverse_replicate,
    List.dropWhile_append_of_pos (by
      intro a ha
      rw [(List.mem_replicate.mp ha).2]
      rfl)]
  have : (p.map trByte).reverse.dropWhile (· == 10) = (p.map trByte).reverse := by
    rw [← List.map_reverse]
    cases hr : p.reverse with
    | nil => rfl
    | cons b t =>
      have hb : b ≠ 10 := by
        rintro rfl
        apply hp
        rw [← List.head?_reverse, hr]
        rfl
      rw [List.map_cons, List.dropWhile_cons, if_neg (by simpa [trByte_newline] using hb)]
  rw [this, List.reverse_reverse]

theorem errText_exact {p : Bytes} (hp : p.getLast? ≠ some 10) (k : Nat) :
    errText (p ++ List.replicate k 10) = errHead ++ p.map trByte ++ errTail := by
  unfold errText
  rw [strip_exact hp]

theorem errText_exact_length {p : Bytes} (hp : p.getLast? ≠ some 10) (k : Nat) :
    (errText (p ++ List.replicate k 10)).length = 47 + p.length := by
  have h1 : errHead.length = 11 := by decide +kernel
  have h2 : errTail.length = 36 := by decide +kernel
  rw [errText_exact hp, List.length_append, List.length_append, List.length_map, h1, h2]
  omega

/-- A byte that is neither a control character nor changed by `tr` into one begins no piece. -/
theorem control_no_piece {b : UInt8} (hb : ¬NotControl b) {ps : List Piece} {rest : Bytes}
    (hps : ∀ p ∈ ps, p.ok = true) {l : Bytes}
    (hl : trByte b :: l = (ps.map Piece.text).flatten ++ 34 :: rest) : False := by
  have hall : ∀ n : Fin 256, ¬ (32 ≤ UInt8.ofNat n.val) →
      trByte (UInt8.ofNat n.val) ≠ 34 ∧ trByte (UInt8.ofNat n.val) ≠ 92 ∧
      (Piece.plain (trByte (UInt8.ofNat n.val))).ok = false := by decide +kernel
  have h := hall ⟨b.toNat, b.toNat_lt⟩
  simp only [UInt8.ofNat_toNat] at h
  obtain ⟨h1, h2, h3⟩ := h hb
  cases ps with
  | nil =>
    simp only [List.map_nil, List.flatten_nil, List.nil_append, List.cons.injEq] at hl
    exact h1 hl.1
  | cons p ps =>
    have hp := hps p List.mem_cons_self
    cases p with
    | plain c =>
      simp only [List.map_cons, Piece.text, List.flatten_cons, List.cons_append,
        List.cons.injEq] at hl
      rw [← hl.1, h3] at hp
      cases hp
    | esc c =>
      simp only [List.map_cons, Piece.text, List.flatten_cons, List.cons_append,
        List.cons.injEq] at hl
      exact h2 hl.1
    | u a c d e =>
      simp only [List.map_cons, Piece.text, List.flatten_cons, List.cons_append,
        List.cons.injEq] at hl
      exact h2 hl.1

/-- Bytes changed by `tr` are pieces of a string only if there are no control characters. -/
theorem no_control : ∀ {p : Bytes} {tail : Bytes} {ps : List Piece} {rest : Bytes},
    (∀ x ∈ ps, x.ok = true) → p.map trByte ++ tail = (ps.map Piece.text).flatten ++ 34 :: rest →
    ∀ b ∈ p, NotControl b
  | [], _, _, _, _, _ => by simp
  | b :: p, tail, ps, rest, hps, h => by
    rw [List.map_cons, List.cons_append] at h
    have hb : NotControl b := Classical.byContradiction fun hb => control_no_piece hb hps h
    intro x hx
    rcases List.mem_cons.mp hx with rfl | hx
    · exact hb
    have htr := (tr_ok hb).1
    cases ps with
    | nil =>
      simp only [List.map_nil, List.flatten_nil, List.nil_append, List.cons.injEq] at h
      rw [h.1] at htr
      exact absurd htr (by decide)
    | cons q ps =>
      cases q with
      | plain c =>
        simp only [List.map_cons, Piece.text, List.flatten_cons, List.cons_append, List.nil_append,
          List.cons.injEq] at h
        exact no_control (fun y hy => hps y (List.mem_cons_of_mem _ hy)) h.2 x hx
      | esc c =>
        simp only [List.map_cons, Piece.text, List.flatten_cons, List.cons_append,
          List.cons.injEq] at h
        rw [h.1] at htr
        exact absurd htr (by decide)
      | u a c d e =>
        simp only [List.map_cons, Piece.text, List.flatten_cons, List.cons_append,
          List.cons.injEq] at h
        rw [h.1] at htr
        exact absurd htr (by decide)

theorem errText_json_exact {p : Bytes} (hp : p.getLast? ≠ some 10) (k : Nat) :
    IsErrorObject (errText (p ++ List.replicate k 10)) ↔ ∀ b ∈ p, NotControl b := by
  rw [errText_exact hp]
  constructor
  · rintro ⟨msg, hok, ht⟩
    have h1 : errHead = bytesOf "{\"error\": " ++ [34] := by decide +kernel
    rw [h1] at ht
    simp only [List.append_assoc] at ht
    have ht := List.append_cancel_left ht
    unfold strText at ht
    simp only [List.cons_append, List.nil_append, List.append_assoc, List.cons.injEq,
      true_and] at ht
    exact no_control hok ht
  · intro h
    have := errText_json h
    unfold errText at this
    rw [strip_plain] at this
    · exact this
    · intro b hb
      obtain ⟨x, hx, rfl⟩ := List.mem_map.1 hb
      exact (tr_ok (h x hx)).2

/-- What is printed is a frame exactly if the length is right and has two digits. -/
theorem output_frame {count : Bytes → Nat} {backend : Bytes}
    (h16 : 16 ≤ count (errText backend)) (hle : count (errText backend) ≤ (errText backend).length)
    (hmax : (errText backend).length < 4096) (m : Bytes) :
    failureOutput count backend = frame m ↔ m = errText backend ∧
      count (errText backend) = (errText backend).length ∧ (errText backend).length < 256 := by
  generalize he : errText backend = err at *
  by_cases h256 : count err < 256
  · have hout : failureOutput count backend = [UInt8.ofNat (count err), 0, 0, 0] ++ err := by
      rw [← he] at h16 h256 ⊢
      exact output_short h16 h256
    rw [hout]
    unfold frame le32
    constructor
    · intro hf
      simp only [List.cons_append, List.nil_append, List.cons.injEq] at hf
      obtain ⟨f1, f2, f3, f4, rfl⟩ := hf
      have key : ∀ x y : Nat, x < 256 → y < 256 → UInt8.ofNat x = UInt8.ofNat y → x = y := by
        intro x y hx hy h
        have := congrArg UInt8.toNat h
        simp only [UInt8.toNat_ofNat'] at this
        omega
      have e1 := key _ _ h256 (Nat.mod_lt _ (by decide)) f1
      have e2 := key 0 (err.length / 256 % 256) (by decide) (Nat.mod_lt _ (by decide)) f2
      exact ⟨rfl, by omega, by omega⟩
    · rintro ⟨rfl, h1, h2⟩
      have e1 : m.length % 256 = m.length := by omega
      have e2 : m.length / 256 % 256 = 0 := by omega
      have e3 : m.length / 65536 % 256 = 0 := by omega
      have e4 : m.length / 16777216 % 256 = 0 := by omega
      rw [e1, e2, e3, e4, h1]
      rfl
  · constructor
    · intro hf
      exfalso
      have hn2 : count err < 4096 := by omega
      have hout : failureOutput count backend =
          UInt8.ofNat (count err / 16) :: UInt8.ofNat (hexChar (count err % 16)).toNat :: 0 :: 0 ::
            0 :: err := by
        unfold failureOutput
        simp only
        rw [he, hexDigits_three (by omega) hn2]
        simp only [List.cons_append, List.nil_append]
        rw [printfX_two (by omega) (by omega), printfX_plain (hexChar_ne (by omega)), printfX_zeros]
        have e : count err / 16 / 16 * 16 + count err / 16 % 16 = count err / 16 := by omega
        rw [e]
        rfl
      rw [hout] at hf
      unfold frame le32 at hf
      simp only [List.cons_append, List.nil_append, List.cons.injEq] at hf
      obtain ⟨_, f2, _, _, f5⟩ := hf
      have hm : m.length = err.length + 1 := by rw [← f5]; rfl
      have hg := hexChar_ge (n := count err % 16) (by omega)
      have f2' := congrArg UInt8.toNat f2
      simp only [UInt8.toNat_ofNat'] at f2'
      rw [hm] at f2'
      rw [Nat.mod_eq_of_lt (by omega : (hexChar (count err % 16)).toNat < 2 ^ 8)] at f2'
      omega
    · rintro ⟨_, h1, h2⟩
      omega

theorem wellFormed_iff {count : Bytes → Nat} {p : Bytes} {k : Nat} (hp : p.getLast? ≠ some 10)
    (hmax : p.length < 4049) (h16 : 16 ≤ count (errText (p ++ List.replicate k 10)))
    (hle : count (errText (p ++ List.replicate k 10)) ≤ (errText (p ++ List.replicate k 10)).length) :
    WellFormed (failureOutput count (p ++ List.replicate k 10)) ↔
      (∀ b ∈ p, NotControl b) ∧ p.length ≤ 208 ∧
        count (errText (p ++ List.replicate k 10)) =
          (errText (p ++ List.replicate k 10)).length := by
  have hl := errText_exact_length hp k
  have ho := output_frame h16 hle (by omega)
  constructor
  · rintro ⟨m, hf, hj⟩
    obtain ⟨rfl, h1, h2⟩ := (ho m).1 hf
    exact ⟨(errText_json_exact hp k).1 hj, by omega, h1⟩
  · rintro ⟨h1, h2, h3⟩
    exact ⟨_, (ho _).2 ⟨rfl, h3, by omega⟩, (errText_json_exact hp k).2 h1⟩

/-- **C48.** With a shell that counts bytes, exactly for which paths what the wrapper prints is one
frame with an error.  `p` is the path of the backend without the line feeds at its end, if there are
any; 4049 bytes and more are beyond the limit on paths. -/
theorem c48_exact {p : Bytes} (k : Nat) (hp : p.getLast? ≠ some 10) (hmax : p.length < 4049) :
    WellFormed (failureOutput List.length (p ++ List.replicate k 10)) ↔
      (∀ b ∈ p, NotControl b) ∧ p.length ≤ 208 := by
  have hl := errText_exact_length hp k
  rw [wellFormed_iff hp hmax (by omega) (by omega)]
  simp

theorem countP_le_count (s : Bytes) : utf8Count s ≤ s.length := List.countP_le_length

/-- **C48.** The same for a shell that counts characters. -/
theorem c48_exact_chars {p : Bytes} (k : Nat) (hp : p.getLast? ≠ some 10) (hmax : p.length < 4049) :
    WellFormed (failureOutput utf8Count (p ++ List.replicate k 10)) ↔
      (∀ b ∈ p, NotControl b ∧ ¬Continues b) ∧ p.length ≤ 208 := by
  have hl := errText_exact_length hp k
  have h16 : 16 ≤ utf8Count (errText (p ++ List.replicate k 10)) := by
    rw [errText_exact hp]
    unfold utf8Count
    rw [List.countP_append]
    have : (errTail).countP (fun b => !(128 ≤ b && b < 192)) = 36 := by decide +kernel
    omega
  rw [wellFormed_iff hp hmax h16 (countP_le_count _)]
  have hcount : utf8Count (errText (p ++ List.replicate k 10)) =
      (errText (p ++ List.replicate k 10)).length ↔ ∀ b ∈ p, ¬Continues b := by
    rw [errText_exact hp]
    unfold utf8Count
    rw [List.countP_eq_length]
    have htr : ∀ n : Fin 256, (!(decide (128 ≤ trByte (UInt8.ofNat n.val)) &&
        decide (trByte (UInt8.ofNat n.val) < 192))) = true ↔
        ¬(128 ≤ UInt8.ofNat n.val ∧ UInt8.ofNat n.val < 192) := by decide +kernel
    have htr' : ∀ b : UInt8, (!(decide (128 ≤ trByte b) && decide (trByte b < 192))) = true ↔
        ¬Continues b := by
      intro b
      have := htr ⟨b.toNat, b.toNat_lt⟩
      simp only [UInt8.ofNat_toNat] at this
      exact this
    have hh : ∀ b ∈ errHead, (!(decide (128 ≤ b) && decide (b < 192))) = true := by decide +kernel
    have ht : ∀ b ∈ errTail, (!(decide (128 ≤ b) && decide (b < 192))) = true := by decide +kernel
    constructor
    · intro h b hb
      exact (htr' b).1 (h _ (List.mem_append_left _ (List.mem_append_right _
        (List.mem_map_of_mem hb))))
    · intro h b hb
      rcases List.mem_append.1 hb with hb | hb
      · rcases List.mem_append.1 hb with hb | hb
        · exact hh b hb
        · obtain ⟨x, hx, rfl⟩ := List.mem_map.1 hb
          exact (htr' x).2 (h x hx)
      · exact ht b hb
  rw [hcount]
  constructor
  · rintro ⟨h1, h2, h3⟩
    exact ⟨fun b hb => ⟨h1 b hb, h3 b hb⟩, h2⟩
  · rintro ⟨h1, h2⟩
    exact ⟨fun b hb => (h1 b hb).1, h2, fun b hb => (h1 b hb).2⟩

/-- A line feed within the path spoils the message, one at its end does not. -/
example : WellFormed (failureOutput List.length (bytesOf "/a\n\n")) ∧
    ¬WellFormed (failureOutput List.length (bytesOf "/a\nb")) ∧
    ¬WellFormed (failureOutput utf8Count [47, 195, 169]) ∧
    WellFormed (failureOutput List.length [47, 195, 169]) := by
  refine ⟨(c48_exact (p := bytesOf "/a") 2 (by decide) (by decide)).2 ⟨by unfold NotControl; decide, by decide⟩,
    ?_, ?_, ?_⟩
  · intro h
    exact absurd (((c48_exact (p := bytesOf "/a\nb") 0 (by decide) (by decide)).1 h).1 10 (by decide))
      (by unfold NotControl; decide)
  · intro h
    exact absurd ⟨by decide, by decide⟩
      (((c48_exact_chars (p := [47, 195, 169]) 0 (by decide) (by decide)).1 h).1 169 (by decide)).2
  · exact (c48_exact (p := [47, 195, 169]) 0 (by decide) (by decide)).2
      ⟨by unfold NotControl; decide, by decide⟩

end Burl.Args
