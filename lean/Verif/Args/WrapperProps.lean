import Verif.Args.Wrapper
/-! C48: the frame printed by a wrapper when the backend is missing. -/
namespace Burl.Args
open Burl Burl.Frame.Spec Burl.Rpc.Spec

theorem hexVal_hexChar {n : Nat} (h : n < 16) : hexVal (hexChar n) = some n := by
  have : ∀ m : Fin 16, hexVal (hexChar m.val) = some m.val := by decide
  exact this ⟨n, h⟩

theorem hexChar_ne {n : Nat} (h : n < 16) : hexChar n ≠ '\\' := by
  have : ∀ m : Fin 16, hexChar m.val ≠ '\\' := by decide
  exact this ⟨n, h⟩

theorem hexChar_ge {n : Nat} (h : n < 16) : 48 ≤ (hexChar n).toNat ∧ (hexChar n).toNat ≤ 102 := by
  have : ∀ m : Fin 16, 48 ≤ (hexChar m.val).toNat ∧ (hexChar m.val).toNat ≤ 102 := by decide
  exact this ⟨n, h⟩

theorem printfX_zeros : printfX zeros = [0, 0, 0] := by decide +kernel

theorem hexDigits_two {n : Nat} (h1 : 16 ≤ n) (h2 : n < 256) :
    hexDigits (n + 1) n = [hexChar (n / 16), hexChar (n % 16)] := by
  obtain ⟨m, rfl⟩ : ∃ m, n = m + 1 := ⟨n - 1, by omega⟩
  rw [hexDigits, if_neg (by omega), hexDigits, if_pos (by omega)]
  rfl

theorem hexDigits_three {n : Nat} (h1 : 256 ≤ n) (h2 : n < 4096) :
    hexDigits (n + 1) n = [hexChar (n / 16 / 16), hexChar (n / 16 % 16), hexChar (n % 16)] := by
  obtain ⟨m, rfl⟩ : ∃ m, n = m + 2 := ⟨n - 2, by omega⟩
  rw [hexDigits, if_neg (by omega), hexDigits, if_neg (by omega), hexDigits, if_pos (by omega)]
  rfl

theorem printfX_two {a b : Nat} (ha : a < 16) (hb : b < 16) (rest : Str) :
    printfX ('\\' :: 'x' :: hexChar a :: hexChar b :: rest) =
      UInt8.ofNat (a * 16 + b) :: printfX rest := by
  rw [printfX, hexVal_hexChar ha, hexVal_hexChar hb]

theorem printfX_plain {c : Char} (h : c ≠ '\\') (cs : Str) :
    printfX (c :: cs) = UInt8.ofNat c.toNat :: printfX cs := by
  rw [printfX.eq_3]
  · rintro a b rest hh
    cases hh
    exact absurd rfl h
  · rintro a hh
    cases hh
    exact absurd rfl h

theorem strip_plain {s : Bytes} (h : ∀ b ∈ s, b ≠ 10) : stripNewlines s = s := by
  unfold stripNewlines
  have : s.reverse.dropWhile (· == 10) = s.reverse := by
    cases hr : s.reverse with
    | nil => rfl
    | cons b t =>
      have hb : b ≠ 10 := h b (by
        rw [← List.mem_reverse, hr]
        exact List.mem_cons_self)
      rw [List.dropWhile_cons, if_neg (by simpa using hb)]
  rw [this, List.reverse_reverse]

/-- A byte that may be in a path and in a JSON string: not a control character. -/
def NotControl (b : UInt8) : Prop := 32 ≤ b

theorem tr_ok {b : UInt8} (h : NotControl b) : (Piece.plain (trByte b)).ok = true ∧ trByte b ≠ 10 := by
  have : ∀ n : Fin 256, 32 ≤ UInt8.ofNat n.val →
      (Piece.plain (trByte (UInt8.ofNat n.val))).ok = true ∧ trByte (UInt8.ofNat n.val) ≠ 10 := by
    decide +kernel
  have hb := this ⟨b.toNat, b.toNat_lt⟩
  simp only [UInt8.ofNat_toNat] at hb
  exact hb h

theorem errText_length {backend : Bytes} (h : ∀ b ∈ backend, NotControl b) :
    (errText backend).length = 47 + backend.length := by
  unfold errText
  rw [strip_plain]
  · have h1 : errHead.length = 11 := by decide +kernel
    have h2 : errTail.length = 36 := by decide +kernel
    simp only [List.length_append, List.length_map, h1, h2]
    omega
  · intro b hb
    obtain ⟨x, hx, rfl⟩ := List.mem_map.1 hb
    exact (tr_ok (h x hx)).2

/-- A JSON object with one member, a string; there is a space after the colon. -/
def IsErrorObject (text : Bytes) : Prop :=
  ∃ msg : List Piece, (∀ p ∈ msg, p.ok = true) ∧
    text = bytesOf "{\"error\": " ++ strText msg ++ bytesOf "}"

theorem plain_text (s : Bytes) : ((s.map Piece.plain).map Piece.text).flatten = s := by
  induction s with
  | nil => rfl
  | cons b s ih =>
    simp only [List.map_cons, List.flatten_cons, ih]
    rfl

theorem errText_json {backend : Bytes} (h : ∀ b ∈ backend, NotControl b) :
    IsErrorObject (errText backend) := by
  refine ⟨(backend.map trByte ++ bytesOf ": file not found or not executable").map .plain, ?_, ?_⟩
  · intro p hp
    obtain ⟨b, hb, rfl⟩ := List.mem_map.1 hp
    rcases List.mem_append.1 hb with hb | hb
    · obtain ⟨x, hx, rfl⟩ := List.mem_map.1 hb
      exact (tr_ok (h x hx)).1
    · have : ∀ b ∈ bytesOf ": file not found or not executable",
          (Piece.plain b).ok = true := by decide +kernel
      exact this b hb
  · unfold errText strText
    rw [strip_plain, plain_text]
    · have h1 : errHead = bytesOf "{\"error\": " ++ [34] := by decide +kernel
      have h2 : errTail = bytesOf ": file not found or not executable" ++ ([34] ++ bytesOf "}") := by
        decide +kernel
      rw [h1, h2]
      simp only [List.append_assoc, List.cons_append, List.nil_append]
    · intro b hb
      obtain ⟨x, hx, rfl⟩ := List.mem_map.1 hb
      exact (tr_ok (h x hx)).2

theorem output_short {count : Bytes → Nat} {backend : Bytes}
    (h1 : 16 ≤ count (errText backend)) (h2 : count (errText backend) < 256) :
    failureOutput count backend =
      [UInt8.ofNat (count (errText backend)), 0, 0, 0] ++ errText backend := by
  unfold failureOutput
  simp only
  rw [hexDigits_two h1 h2]
  have := printfX_two (a := count (errText backend) / 16) (b := count (errText backend) % 16)
    (by omega) (by omega) zeros
  simp only [List.cons_append, List.nil_append]
  rw [this, printfX_zeros]
  have e : count (errText backend) / 16 * 16 + count (errText backend) % 16 =
    count (errText backend) := by omega
  rw [e]
  rfl

/-- **C48 (part).** With a shell that counts bytes, for a path of at most 208 bytes without control
characters, the wrapper prints one frame and its contents are a JSON object with an error. -/
theorem c48_frame_partial {backend : Bytes} (h : ∀ b ∈ backend, NotControl b)
    (hlen : backend.length ≤ 208) :
    ∃ m, failureOutput List.length backend = frame m ∧ IsErrorObject m := by
  refine ⟨errText backend, ?_, errText_json h⟩
  have hl := errText_length h
  rw [output_short (by omega) (by omega)]
  unfold frame le32
  have e1 : (errText backend).length % 256 = (errText backend).length := by omega
  have e2 : (errText backend).length / 256 % 256 = 0 := by omega
  have e3 : (errText backend).length / 65536 % 256 = 0 := by omega
  have e4 : (errText backend).length / 16777216 % 256 = 0 := by omega
  rw [e1, e2, e3, e4]
  rfl

/-- **C48 (part).** The same for a shell that counts characters, for a path of ASCII characters. -/
theorem c48_ascii_partial {backend : Bytes} (h : ∀ b ∈ backend, NotControl b ∧ b < 128)
    (hlen : backend.length ≤ 208) :
    ∃ m, failureOutput utf8Count backend = frame m ∧ IsErrorObject m := by
  have hc : utf8Count (errText backend) = (errText backend).length := by
    unfold utf8Count
    rw [List.countP_eq_length]
    intro b hb
    have hlt : b < 128 := by
      unfold errText at hb
      rw [strip_plain (by
        intro b hb
        obtain ⟨x, hx, rfl⟩ := List.mem_map.1 hb
        exact (tr_ok (h x hx).1).2)] at hb
      rcases List.mem_append.1 hb with hb | hb
      · rcases List.mem_append.1 hb with hb | hb
        · have : ∀ b ∈ errHead, b < 128 := by decide +kernel
          exact this b hb
        · obtain ⟨x, hx, rfl⟩ := List.mem_map.1 hb
          unfold trByte
          split
          · decide
          · split
            · decide
            · exact (h x hx).2
      · have : ∀ b ∈ errTail, b < 128 := by decide +kernel
        exact this b hb
    have hd : ¬ (128 ≤ b) := by
      rw [UInt8.le_iff_toNat_le]
      rw [UInt8.lt_iff_toNat_lt] at hlt
      exact Nat.not_le.2 hlt
    simp [hd]
  obtain ⟨m, h1, h2⟩ := c48_frame_partial (fun b hb => (h b hb).1) hlen
  refine ⟨m, ?_, h2⟩
  rw [← h1]
  unfold failureOutput
  simp only [hc]

/-- **C48 fails** for longer paths: what is printed is not a frame with any contents. -/
theorem c48_violation_long {backend : Bytes} (h : ∀ b ∈ backend, NotControl b)
    (h1 : 209 ≤ backend.length) (h2 : backend.length < 4049) (m : Bytes) :
    failureOutput List.length backend ≠ frame m := by
  have hl := errText_length h
  generalize he : errText backend = err at *
  have hn1 : 256 ≤ err.length := by omega
  have hn2 : err.length < 4096 := by omega
  intro hf
  have hout : failureOutput List.length backend =
      UInt8.ofNat (err.length / 16) :: UInt8.ofNat (hexChar (err.length % 16)).toNat :: 0 :: 0 ::
        0 :: err := by
    unfold failureOutput
    simp only
    rw [he, hexDigits_three hn1 hn2]
    simp only [List.cons_append, List.nil_append]
    rw [printfX_two (by omega) (by omega), printfX_plain (hexChar_ne (by omega)), printfX_zeros]
    have e : err.length / 16 / 16 * 16 + err.length / 16 % 16 = err.length / 16 := by omega
    rw [e]
    rfl
  rw [hout] at hf
  unfold frame le32 at hf
  simp only [List.cons_append, List.nil_append, List.cons.injEq] at hf
  obtain ⟨f1, f2, f3, f4, f5⟩ := hf
  have hm : m.length = err.length + 1 := by rw [← f5]; rfl
  have hg := hexChar_ge (n := err.length % 16) (by omega)
  have f2' := congrArg UInt8.toNat f2
  simp only [UInt8.toNat_ofNat'] at f2'
  rw [hm] at f2'
  rw [Nat.mod_eq_of_lt (by omega : (hexChar (err.length % 16)).toNat < 2 ^ 8)] at f2'
  omega

/-- **C48 fails** for characters of several bytes with a shell that counts characters: the frame
is cut short.  The path is `/é`. -/
theorem c48_violation_utf8 :
    ∃ tail, tail ≠ [] ∧ ∃ m, failureOutput utf8Count [47, 195, 169] = frame m ++ tail := by
  exact ⟨[125], by decide,
    (errText [47, 195, 169]).dropLast, by decide +kernel⟩

/-- **C48 fails** for control characters: the text in the frame has a line feed within a string. -/
theorem c48_violation_control :
    ¬ IsErrorObject (errText [47, 10, 97]) := by
  rintro ⟨msg, hok, ht⟩
  have h1 : errText [47, 10, 97] = bytesOf "{\"error\": " ++
      (34 :: 47 :: 10 :: 97 :: (bytesOf ": file not found or not executable\"}")) := by decide +kernel
  rw [h1, List.append_assoc] at ht
  have ht := List.append_cancel_left ht
  unfold strText at ht
  simp only [List.cons_append, List.append_assoc, List.cons.injEq, true_and] at ht
  have key : ∀ (ps : List Piece) (rest l : Bytes), (∀ p ∈ ps, p.ok = true) →
      10 :: l = (ps.map Piece.text).flatten ++ 34 :: rest → False := by
    intro ps rest l hps hl
    cases ps with
    | nil => simp at hl
    | cons p ps =>
      have hp := hps p List.mem_cons_self
      cases p with
      | plain b =>
        simp only [List.map_cons, Piece.text, List.flatten_cons, List.cons_append,
          List.cons.injEq] at hl
        rw [← hl.1] at hp
        revert hp
        decide
      | esc b => simp [Piece.text] at hl
      | u a b c d => simp [Piece.text] at hl
  cases msg with
  | nil => simp at ht
  | cons p ps =>
    cases p with
    | plain b =>
      simp only [List.map_cons, Piece.text, List.flatten_cons, List.cons_append, List.nil_append,
        List.cons.injEq] at ht
      exact key ps _ _ (fun p hp => hok p (List.mem_cons_of_mem _ hp)) ht.2
    | esc b => simp [Piece.text] at ht
    | u a b c d => simp [Piece.text] at ht

/-- A path with a quote and a backslash. -/
example : failureOutput List.length (bytesOf "/o\"p\\t") =
    frame (bytesOf "{\"error\": \"/o'p/t: file not found or not executable\"}") := by
  decide +kernel

end Burl.Args
