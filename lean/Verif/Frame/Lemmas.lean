import Verif.Frame.Model
import Verif.Frame.Spec
/-! Lemmas about the framing model. -/
namespace Burl.Frame
open Spec

theorem putU32_eq_le32 (n : Nat) : putU32 n = le32 n := by
  simp [putU32, le32]
  refine ⟨?_, ?_, ?_, ?_⟩ <;> apply UInt8.toNat_inj.mp <;> simp

theorem le32_length (n : Nat) : (le32 n).length = 4 := rfl

theorem getU32_le32 (n : Nat) (h : n < 4294967296) : getU32 (le32 n) = n := by
  simp [getU32, le32]
  omega

theorem Src.read_spec (s : Src) (k : Nat) (hk : 0 < k) (hd : s.data ≠ []) :
    ∃ n sched', 1 ≤ n ∧ n ≤ k ∧
      s.read k = (⟨s.data.drop n, sched', s.fin⟩, s.data.take n, none) := by
  obtain ⟨data, sched, fin⟩ := s
  cases data with
  | nil => exact absurd rfl hd
  | cons a t =>
    simp only [Src.read]
    cases sched with
    | nil => exact ⟨k, [], hk, Nat.le_refl _, rfl⟩
    | cons c cs => exact ⟨max 1 (min c k), cs, by omega, by omega, rfl⟩

theorem Src.read_nil (s : Src) (k : Nat) (hd : s.data = []) :
    s.read k = (s, [], some s.fin) := by
  obtain ⟨data, sched, fin⟩ := s
  subst hd; rfl

/-- Error of `io.ReadFull` when the stream ends early. -/
def shortErr (got : Nat) (fin : SrcErr) : RErr :=
  if got > 0 ∧ fin = .eof then .unexpectedEof else .src fin

theorem readFullLoop_enough (fuel need : Nat) (r : Reader) (acc : Bytes)
    (hf : need ≤ fuel) (hn : r.n = need) (hd : need ≤ r.src.data.length) :
    ∃ sched', readFullLoop fuel r need acc =
      (⟨⟨r.src.data.drop need, sched', r.src.fin⟩, 0⟩, acc ++ r.src.data.take need, none) := by
  induction fuel generalizing need r acc with
  | zero =>
    obtain rfl : need = 0 := by omega
    refine ⟨r.src.sched, ?_⟩
    obtain ⟨⟨d, s, f⟩, n⟩ := r
    simp at hn
    simp [readFullLoop, hn]
  | succ fuel ih =>
    unfold readFullLoop
    by_cases h0 : need = 0
    · subst h0
      refine ⟨r.src.sched, ?_⟩
      obtain ⟨⟨d, s, f⟩, n⟩ := r
      simp at hn
      simp [hn]
    · rw [if_neg h0]
      have hne : r.src.data ≠ [] := by intro h; rw [h] at hd; simp at hd; omega
      have hr : r.read need = (let (s, b, e) := r.src.read need
          ({ src := s, n := r.n - b.length }, b, e)) := by
        unfold Reader.read
        rw [if_neg (by omega), if_neg h0, show min need r.n = need by omega]
      obtain ⟨m, sch, h1, h2, h3⟩ := Src.read_spec r.src need (by omega) hne
      rw [h3] at hr
      simp only at hr
      rw [hr]
      simp only
      have hl : (List.take m r.src.data).length = m := by simp; omega
      obtain ⟨sch', h4⟩ := ih (need - m) ⟨⟨r.src.data.drop m, sch, r.src.fin⟩, r.n - m⟩
        (acc ++ r.src.data.take m) (by omega) (by simp; omega) (by simp; omega)
      rw [hl, h4]
      refine ⟨sch', ?_⟩
      simp only [List.drop_drop, List.append_assoc, ← List.take_add]
      rw [show m + (need - m) = need by omega]

theorem readFullLoop_short (fuel need : Nat) (r : Reader) (acc : Bytes)
    (hf : need ≤ fuel) (hn : r.n = need) (hd : r.src.data.length < need) :
    ∃ sched', readFullLoop fuel r need acc =
      (⟨⟨[], sched', r.src.fin⟩, need - r.src.data.length⟩, acc ++ r.src.data,
        some (shortErr (acc ++ r.src.data).length r.src.fin)) := by
  induction fuel generalizing need r acc with
  | zero => omega
  | succ fuel ih =>
    unfold readFullLoop
    rw [if_neg (by omega)]
    have hr : r.read need = (let (s, b, e) := r.src.read need
        ({ src := s, n := r.n - b.length }, b, e)) := by
      unfold Reader.read
      rw [if_neg (by omega), if_neg (by omega), show min need r.n = need by omega]
    by_cases hne : r.src.data = []
    · rw [Src.read_nil _ _ hne] at hr
      simp only at hr
      rw [hr]
      refine ⟨r.src.sched, ?_⟩
      obtain ⟨⟨d, s, f⟩, n⟩ := r
      simp at hne hn
      subst hne hn
      simp only [List.length_nil, Nat.le_zero_eq]
      rw [if_neg (by omega)]
      simp only [shortErr, List.append_nil, Nat.sub_zero]
      split <;> rfl
    · obtain ⟨m, sch, h1, h2, h3⟩ := Src.read_spec r.src need (by omega) hne
      rw [h3] at hr
      simp only at hr
      rw [hr]
      simp only
      have hpos : 0 < r.src.data.length := List.length_pos_iff.mpr hne
      have hl : (List.take m r.src.data).length = min m r.src.data.length := by simp
      obtain ⟨sch', h4⟩ := ih (need - min m r.src.data.length)
        ⟨⟨r.src.data.drop m, sch, r.src.fin⟩, r.n - min m r.src.data.length⟩
        (acc ++ r.src.data.take m) (by omega) (by simp; omega) (by simp; omega)
      rw [hl, h4]
      refine ⟨sch', ?_⟩
      simp only [List.append_assoc, List.take_append_drop, List.length_drop]
      congr 2
      omega

theorem readHeader_ok (r : Reader) (hn : r.n = 0) (size : Nat) (rest : Bytes)
    (hs : size < 4294967296) (hd : r.src.data = le32 size ++ rest) :
    ∃ sched', r.readHeader =
      if size > maxInSize then (⟨⟨rest, sched', r.src.fin⟩, 0⟩, some .tooLarge)
      else (⟨⟨rest, sched', r.src.fin⟩, size⟩, none) := by
  obtain ⟨sch, h⟩ := readFullLoop_enough 4 4 { r with n := 4 } [] (Nat.le_refl _) rfl
    (by rw [hd]; simp [le32_length])
  refine ⟨sch, ?_⟩
  unfold Reader.readHeader readFull
  rw [if_neg (by simp [hn])]
  simp only at h ⊢
  rw [h, hd]
  have : List.take 4 (le32 size ++ rest) = le32 size := by simp [le32]
  have h2 : List.drop 4 (le32 size ++ rest) = rest := by simp [le32]
  simp only [List.nil_append, this, h2, getU32_le32 size hs]

theorem readHeader_short (r : Reader) (hn : r.n = 0) (hd : r.src.data.length < 4) :
    ∃ sched', r.readHeader =
      (⟨⟨[], sched', r.src.fin⟩, 4 - r.src.data.length⟩,
        some (shortErr r.src.data.length r.src.fin)) := by
  obtain ⟨sch, h⟩ := readFullLoop_short 4 4 { r with n := 4 } [] (Nat.le_refl _) rfl hd
  refine ⟨sch, ?_⟩
  unfold Reader.readHeader readFull
  rw [if_neg (by simp [hn])]
  simp only at h ⊢
  rw [h]
  simp

theorem Reader.read_pos (r : Reader) (k : Nat) (hk : 0 < k) (hn : 0 < r.n)
    (hd : r.src.data ≠ []) :
    ∃ m sched', 1 ≤ m ∧ m ≤ r.n ∧ m ≤ r.src.data.length ∧
      r.read k = (⟨⟨r.src.data.drop m, sched', r.src.fin⟩, r.n - m⟩, r.src.data.take m, none) := by
  obtain ⟨m, sch, h1, h2, h3⟩ := Src.read_spec r.src (min k r.n) (by omega) hd
  have hpos : 0 < r.src.data.length := List.length_pos_iff.mpr hd
  refine ⟨min m r.src.data.length, sch, by omega, by omega, by omega, ?_⟩
  unfold Reader.read
  rw [if_neg (by omega), if_neg (by omega)]
  simp only [h3]
  have e1 : List.take m r.src.data = List.take (min m r.src.data.length) r.src.data := by
    rw [List.take_eq_take_min]
  have e2 : List.drop m r.src.data = List.drop (min m r.src.data.length) r.src.data := by
    by_cases h : m ≤ r.src.data.length
    · rw [Nat.min_eq_left h]
    · rw [Nat.min_eq_right (by omega), List.drop_of_length_le (by omega), List.drop_length]
  rw [e1, e2]
  simp

theorem Reader.read_end (r : Reader) (k : Nat) (hk : 0 < k) (hn : 0 < r.n)
    (hd : r.src.data = []) : r.read k = (r, [], some r.src.fin) := by
  unfold Reader.read
  rw [if_neg (by omega), if_neg (by omega)]
  simp only [Src.read_nil _ _ hd]
  simp

theorem Reader.read_zero (r : Reader) (k : Nat) (hn : r.n = 0) :
    r.read k = (r, [], some .eof) := by
  unfold Reader.read; rw [if_pos hn]

theorem drain_spec (fuel : Nat) (bufs : List Nat) (r : Reader) (acc : Bytes) (hf : r.n < fuel) :
    ∃ sched' bufs', drain fuel bufs r acc =
      (⟨⟨r.src.data.drop r.n, sched', r.src.fin⟩, r.n - r.src.data.length⟩,
        acc ++ r.src.data.take r.n, bufs') := by
  induction fuel generalizing bufs r acc with
  | zero => omega
  | succ fuel ih =>
    unfold drain
    by_cases h0 : r.n = 0
    · rw [Reader.read_zero _ _ h0]
      refine ⟨r.src.sched, bufs.tail, ?_⟩
      obtain ⟨⟨d, s, f⟩, n⟩ := r
      simp at h0
      simp [h0]
    · by_cases hd : r.src.data = []
      · rw [Reader.read_end _ _ (by omega) (by omega) hd]
        refine ⟨r.src.sched, bufs.tail, ?_⟩
        obtain ⟨⟨d, s, f⟩, n⟩ := r
        simp at hd
        simp [hd]
      · obtain ⟨m, sch, h1, h2, h2', h3⟩ := Reader.read_pos r (max 1 (bufs.headD 512)) (by omega)
          (by omega) hd
        rw [h3]
        simp only
        obtain ⟨sch', bufs', h4⟩ := ih bufs.tail ⟨⟨r.src.data.drop m, sch, r.src.fin⟩, r.n - m⟩
          (acc ++ r.src.data.take m) (by simp; omega)
        rw [h4]
        refine ⟨sch', bufs', ?_⟩
        simp only [List.drop_drop, List.append_assoc, ← List.take_add, List.length_drop]
        rw [show m + (r.n - m) = r.n by omega,
          show r.n - m - (r.src.data.length - m) = r.n - r.src.data.length by omega]

/-- How the receiver's stop reason reads in the specification's terms (stream ended by EOF). -/
def stopOf : Stop → StopReason
  | .eof => .header (.src .eof)
  | .headerCut => .header .unexpectedEof
  | .bodyCut => .shortBody

theorem recvLoop_cut (ms : List Bytes) (fuel k : Nat) (bufs : List Nat) (sched : List Nat)
    (hms : ∀ m ∈ ms, m.length ≤ maxInSize) (hf : k < fuel) (hk : k ≤ (stream ms).length) :
    recvLoop fuel bufs ⟨⟨(stream ms).take k, sched, .eof⟩, 0⟩ =
      ((delivered k ms).1, stopOf (delivered k ms).2) := by
  induction ms generalizing fuel k bufs sched with
  | nil =>
    cases fuel with
    | zero => omega
    | succ fuel =>
      simp [stream] at hk
      subst hk
      obtain ⟨s', h⟩ := readHeader_short ⟨⟨[], sched, .eof⟩, 0⟩ rfl (by simp)
      simp only [recvLoop, stream, List.map_nil, List.flatten_nil, List.take_nil, delivered, stopOf]
      rw [h]
      simp [shortErr]
  | cons m ms ih =>
    cases fuel with
    | zero => omega
    | succ fuel =>
      have hst : stream (m :: ms) = le32 m.length ++ (m ++ stream ms) := by
        simp [stream, frame]
      have hlen : (stream (m :: ms)).length = 4 + m.length + (stream ms).length := by
        rw [hst]; simp [le32_length]; omega
      have hm := hms m (by simp)
      unfold recvLoop delivered
      by_cases hk0 : k = 0
      · subst hk0
        obtain ⟨s', h⟩ := readHeader_short ⟨⟨[], sched, .eof⟩, 0⟩ rfl (by simp)
        simp only [List.take_zero]
        rw [h]
        simp [shortErr, stopOf]
      · rw [if_neg hk0]
        by_cases hk4 : k < 4
        · have hl : (List.take k (stream (m :: ms))).length = k := by simp; omega
          obtain ⟨s', h⟩ := readHeader_short ⟨⟨(stream (m :: ms)).take k, sched, .eof⟩, 0⟩ rfl
            (by simp only [hl]; exact hk4)
          rw [h, if_pos hk4]
          simp only [hl, shortErr, stopOf]
          rw [if_pos ⟨by omega, trivial⟩]
        · rw [if_neg hk4]
          have htake : (stream (m :: ms)).take k = le32 m.length ++ (m ++ stream ms).take (k - 4) := by
            rw [hst, List.take_append, List.take_of_length_le (by simp [le32_length]; omega)]
            rfl
          obtain ⟨s', h⟩ := readHeader_ok ⟨⟨(stream (m :: ms)).take k, sched, .eof⟩, 0⟩ rfl
            m.length ((m ++ stream ms).take (k - 4)) (by simp [maxInSize] at hm; omega) htake
          rw [h, if_neg (by omega)]
          simp only
          obtain ⟨s'', bufs', h2⟩ := drain_spec (m.length + 1) bufs
            ⟨⟨(m ++ stream ms).take (k - 4), s', .eof⟩, m.length⟩ [] (by simp)
          rw [h2]
          simp only [List.length_take, List.length_append, List.nil_append]
          by_cases hkm : k < 4 + m.length
          · rw [if_pos hkm, if_pos (by omega)]; rfl
          · rw [if_neg hkm, if_neg (by omega)]
            have e1 : List.drop m.length (List.take (k - 4) (m ++ stream ms))
                = (stream ms).take (k - (4 + m.length)) := by
              rw [List.take_append, List.take_of_length_le (by omega), List.drop_left]
              congr 1; omega
            have e2 : List.take m.length (List.take (k - 4) (m ++ stream ms)) = m := by
              rw [List.take_take, Nat.min_eq_left (by omega), List.take_left]
            have e3 : m.length - min (k - 4) (m.length + (stream ms).length) = 0 := by omega
            rw [e1, e2, e3]
            rw [ih fuel (k - (4 + m.length)) bufs' s'' (fun x hx => hms x (by simp [hx])) (by omega)
              (by omega)]

theorem delivered_full (ms : List Bytes) : delivered (stream ms).length ms = (ms, .eof) := by
  induction ms with
  | nil => rfl
  | cons m ms ih =>
    have hlen : (stream (m :: ms)).length = 4 + m.length + (stream ms).length := by
      simp [stream, frame, le32_length]; omega
    unfold delivered
    rw [if_neg (by omega), if_neg (by omega), if_neg (by omega), hlen,
      show 4 + m.length + (stream ms).length - (4 + m.length) = (stream ms).length by omega, ih]

end Burl.Frame
