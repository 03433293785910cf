import Verif.Rpc.Props
/-! Texts that are not requests (C08). -/
namespace Burl.Rpc
open Burl.Frame
open Burl.Frame.Spec

theorem serve_reject {σ : Type} (sc : Scanner σ) (accept : Bytes → Bool) (fin : SrcErr)
    (ms : List Bytes) (v t rest : Bytes) (fuel cap : Nat) (sched : List Nat)
    (hm : ∀ m ∈ ms, Completes sc sc.start m ∧ accept m = true ∧ m.length ≤ maxInSize)
    (hv : Completes sc sc.start v) (ha : accept v = false) (hl : v.length + t.length ≤ maxInSize)
    (hf : ms.length < fuel) :
    serve sc accept fuel ⟨[], cap⟩ ⟨⟨stream ms ++ (frame (v ++ t) ++ rest), sched, fin⟩, 0⟩ =
      (ms, .reject) := by
  have hm30 : maxInSize = 1073741824 := by decide
  induction ms generalizing fuel cap sched with
  | nil =>
    match fuel, hf with
    | fuel + 1, hf =>
    have hstream : stream [] ++ (frame (v ++ t) ++ rest) =
        le32 (v ++ t).length ++ ((v ++ t) ++ rest) := by
      simp [stream, frame]
    have hvt : (v ++ t).length = v.length + t.length := by simp
    obtain ⟨s', hh⟩ := readHeader_ok ⟨⟨stream [] ++ (frame (v ++ t) ++ rest), sched, fin⟩, 0⟩ rfl
      (v ++ t).length ((v ++ t) ++ rest) (by omega) hstream
    rw [if_neg (by omega)] at hh
    obtain ⟨i, sched', cap', i1, i2, i3, _⟩ := readValue_spec sc v t rest (v ++ t).length
      ((v ++ t).length + 3) sc.start [] v 0 cap s' fin rfl hv (by simp) (by simp) (by simp)
      (by omega) (by simp)
    simp only [List.take_zero, List.drop_zero, Nat.sub_zero, ← hvt, List.length_nil] at i3
    unfold serve
    simp only [hh]
    rw [i3]
    simp only [ha, Bool.false_eq_true, if_false]
  | cons m ms ih =>
    match fuel, hf with
    | fuel + 1, hf =>
    obtain ⟨h1, h2, h3⟩ := hm m (by simp)
    have hstream : stream (m :: ms) ++ (frame (v ++ t) ++ rest) =
        le32 m.length ++ (m ++ (stream ms ++ (frame (v ++ t) ++ rest))) := by
      simp [stream, frame]
    obtain ⟨s', hh⟩ := readHeader_ok ⟨⟨stream (m :: ms) ++ (frame (v ++ t) ++ rest), sched, fin⟩, 0⟩
      rfl m.length (m ++ (stream ms ++ (frame (v ++ t) ++ rest))) (by omega) hstream
    rw [if_neg (by omega)] at hh
    obtain ⟨i, sched', cap', i1, i2, i3, _⟩ := readValue_spec sc m []
      (stream ms ++ (frame (v ++ t) ++ rest)) m.length
      (m.length + 3) sc.start [] m 0 cap s' fin rfl h1 (by simp) (by simp) (by simp)
      (by omega) (by simp)
    have hi : i = 0 := by simpa using i1
    subst hi
    simp at i3
    unfold serve
    simp only [hh]
    rw [i3]
    simp only [h2, if_true]
    rw [ih fuel cap' sched' (fun m' hm' => hm m' (by simp [hm'])) (by simpa using hf)]

/-- C08, any decoder: a text that is not accepted as a request ends the session, whatever follows; earlier
requests are served. -/
theorem c08_reject {σ : Type} (sc : Scanner σ) (accept : Bytes → Bool) (fin : SrcErr)
    (ms : List Bytes) (v t rest : Bytes) (sched : List Nat)
    (hm : ∀ m ∈ ms, Completes sc sc.start m ∧ accept m = true ∧ m.length ≤ 2 ^ 30)
    (hv : Completes sc sc.start v) (ha : accept v = false) (hl : v.length + t.length ≤ 2 ^ 30) :
    session sc accept ⟨stream ms ++ frame (v ++ t) ++ rest, sched, fin⟩ = (ms, .reject) := by
  unfold session
  rw [List.append_assoc]
  apply serve_reject
  · intro m h; have := hm m h; exact ⟨this.1, this.2.1, by simpa [maxInSize] using this.2.2⟩
  · exact hv
  · exact ha
  · simpa [maxInSize] using hl
  · have : ms.length ≤ (stream ms).length := by
      clear hm
      induction ms with
      | nil => simp
      | cons m ms ih => simp [stream, frame, le32] at ih ⊢; omega
    simp only [List.length_append]; omega

end Burl.Rpc
