import Verif.Rpc.Decoder
import Verif.Rpc.Spec
import Verif.Frame.Lemmas
namespace Burl.Rpc
open Burl.Frame Burl.Frame.Spec Burl.Rpc.Spec

/-- Scanning `v` from `s` completes the value exactly at the last byte of `v`. -/
inductive Completes {σ : Type} (sc : Scanner σ) : σ → Bytes → Prop where
  | last {s b} : sc.step s b = .last → Completes sc s [b]
  | more {s s' b bs} : sc.step s b = .more s' → Completes sc s' bs → Completes sc s (b :: bs)

theorem Completes.pos {σ : Type} {sc : Scanner σ} {s v} (h : Completes sc s v) : 0 < v.length := by
  cases h <;> simp

theorem Completes.scan {σ : Type} {sc : Scanner σ} {s v} (h : Completes sc s v) (x y t : Bytes)
    (hx : x ++ y = v ++ t) :
    (x.length < v.length → ∃ s' v', scanBuf sc s x = .more s' ∧ v = x ++ v' ∧
      Completes sc s' v') ∧
    (v.length ≤ x.length → scanBuf sc s x = .done v.length) := by
  induction h generalizing x with
  | @last s b hs =>
    cases x with
    | nil => exact ⟨fun _ => ⟨s, [b], rfl, rfl, .last hs⟩, by simp⟩
    | cons a x =>
      simp at hx
      obtain ⟨rfl, hx⟩ := hx
      simp [scanBuf, hs]
  | @more s s' b bs hs hc ih =>
    cases x with
    | nil => exact ⟨fun _ => ⟨s, b :: bs, rfl, rfl, .more hs hc⟩, by simp⟩
    | cons a x =>
      simp at hx
      obtain ⟨rfl, hx⟩ := hx
      obtain ⟨h1, h2⟩ := ih x hx
      constructor
      · intro hl
        obtain ⟨s'', v', g1, g2, g3⟩ := h1 (by simpa using hl)
        exact ⟨s'', v', by simp [scanBuf, hs, g1], by simp [g2], g3⟩
      · intro hl
        simp [scanBuf, hs, h2 (by simpa using hl)]

theorem Src.read_sched (s : Src) (k : Nat) (h : s.sched = []) : (s.read k).1.sched = [] := by
  obtain ⟨data, sched, fin⟩ := s
  simp only at h
  subst h
  cases data <;> simp [Src.read]

theorem Reader.read_sched (r : Reader) (k : Nat) (h : r.src.sched = []) :
    (r.read k).1.src.sched = [] := by
  unfold Reader.read
  split
  · exact h
  · split
    · exact h
    · exact Src.read_sched _ _ h

theorem readFullLoop_sched (fuel need : Nat) (r : Reader) (acc : Bytes) (h : r.src.sched = []) :
    (readFullLoop fuel r need acc).1.src.sched = [] := by
  induction fuel generalizing r need acc with
  | zero => exact h
  | succ fuel ih =>
    unfold readFullLoop
    split
    · exact h
    · have hr := Reader.read_sched r need h
      split
      · rename_i h1; rw [h1] at hr; exact ih _ _ _ hr
      · rename_i h1
        rw [h1] at hr
        split
        · exact hr
        · split <;> exact hr

theorem readHeader_sched (r : Reader) (h : r.src.sched = []) :
    r.readHeader.1.src.sched = [] := by
  unfold Reader.readHeader
  split
  · exact h
  · have h2 := readFullLoop_sched 4 4 ⟨r.src, 4⟩ [] h
    simp only [readFull]
    split
    · rename_i h1; rw [h1] at h2; exact h2
    · rename_i h1
      rw [h1] at h2
      split
      · exact h2
      · exact h2

/-- `Reader.read_pos` with the exact amount when there are no short reads. -/
theorem Reader.read_full (r : Reader) (k : Nat) (hk : 0 < k) (hn : 0 < r.n)
    (hd : r.src.data ≠ []) :
    ∃ m sched', 1 ≤ m ∧ m ≤ r.n ∧ m ≤ k ∧ m ≤ r.src.data.length ∧
      (r.src.sched = [] → sched' = [] ∧ m = min (min k r.n) r.src.data.length) ∧
      r.read k = (⟨⟨r.src.data.drop m, sched', r.src.fin⟩, r.n - m⟩, r.src.data.take m, none) := by
  obtain ⟨m, sched', h1, h2, h3, h4⟩ := Reader.read_pos r k hk hn hd
  have hlen : (r.read k).2.1.length ≤ k ∧
      (r.src.sched = [] → (r.read k).2.1.length = min (min k r.n) r.src.data.length) := by
    unfold Reader.read
    rw [if_neg (by omega), if_neg (by omega)]
    obtain ⟨⟨data, sched, fin⟩, n⟩ := r
    cases data with
    | nil => exact absurd rfl hd
    | cons a t =>
      cases sched with
      | nil =>
        simp only [Src.read]
        rw [List.length_take]
        exact ⟨by omega, fun _ => rfl⟩
      | cons c cs =>
        simp only [Src.read]
        rw [List.length_take]
        refine ⟨?_, by simp⟩
        simp only at hn
        omega
  have hs := Reader.read_sched r k
  rw [h4] at hlen hs
  simp only [List.length_take] at hlen hs
  exact ⟨m, sched', h1, h2, by omega, h3, fun h => ⟨hs h, by have := hlen.2 h; omega⟩, h4⟩

/-- Main lemma about the decoder: the current frame still holds the rest of `v ++ t` where `v`
completes a value. -/
theorem readValue_spec {σ : Type} (sc : Scanner σ) (v t rest : Bytes) :
    ∀ (m fuel : Nat) (s : σ) (pre v' : Bytes) (j cap : Nat) (sched : List Nat) (fin : SrcErr),
    v = pre ++ v' → Completes sc s v' → pre.length ≤ j → j ≤ v.length + t.length →
    v.length + t.length - j ≤ m → m + 2 ≤ fuel → j ≤ cap →
    ∃ i sched' cap', i ≤ t.length ∧ i ≤ cap' ∧
      readValue sc fuel s pre.length none ⟨(v ++ t).take j, cap⟩
        ⟨⟨(v ++ t).drop j ++ rest, sched, fin⟩, v.length + t.length - j⟩ =
      (⟨t.take i, cap'⟩, ⟨⟨t.drop i ++ rest, sched', fin⟩, t.length - i⟩, .ok v) ∧
      (sched = [] → sched' = []) ∧
      (sched = [] → v.length + t.length - j ≤ 512 → (j < v.length ∨ j = v.length + t.length) →
        i = t.length) ∧
      (j = v.length → i = 0) ∧
      (sched = [] → j < v.length → v.length = (if cap - j < 512 then 2 * cap + 512 else cap) →
        i = 0) := by
  intro m
  induction m with
  | zero =>
    intro fuel s pre v' j cap sched fin hv hc hj hj2 hm hf hcap
    match fuel, hf with
    | fuel + 1, _ =>
    have hjj : j = v.length + t.length := by omega
    have hbuf : (v ++ t).take j = v ++ t := by
      rw [List.take_of_length_le]; simp; omega
    have hscan := (hc.scan (v' ++ t) [] t (by simp)).2 (by simp)
    refine ⟨t.length, sched, cap, by omega, by omega, ?_, by simp, by simp, by omega, by omega⟩
    unfold readValue
    have hd : ((v ++ t).take j).drop pre.length = v' ++ t := by
      rw [hbuf, hv, List.append_assoc, List.drop_left]
    simp only [hd, hscan]
    have hl : pre.length + v'.length = v.length := by rw [hv]; simp
    rw [hl, hbuf]
    have hd2 : (v ++ t).drop j = [] := by
      rw [List.drop_of_length_le]; simp; omega
    rw [hd2]
    simp [hjj]
  | succ m ih =>
    intro fuel s pre v' j cap sched fin hv hc hj hj2 hm hf hcap
    match fuel, hf with
    | fuel + 1, hf =>
    have hd : ((v ++ t).take j).drop pre.length = (v' ++ t).take (j - pre.length) := by
      rw [List.drop_take, hv, List.append_assoc, List.drop_left]
    have hl : pre.length + v'.length = v.length := by rw [hv]; simp
    have hvt : (v' ++ t).length = v'.length + t.length := by simp
    by_cases hlt : j < v.length
    · -- need more input
      obtain ⟨s', v'', h1, h2, h3⟩ := (hc.scan ((v' ++ t).take (j - pre.length))
        ((v' ++ t).drop (j - pre.length)) t (by simp)).1
          (by rw [List.length_take, hvt]; omega)
      have hlen : ((v ++ t).take j).length = j := by
        rw [List.length_take, List.length_append]; omega
      have hpre : (v ++ t).take j = pre ++ (v' ++ t).take (j - pre.length) := by
        conv => lhs; rw [hv, List.append_assoc]
        rw [List.take_append, List.take_of_length_le hj]
      -- the new capacity
      let cap2 := if cap - j < 512 then 2 * cap + 512 else cap
      have hcap2 : cap2 = if cap - j < 512 then 2 * cap + 512 else cap := rfl
      have hc2 : 512 ≤ cap2 - j ∧ j ≤ cap2 := by
        rw [hcap2]; split <;> omega
      obtain ⟨k, sched', k1, k2, kk, k3, k5, k4⟩ := Reader.read_full
        ⟨⟨(v ++ t).drop j ++ rest, sched, fin⟩, v.length + t.length - j⟩ (cap2 - j) (by omega)
        (by simp only; omega) (by
          simp only
          intro h0
          have := congrArg List.length h0
          simp at this; omega)
      simp only at k2 k3 k4 k5
      have hk : k ≤ v.length + t.length - j := by omega
      have hvtl : (v ++ t).length = v.length + t.length := by simp
      have htk : ((v ++ t).drop j ++ rest).take k = ((v ++ t).drop j).take k := by
        rw [List.take_append_of_le_length]; rw [List.length_drop, hvtl]; omega
      have hdk : ((v ++ t).drop j ++ rest).drop k = (v ++ t).drop (j + k) ++ rest := by
        rw [List.drop_append_of_le_length, List.drop_drop]; rw [List.length_drop, hvtl]; omega
      have hvv : v = (pre ++ (v' ++ t).take (j - pre.length)) ++ v'' := by
        rw [List.append_assoc, ← h2]; exact hv
      have hprel : (pre ++ (v' ++ t).take (j - pre.length)).length = j := by
        rw [← hpre]; exact hlen
      have hih := ih fuel s' (pre ++ (v' ++ t).take (j - pre.length)) v'' (j + k) cap2 sched' fin
        hvv h3 (by omega) (by omega) (by omega) (by omega) (by omega)
      obtain ⟨i, sched'', cap', i1, i2, i3, i4, i5, i6, i7⟩ := hih
      have hdl : ((v ++ t).drop j ++ rest).length = v.length + t.length - j + rest.length := by
        simp
      rw [hdl] at k3 k5
      refine ⟨i, sched'', cap', i1, i2, ?_, ?_, ?_, by omega, ?_⟩
      · rw [hprel] at i3
        unfold readValue
        simp only [hd, h1, Decoder.refill, hlen, ← hcap2, k4, htk, hdk]
        rw [← List.take_add]
        have e1 : v.length + t.length - j - k = v.length + t.length - (j + k) := by omega
        rw [e1]
        exact i3
      · intro hs
        exact i4 (k5 hs).1
      · intro hs hle _
        exact i5 (k5 hs).1 (by omega) (.inr (by have := (k5 hs).2; omega))
      · intro hs _ hcc
        rw [← hcap2] at hcc
        exact i6 (by have := (k5 hs).2; omega)
    · -- the value is complete
      have hscan := (hc.scan ((v' ++ t).take (j - pre.length))
        ((v' ++ t).drop (j - pre.length)) t (by simp)).2
          (by rw [List.length_take, hvt]; omega)
      refine ⟨j - v.length, sched, cap, by omega, by omega, ?_, by simp, by omega, by omega, by omega⟩
      · unfold readValue
        simp only [hd, hscan, hl]
        have e1 : ((v ++ t).take j).drop v.length = t.take (j - v.length) := by
          rw [List.drop_take, List.drop_left]
        have e2 : ((v ++ t).take j).take v.length = v := by
          rw [List.take_take, Nat.min_eq_left (by omega), List.take_left]
        have e3 : (v ++ t).drop j = t.drop (j - v.length) := by
          rw [List.drop_append, List.drop_of_length_le (by omega)]; simp
        rw [e1, e2, e3]
        congr 3
        omega

end Burl.Rpc
