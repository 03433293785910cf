import Verif.Scan.Model
/-! The loop of the scanner delivers lines. -/
namespace Burl.Scan
open Spec

theorem dropCR_spec (l : Bytes) : Chomped l (dropCR l) := by
  unfold dropCR
  split
  · rename_i h
    obtain ⟨t, ht⟩ := List.getLast?_eq_some_iff.1 h
    rw [ht]
    simpa using Chomped.cr
  · rename_i h
    refine .none fun t ht => h ?_
    rw [ht]; simp

theorem findIdx?_newline {data : Bytes} {i : Nat} (h : data.findIdx? (· == 10) = some i) :
    10 ∉ data.take i ∧ data = data.take i ++ 10 :: data.drop (i + 1) := by
  rw [List.findIdx?_eq_some_iff_getElem] at h
  obtain ⟨hi, he, hb⟩ := h
  constructor
  · intro hm
    obtain ⟨j, hj, e⟩ := List.mem_iff_getElem.1 hm
    simp only [List.length_take] at hj
    have := hb j (by omega)
    rw [List.getElem_take] at e
    simp [e] at this
  · have e : data[i] = 10 := by simpa using he
    rw [← e, ← List.drop_eq_getElem_cons hi, List.take_append_drop]

theorem findIdx?_none {data : Bytes} (h : data.findIdx? (· == 10) = none) : 10 ∉ data := by
  rw [List.findIdx?_eq_none_iff] at h
  intro hm
  have := h 10 hm
  simp at this

theorem lines_cons {l rest : Bytes} (hl : 10 ∉ l) {ls : List Bytes}
    (h : Lines (l ++ 10 :: rest) ls) : ∃ ls', ls = l :: ls' ∧ Lines rest ls' := by
  generalize hc : l ++ 10 :: rest = c at h
  cases h with
  | nil => simp at hc
  | last _ h2 => rw [← hc] at h2; simp at h2
  | @cons l2 rest2 ls2 h1 h2 =>
    have : l = l2 ∧ rest = rest2 := by
      clear h2
      induction l generalizing l2 with
      | nil =>
        cases l2 with
        | nil => simpa using hc
        | cons a as =>
          simp only [List.nil_append, List.cons_append, List.cons.injEq] at hc
          simp [hc.1] at h1
      | cons b bs ih =>
        cases l2 with
        | nil =>
          simp only [List.nil_append, List.cons_append, List.cons.injEq] at hc
          simp [hc.1] at hl
        | cons a as =>
          simp only [List.cons_append, List.cons.injEq] at hc
          simp only [List.mem_cons, not_or] at h1 hl
          obtain ⟨e1, e2⟩ := ih hl.2 h1.2 hc.2
          exact ⟨by rw [hc.1, e1], e2⟩
    obtain ⟨rfl, rfl⟩ := this
    exact ⟨ls2, rfl, h2⟩

theorem lines_last {l : Bytes} (hl : 10 ∉ l) (hne : l ≠ []) {ls : List Bytes} (h : Lines l ls) :
    ls = [l] := by
  cases h with
  | nil => exact absurd rfl hne
  | last _ _ => rfl
  | cons _ _ => simp at hl

theorem lines_nil {ls : List Bytes} (h : Lines [] ls) : ls = [] := by
  generalize hc : ([] : Bytes) = c at h
  cases h with
  | nil => rfl
  | last h1 _ => exact absurd hc.symm h1
  | cons _ _ => simp at hc

/-- A beginning without newlines is a part of the first line. -/
theorem lines_long {data rest : Bytes} (hd : 10 ∉ data) (hne : data ≠ []) {ls : List Bytes}
    (h : Lines (data ++ rest) ls) : ∃ l ls', ls = l :: ls' ∧ data.length ≤ l.length := by
  generalize hc : data ++ rest = c at h
  cases h with
  | nil => simp at hc; exact absurd hc.1 hne
  | @last l h1 h2 => exact ⟨_, [], rfl, by rw [← hc]; simp⟩
  | @cons l rest2 ls2 h1 h2 =>
    refine ⟨l, ls2, rfl, ?_⟩
    by_cases hlt : data.length ≤ l.length
    · exact hlt
    · exfalso
      apply hd
      have e : (data ++ rest)[l.length]? = (l ++ 10 :: rest2)[l.length]? := by rw [hc]
      rw [List.getElem?_append_left (by omega), List.getElem?_append_right (by omega)] at e
      simp only [Nat.sub_self, List.getElem?_cons_zero] at e
      exact List.mem_of_getElem? e

/-- A long line is a beginning of the text. -/
theorem lines_exists (c : Bytes) : ∃ ls, Lines c ls := by
  induction hn : c.length using Nat.strongRecOn generalizing c with
  | ind n ih =>
    cases hf : c.findIdx? (· == 10) with
    | none =>
      by_cases hc : c = []
      · subst hc; exact ⟨[], .nil⟩
      · exact ⟨[c], .last hc (findIdx?_none hf)⟩
    | some i =>
      obtain ⟨h1, h2⟩ := findIdx?_newline hf
      have hlen : (c.drop (i + 1)).length < n := by
        have := congrArg List.length h2
        simp only [List.length_append, List.length_cons] at this
        omega
      obtain ⟨ls, hl⟩ := ih _ hlen _ rfl
      refine ⟨c.take i :: ls, ?_⟩
      rw [h2]
      have : (c.take i ++ 10 :: c.drop (i + 1)).take i = c.take i := by rw [← h2]
      rw [this]
      exact .cons h1 hl

theorem lines_unique {c : Bytes} {ls ls' : List Bytes} (h : Lines c ls) (h' : Lines c ls') :
    ls = ls' := by
  induction h generalizing ls' with
  | nil => exact (lines_nil h').symm
  | last h1 h2 => exact (lines_last h2 h1 h').symm
  | cons h1 _ ih =>
    obtain ⟨l2, rfl, h3⟩ := lines_cons h1 h'
    rw [ih h3]

/-- Expected errors. -/
def finalErr (fault : Option Unit) : ScanErr := match fault with | none => .eof | some _ => .read

structure Inv (s : State) : Prop where
  room : s.start + s.data.length ≤ s.cap
  cap : s.cap ≤ maxTokenSize
  stopped : s.stopped = false
  err : s.err = none ∨ (s.err = some (finalErr s.file.fault) ∧ s.file.rest = [] ∧
    s.data.length < maxTokenSize)

/-- Remaining work. -/
def measure (s : State) : Nat :=
  2 * s.file.rest.length + s.data.length + (if s.err = none then 1 else 0)

theorem shift_start (s : State) : (shift s).data = s.data ∧ (shift s).cap = s.cap ∧
    (shift s).err = s.err ∧ (shift s).file = s.file ∧ (shift s).tokens = s.tokens ∧
    (shift s).stopped = s.stopped ∧ ((shift s).start = s.start ∨ (shift s).start = 0) ∧
    (s.start + s.data.length ≤ s.cap → (shift s).start + s.data.length = s.cap →
      (shift s).start = 0) := by
  unfold shift
  split
  · exact ⟨rfl, rfl, rfl, rfl, rfl, rfl, .inr rfl, fun _ _ => rfl⟩
  · rename_i h
    refine ⟨rfl, rfl, rfl, rfl, rfl, rfl, .inl rfl, fun h1 h2 => ?_⟩
    by_cases h0 : s.start = 0
    · exact h0
    · exact absurd ⟨by omega, .inl h2⟩ h

/-- What reading more gives when there is no error yet. -/
theorem fill_spec (choice : Nat → Nat) {s : State} (h : Inv s) (he : s.err = none) :
    ((fill choice s).stopped = true ∧ s.data.length = maxTokenSize ∧
      (fill choice s).err = some .tooLong ∧ (fill choice s).tokens = s.tokens) ∨
    (Inv (fill choice s) ∧ (fill choice s).tokens = s.tokens ∧
      (fill choice s).file.fault = s.file.fault ∧
      (fill choice s).data ++ (fill choice s).file.rest = s.data ++ s.file.rest ∧
      measure (fill choice s) < measure s) := by
  obtain ⟨e1, e2, e3, e4, e5, e6, e7, e8⟩ := shift_start s
  have hroom := h.room
  have hcap := h.cap
  have hfull : (shift s).full ↔ (shift s).start + s.data.length = s.cap := by
    unfold State.full; rw [e1, e2]
  unfold fill
  rw [he]
  simp only
  split
  · rename_i hf
    left
    rw [hfull, e2] at hf
    have h0 := e8 h.room hf.1
    refine ⟨rfl, ?_, ?_, ?_⟩
    · have := h.cap; omega
    · simp [setErr, e3, he]
    · simp [setErr, e3, he, e5]
  · rename_i hf
    right
    rw [hfull, e2] at hf
    generalize hs1 : grow (shift s) = s1
    have p : s1.data = s.data ∧ s1.err = none ∧ s1.file = s.file ∧ s1.tokens = s.tokens ∧
        s1.stopped = false ∧ s1.start + s1.data.length < s1.cap ∧ s1.cap ≤ maxTokenSize := by
      subst hs1
      unfold grow
      split
      · rename_i hfl
        rw [hfull] at hfl
        refine ⟨e1, by rw [← he]; exact e3, e4, e5, by rw [← h.stopped]; exact e6, ?_, ?_⟩
        · simp only [e1, e2]
          have h0 := e8 h.room hfl
          have hlt : s.cap < maxTokenSize := by
            rcases Nat.lt_or_ge s.cap maxTokenSize with hc | hc
            · exact hc
            · exact absurd ⟨hfl, hc⟩ hf
          unfold startBufSize maxTokenSize at *
          split <;> omega
        · exact Nat.min_le_right _ _
      · rename_i hfl
        rw [hfull] at hfl
        refine ⟨e1, by rw [← he]; exact e3, e4, e5, by rw [← h.stopped]; exact e6, ?_, by rw [e2]; exact h.cap⟩
        rw [e1, e2]
        rcases e7 with e7 | e7 <;> omega
    obtain ⟨p1, p2, p3, p4, p5, p6, p7⟩ := p
    unfold readMore read
    by_cases hr : s1.file.rest = []
    · rw [if_pos hr]
      simp only [List.append_nil]
      have hset : ∀ (t : State) (e : ScanErr), t.err = none → setErr t e = { t with err := some e } := by
        intro t e ht; unfold setErr; rw [ht]
      rw [hset _ _ (by exact p2)]
      simp only
      refine ⟨⟨by simp only; omega, p7, p5, .inr ⟨?_, hr, ?_⟩⟩, p4, by rw [p3], ?_, ?_⟩
      · show _ = some (finalErr s1.file.fault)
        unfold finalErr
        rcases s1.file.fault with _ | _ <;> rfl
      · simp only; omega
      · simp only [p1, p3]
      · unfold measure
        simp only [p1, p3, he]
        simp
    · rw [if_neg hr]
      simp only
      have hpos : 0 < s1.file.rest.length := List.length_pos_iff.2 hr
      refine ⟨⟨?_, p7, p5, .inl p2⟩, p4, by rw [p3], ?_, ?_⟩
      · simp only [List.length_append, List.length_take]
        omega
      · simp only [List.append_assoc, List.take_append_drop, p1, p3]
      · unfold measure
        simp only [p1, p2, p3, he, List.length_append, List.length_take, List.length_drop]
        rw [p3] at hpos
        rw [p1] at p6
        omega

theorem leading_short {n : Nat} {l : Bytes} {ls : List Bytes} (h : l.length < n) :
    leading n (l :: ls) = l :: leading n ls := by
  unfold leading
  rw [List.takeWhile_cons_of_pos (by simpa using h)]

/-- The whole loop. -/
theorem loop_spec (choice : Nat → Nat) : ∀ {s : State}, Inv s → ∀ {ls : List Bytes},
    Lines (s.data ++ s.file.rest) ls → ∃ s', Loop done (body choice) s (.ok s') ∧
      s'.tokens = s.tokens ++ (leading maxTokenSize ls).map dropCR ∧
      s'.err = some (if ∀ l ∈ ls, l.length < maxTokenSize then finalErr s.file.fault else .tooLong) := by
  intro s
  induction hn : measure s using Nat.strongRecOn generalizing s with
  | ind n ih =>
  intro h ls hl
  have hd : done s = false := h.stopped
  -- a line with a newline in the buffer
  by_cases hnl : ∃ i, s.data.findIdx? (· == 10) = some i
  · obtain ⟨i, hi⟩ := hnl
    obtain ⟨h1, h2⟩ := findIdx?_newline hi
    have hlen : i + 1 ≤ s.data.length := by
      have := congrArg List.length h2
      simp only [List.length_append, List.length_take, List.length_cons, List.length_drop] at this
      omega
    have hne : s.data ≠ [] := by
      intro h0; rw [h0] at hlen; simp at hlen
    have hb : body choice s = .ok { s with
        start := s.start + (i + 1)
        data := s.data.drop (i + 1)
        tokens := s.tokens ++ [dropCR (s.data.take i)] } := by
      unfold body bodyOf
      rw [if_pos (.inl hne)]
      unfold scanLines
      rw [if_neg (by simp [hne]), hi]
      simp only
      rw [if_neg (by omega)]
    rw [h2, List.append_assoc, List.cons_append] at hl
    obtain ⟨ls', rfl, hl'⟩ := lines_cons h1 hl
    have hshort : (s.data.take i).length < maxTokenSize := by
      have := h.room; have := h.cap
      simp only [List.length_take]; omega
    obtain ⟨s', g1, g2, g3⟩ := ih _ (by
        rw [← hn]; unfold measure; simp only [List.length_drop]; omega)
      (s := { s with
        start := s.start + (i + 1)
        data := s.data.drop (i + 1)
        tokens := s.tokens ++ [dropCR (s.data.take i)] }) rfl
      ⟨by simp only [List.length_drop]; have := h.room; omega, h.cap, h.stopped, by
        rcases h.err with h | ⟨h3, h4, h5⟩
        · exact .inl h
        · exact .inr ⟨h3, h4, by simp only [List.length_drop]; omega⟩⟩ hl'
    refine ⟨s', .step hd hb g1, ?_, ?_⟩
    · rw [g2]
      rw [leading_short hshort]; simp
    · rw [g3]
      simp only [List.mem_cons, forall_eq_or_imp, hshort, true_and]
  · have hno : s.data.findIdx? (· == 10) = none := by
      cases hf : s.data.findIdx? (· == 10) with
      | none => rfl
      | some i => exact absurd ⟨i, hf⟩ hnl
    have hno' := findIdx?_none hno
    rcases h.err with he | ⟨he, hr, hlt⟩
    · -- read more
      have hb : body choice s = .ok (fill choice s) := by
        unfold body bodyOf
        split
        · unfold scanLines
          rw [if_neg (by simp [he]), hno]
          simp only [he, Option.isSome_none, Bool.false_eq_true, if_false, Nat.not_lt_zero,
            gt_iff_lt, Nat.add_zero, List.drop_zero]
          rw [← he]
        · rfl
      rcases fill_spec choice h he with ⟨f1, f2, f3, f4⟩ | ⟨f1, f2, f3, f4, f5⟩
      · refine ⟨_, .step hd hb (.done f1), ?_, ?_⟩
        · rw [f4]
          have hne : s.data ≠ [] := by
            intro h0; rw [h0] at f2; simp [maxTokenSize] at f2
          obtain ⟨l, ls', rfl, hlong⟩ := lines_long hno' hne hl
          have : ¬l.length < maxTokenSize := by omega
          simp [leading, this]
        · rw [f3]
          have hne : s.data ≠ [] := by
            intro h0; rw [h0] at f2; simp [maxTokenSize] at f2
          obtain ⟨l, ls', rfl, hlong⟩ := lines_long hno' hne hl
          have : ¬l.length < maxTokenSize := by omega
          rw [if_neg (by simp [this])]
      · obtain ⟨s', g1, g2, g3⟩ := ih _ (by omega) rfl f1 (by rw [f4]; exact hl)
        exact ⟨s', .step hd hb g1, by rw [g2, f2], by rw [g3, f3]⟩
    · -- the end
      rw [hr, List.append_nil] at hl
      by_cases hdata : s.data = []
      · rw [hdata] at hl
        have := lines_nil hl
        subst this
        have hb : body choice s = .ok { s with start := 0, data := [], stopped := true } := by
          unfold body bodyOf
          rw [if_pos (.inr (by simp [he]))]
          unfold scanLines
          rw [if_pos (by simp [he, hdata])]
          simp [fill, he]
        exact ⟨_, .step hd hb (.done rfl), by simp [leading], by simp [he]⟩
      · have := lines_last hno' hdata hl
        subst this
        have hb : body choice s = .ok { s with
            start := s.start + s.data.length
            data := []
            tokens := s.tokens ++ [dropCR s.data] } := by
          unfold body bodyOf
          rw [if_pos (.inl hdata)]
          unfold scanLines
          rw [if_neg (by simp [hdata]), hno]
          simp [he]
        obtain ⟨s', g1, g2, g3⟩ := ih _ (by
            rw [← hn]; unfold measure
            have := List.length_pos_iff.2 hdata
            simp only [List.length_nil]; omega)
          (s := { s with
            start := s.start + s.data.length
            data := []
            tokens := s.tokens ++ [dropCR s.data] }) rfl
          ⟨by simp only [List.length_nil]; exact h.room, h.cap, h.stopped,
            .inr ⟨he, hr, by simp [maxTokenSize]⟩⟩ (ls := [])
          (by simp only [hr, List.append_nil]; exact .nil)
        refine ⟨s', .step hd hb g1, ?_, ?_⟩
        · rw [g2]; simp [leading, hlt]
        · rw [g3]; simp [hlt]

end Burl.Scan
