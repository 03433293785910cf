import Verif.Rpc.Props
/-! Requests of any sizes with something after them in their frames (C08): exactly when sessions go on
if the pipe does not split frames. -/
namespace Burl.Rpc
open Burl.Frame Burl.Frame.Spec Burl.Rpc.Spec

namespace Spec

/-- The size of the buffer of the decoder (`encoding/json`) when the next part is read: `c` is the
size before and `j` bytes are there. -/
def larger (c j : Nat) : Nat := if c - j < 512 then 2 * c + 512 else c

/-- The size of the buffer when the first `n` bytes have been read, if each read fills it: it is `r`
if it has been `c` with `j` bytes in it. -/
inductive Grows : Nat → Nat → Nat → Nat → Prop
  | last {c j n : Nat} (h : n ≤ larger c j) : Grows c j n (larger c j)
  | more {c j n r : Nat} (h : larger c j < n) (h' : Grows (larger c j) (larger c j) n r) : Grows c j n r

/-- What is served of the given frames and how the session ends: `c` is the size of the buffer and
`lead` is left in it.  A frame that does not fit into the buffer when its value does is the last one. -/
inductive Served (fin : SrcErr) : Nat → Bytes → List (Bytes × Bytes) → List Bytes → ServeStop → Prop
  | all {c : Nat} {lead : Bytes} : Served fin c lead [] [] (.header (.src fin))
  | fits {c c' : Nat} {lead v t : Bytes} {ms : List (Bytes × Bytes)} {out : List Bytes} {e : ServeStop}
      (h : Grows c lead.length (lead.length + v.length) c')
      (hf : lead.length + v.length + t.length ≤ c') (hs : Served fin c' t ms out e) :
      Served fin c lead ((v, t) :: ms) ((lead ++ v) :: out) e
  | stuck {c c' : Nat} {lead v t : Bytes} {ms : List (Bytes × Bytes)}
      (h : Grows c lead.length (lead.length + v.length) c')
      (hf : c' < lead.length + v.length + t.length) :
      Served fin c lead ((v, t) :: ms) [lead ++ v] (.header .readBody)

/-- Sizes of the buffer: 0, 512, 1536, 3584 and so on. -/
def Edge (n : Nat) : Prop := ∃ k, n = 512 * (2 ^ k - 1)

/-- No end of a value and the end of its frame are on different sides of a size of the buffer. -/
def Clear : Nat → List (Bytes × Bytes) → Prop
  | _, [] => True
  | lead, (v, t) :: ms => (∀ n, Edge n → n < lead + v.length ∨ lead + v.length + t.length ≤ n) ∧
      Clear t.length ms

end Spec

/-- The value is in the buffer. -/
theorem readValue_there {σ : Type} (sc : Scanner σ) (v t rest : Bytes) {fuel : Nat} {s : σ} {pre v' : Bytes}
    {j cap : Nat} {sched : List Nat} {fin : SrcErr} {err : Option SrcErr} (hv : v = pre ++ v')
    (hc : Completes sc s v') (hj : v.length ≤ j) (hj2 : j ≤ v.length + t.length) (hf : 0 < fuel) :
    readValue sc fuel s pre.length err ⟨(v ++ t).take j, cap⟩
      ⟨⟨(v ++ t).drop j ++ rest, sched, fin⟩, v.length + t.length - j⟩ =
    (⟨t.take (j - v.length), cap⟩, ⟨⟨t.drop (j - v.length) ++ rest, sched, fin⟩,
      t.length - (j - v.length)⟩, .ok v) := by
  match fuel, hf with
  | fuel + 1, _ =>
  have hl : pre.length + v'.length = v.length := by rw [hv]; simp
  have hd : ((v ++ t).take j).drop pre.length = (v' ++ t).take (j - pre.length) := by
    rw [List.drop_take, hv, List.append_assoc, List.drop_left]
  have hvt : (v' ++ t).length = v'.length + t.length := by simp
  have hscan := (hc.scan ((v' ++ t).take (j - pre.length)) ((v' ++ t).drop (j - pre.length)) t (by simp)).2
    (by rw [List.length_take, hvt]; omega)
  unfold readValue
  simp only [hd, hscan, hl]
  have e1 : ((v ++ t).take j).drop v.length = t.take (j - v.length) := by
    rw [List.drop_take, List.drop_left]
  have e2 : ((v ++ t).take j).take v.length = v := by
    rw [List.take_take, Nat.min_eq_left (by omega), List.take_left]
  have e3 : (v ++ t).drop j = t.drop (j - v.length) := by
    rw [List.drop_append, List.drop_of_length_le (by omega)]; simp
  rw [e1, e2, e3]
  congr 3
  omega

/-- Reads that fill the buffer. -/
theorem readValue_whole {σ : Type} (sc : Scanner σ) (v t rest : Bytes) :
    ∀ (m fuel : Nat) (s : σ) (pre v' : Bytes) (j cap : Nat) (fin : SrcErr),
    v = pre ++ v' → Completes sc s v' → pre.length ≤ j → j < v.length →
    v.length - j ≤ m → m + 1 ≤ fuel → j ≤ cap →
    ∃ c, Grows cap j v.length c ∧
      readValue sc fuel s pre.length none ⟨(v ++ t).take j, cap⟩
        ⟨⟨(v ++ t).drop j ++ rest, [], fin⟩, v.length + t.length - j⟩ =
      (⟨t.take (c - v.length), c⟩, ⟨⟨t.drop (c - v.length) ++ rest, [], fin⟩,
        t.length - (c - v.length)⟩, .ok v) := by
  intro m
  induction m with
  | zero => intros; omega
  | succ m ih =>
    intro fuel s pre v' j cap fin hv hc hj hlt hm hf hcap
    match fuel, hf with
    | fuel + 1, hf =>
    have hd : ((v ++ t).take j).drop pre.length = (v' ++ t).take (j - pre.length) := by
      rw [List.drop_take, hv, List.append_assoc, List.drop_left]
    have hl : pre.length + v'.length = v.length := by rw [hv]; simp
    have hvt : (v' ++ t).length = v'.length + t.length := by simp
    obtain ⟨s', v'', h1, h2, h3⟩ := (hc.scan ((v' ++ t).take (j - pre.length))
      ((v' ++ t).drop (j - pre.length)) t (by simp)).1
        (by rw [List.length_take, hvt]; omega)
    have hlen : ((v ++ t).take j).length = j := by
      rw [List.length_take, List.length_append]; omega
    have hpre : (v ++ t).take j = pre ++ (v' ++ t).take (j - pre.length) := by
      conv => lhs; rw [hv, List.append_assoc]
      rw [List.take_append, List.take_of_length_le hj]
    let cap2 := larger cap j
    have hcap2 : cap2 = if cap - j < 512 then 2 * cap + 512 else cap := rfl
    have hc2 : 512 ≤ cap2 - j ∧ j ≤ cap2 := by
      rw [hcap2]; split <;> omega
    obtain ⟨k, sched', k1, k2, kk, k3, k5, k4⟩ := Reader.read_full
      ⟨⟨(v ++ t).drop j ++ rest, [], fin⟩, v.length + t.length - j⟩ (cap2 - j) (by omega)
      (by simp only; omega) (by
        simp only
        intro h0
        have := congrArg List.length h0
        simp at this; omega)
    simp only at k2 k3 k4 k5
    have hdl : ((v ++ t).drop j ++ rest).length = v.length + t.length - j + rest.length := by
      simp
    rw [hdl] at k3 k5
    obtain ⟨rfl, k5⟩ := k5 trivial
    have hvtl : (v ++ t).length = v.length + t.length := by simp
    have htk : ((v ++ t).drop j ++ rest).take k = ((v ++ t).drop j).take k := by
      rw [List.take_append_of_le_length]; rw [List.length_drop, hvtl]; omega
    have hdk : ((v ++ t).drop j ++ rest).drop k = (v ++ t).drop (j + k) ++ rest := by
      rw [List.drop_append_of_le_length, List.drop_drop]; rw [List.length_drop, hvtl]; omega
    have hvv : v = (pre ++ (v' ++ t).take (j - pre.length)) ++ v'' := by
      rw [List.append_assoc, ← h2]; exact hv
    have hprel : (pre ++ (v' ++ t).take (j - pre.length)).length = j := by
      rw [← hpre]; exact hlen
    have e1 : v.length + t.length - j - k = v.length + t.length - (j + k) := by omega
    have hstep : readValue sc (fuel + 1) s pre.length none ⟨(v ++ t).take j, cap⟩
        ⟨⟨(v ++ t).drop j ++ rest, [], fin⟩, v.length + t.length - j⟩ =
        readValue sc fuel s' j none ⟨(v ++ t).take (j + k), cap2⟩
          ⟨⟨(v ++ t).drop (j + k) ++ rest, [], fin⟩, v.length + t.length - (j + k)⟩ := by
      conv => lhs; unfold readValue
      simp only [hd, h1, Decoder.refill, hlen, ← hcap2, k4, htk, hdk]
      rw [← List.take_add, e1]
    rw [hstep]
    by_cases hn : v.length ≤ cap2
    · refine ⟨cap2, .last hn, ?_⟩
      have := readValue_there sc v t rest (fuel := fuel) (j := j + k) (cap := cap2) (sched := []) (fin := fin)
        (err := none) hvv h3 (by omega) (by omega) (by omega)
      rw [hprel] at this
      rw [this]
      by_cases ht : v.length + t.length ≤ cap2
      · have e : j + k = v.length + t.length := by omega
        have e2 : v.length + t.length - v.length = t.length := by omega
        rw [e, e2, List.take_of_length_le (show t.length ≤ cap2 - v.length by omega),
          List.drop_of_length_le (show t.length ≤ cap2 - v.length by omega)]
        simp; omega
      · have e : j + k = cap2 := by omega
        rw [e]
    · have e : j + k = cap2 := by omega
      obtain ⟨c, g1, g2⟩ := ih fuel s' (pre ++ (v' ++ t).take (j - pre.length)) v'' cap2 cap2 fin hvv h3
        (by omega) (by omega) (by omega) (by omega) (by omega)
      rw [hprel] at g2
      exact ⟨c, .more (by show cap2 < _; omega) g1, by rw [e]; exact g2⟩

theorem grows_ge {c j n r : Nat} (h : Grows c j n r) : n ≤ r := by
  induction h with
  | last h => exact h
  | more _ _ ih => exact ih

theorem serve_served (accept : Bytes → Bool) (fin : SrcErr) (ms : List (Bytes × Bytes)) :
    ∀ (fuel cap : Nat) (lead : Bytes), lead.length ≤ cap → lead.all isSpace = true →
    (∀ m ∈ ms, Completes json json.start m.1 ∧ m.2.all isSpace = true ∧
      (∀ w : Bytes, w.all isSpace = true → accept (w ++ m.1) = true) ∧
      m.1.length + m.2.length ≤ maxInSize) →
    ms.length < fuel →
    ∃ out e, Served fin cap lead ms out e ∧
      serve json accept fuel ⟨lead, cap⟩ ⟨⟨stream (ms.map fun m => m.1 ++ m.2), [], fin⟩, 0⟩ = (out, e) := by
  induction ms with
  | nil =>
    intro fuel cap lead hcap hlead hm hf
    match fuel, hf with
    | fuel + 1, _ =>
    obtain ⟨s', hh⟩ := readHeader_short ⟨⟨stream [], [], fin⟩, 0⟩ rfl (by simp [stream])
    refine ⟨[], _, .all, ?_⟩
    unfold serve
    simp only [List.map_nil, hh]
    simp [stream, shortErr]
  | cons m ms ih =>
    intro fuel cap lead hcap hlead hm hf
    obtain ⟨v, t⟩ := m
    match fuel, hf with
    | fuel + 1, hf =>
    obtain ⟨h1, h2, h3, h4⟩ := hm (v, t) (by simp)
    simp only at h1 h2 h3 h4
    have hstream : stream (((v, t) :: ms).map fun m => m.1 ++ m.2) =
        le32 (v ++ t).length ++ ((v ++ t) ++ stream (ms.map fun m => m.1 ++ m.2)) := by
      simp [stream, frame]
    have hvt : (v ++ t).length = v.length + t.length := by simp
    have hm30 : maxInSize = 1073741824 := by decide
    have hsch := readHeader_sched
      ⟨⟨stream (((v, t) :: ms).map fun m => m.1 ++ m.2), [], fin⟩, 0⟩ rfl
    obtain ⟨s', hh⟩ := readHeader_ok
      ⟨⟨stream (((v, t) :: ms).map fun m => m.1 ++ m.2), [], fin⟩, 0⟩ rfl (v ++ t).length
      ((v ++ t) ++ stream (ms.map fun m => m.1 ++ m.2)) (by omega) hstream
    rw [if_neg (by omega)] at hh
    rw [hh] at hsch
    simp only at hsch
    subst hsch
    have hpos := h1.pos
    obtain ⟨c, g1, g2⟩ := readValue_whole json (lead ++ v) t
      (stream (ms.map fun m => m.1 ++ m.2)) v.length
      ((v ++ t).length + 3) json.start [] (lead ++ v) lead.length cap fin rfl
      (completes_lead h1 lead hlead) (by simp) (by simp; omega) (by simp) (by simp; omega) hcap
    have e1 : (lead ++ v ++ t).take lead.length = lead := by simp
    have e2 : (lead ++ v ++ t).drop lead.length = v ++ t := by simp
    have e3 : (lead ++ v).length + t.length - lead.length = (v ++ t).length := by simp; omega
    have e4 : (lead ++ v).length = lead.length + v.length := by simp
    rw [e1, e2, e3, e4] at g2
    rw [e4] at g1
    by_cases hfit : lead.length + v.length + t.length ≤ c
    · rw [List.take_of_length_le (by omega), List.drop_of_length_le (by omega),
        show t.length - (c - (lead.length + v.length)) = 0 by omega] at g2
      obtain ⟨out, e, i1, i2⟩ := ih fuel c t (by omega) h2 (fun m' hm' => hm m' (by simp [hm']))
        (by simpa using hf)
      refine ⟨_, e, .fits g1 hfit i1, ?_⟩
      unfold serve
      simp only [hh]
      simp only [List.length_nil, List.nil_append] at g2
      rw [g2]
      simp only [h3 lead hlead, if_true, i2]
    · refine ⟨_, _, .stuck g1 (by omega), ?_⟩
      unfold serve
      simp only [hh]
      simp only [List.length_nil] at g2
      rw [g2]
      simp only [h3 lead hlead, if_true]
      match fuel, hf with
      | fuel + 1, _ =>
      unfold serve
      rw [c03_unread_refused _ (by simp only; rw [Nat.not_le, ← e4] at hfit; have := grows_ge g1; omega)]

/-- C08 (exactly): if the pipe does not split frames then a session with requests of any sizes, each
followed by white space in its frame, goes on until a frame does not fit into the buffer of the
decoder while its request does. -/
theorem c08_exact (accept : Bytes → Bool) (fin : SrcErr) (ms : List (Bytes × Bytes))
    (hm : ∀ m ∈ ms, Completes json json.start m.1 ∧ m.2.all isSpace = true ∧
      (∀ w : Bytes, w.all isSpace = true → accept (w ++ m.1) = true) ∧
      m.1.length + m.2.length ≤ 2 ^ 30) :
    ∃ out e, Served fin 0 [] ms out e ∧
      session json accept ⟨stream (ms.map fun m => m.1 ++ m.2), [], fin⟩ = (out, e) := by
  unfold session
  apply serve_served accept fin ms _ 0 [] (by simp) (by simp)
    (fun m h => ⟨(hm m h).1, (hm m h).2.1, (hm m h).2.2.1, by simpa [maxInSize] using (hm m h).2.2.2⟩)
  have : ms.length ≤ (stream (ms.map fun m => m.1 ++ m.2)).length := by
    clear hm
    induction ms with
    | nil => simp
    | cons m ms ih => simp [stream, frame, le32] at ih ⊢; omega
  simp only; omega

theorem grows_unique {c j n r r' : Nat} (h : Grows c j n r) (h' : Grows c j n r') : r = r' := by
  induction h with
  | last h =>
    cases h' with
    | last => rfl
    | more h1 => omega
  | more h _ ih =>
    cases h' with
    | last h1 => omega
    | more _ h1 => exact ih h1

/-- C08: `Served` tells what is served. -/
theorem c08_exact_unique {fin : SrcErr} {c : Nat} {lead : Bytes} {ms : List (Bytes × Bytes)}
    {out out' : List Bytes} {e e' : ServeStop} (h : Served fin c lead ms out e)
    (h' : Served fin c lead ms out' e') : out = out' ∧ e = e' := by
  induction h generalizing out' e' with
  | all => cases h'; exact ⟨rfl, rfl⟩
  | fits h hf _ ih =>
    cases h' with
    | fits h1 _ h2 =>
      cases grows_unique h h1
      obtain ⟨rfl, rfl⟩ := ih h2
      exact ⟨rfl, rfl⟩
    | stuck h1 hf' =>
      cases grows_unique h h1
      omega
  | stuck h hf =>
    cases h' with
    | fits h1 hf' _ =>
      cases grows_unique h h1
      omega
    | stuck => exact ⟨rfl, rfl⟩

theorem larger_edge {c j : Nat} (h : Edge c) : Edge (larger c j) := by
  unfold larger
  split
  · obtain ⟨k, rfl⟩ := h
    refine ⟨k + 1, ?_⟩
    have := Nat.one_le_two_pow (n := k)
    rw [Nat.pow_succ]; omega
  · exact h

theorem grows_edge {c j n r : Nat} (h : Grows c j n r) (hc : Edge c) : Edge r := by
  induction h with
  | last _ => exact larger_edge hc
  | more _ _ ih => exact ih (larger_edge hc)

theorem served_clear {fin : SrcErr} {c : Nat} {lead : Bytes} {ms : List (Bytes × Bytes)} {out : List Bytes}
    {e : ServeStop} (h : Served fin c lead ms out e) (hc : Edge c) (hl : Clear lead.length ms) :
    out = withLead lead ms ∧ e = .header (.src fin) := by
  induction h with
  | all => exact ⟨rfl, rfl⟩
  | fits h hf _ ih =>
    obtain ⟨rfl, rfl⟩ := ih (grows_edge h hc) hl.2
    exact ⟨rfl, rfl⟩
  | stuck h hf =>
    have := grows_ge h
    rcases hl.1 _ (grows_edge h hc) with h1 | h1 <;> omega

/-- C08 (positive part for requests of any sizes with white space after them, as the bundled Go client
sends them): if the pipe does not split frames and no frame has a size of the buffer between the end of
its request and its own end then every request is served. -/
theorem c08_clear_partial (accept : Bytes → Bool) (fin : SrcErr) (ms : List (Bytes × Bytes))
    (hm : ∀ m ∈ ms, Completes json json.start m.1 ∧ m.2.all isSpace = true ∧
      (∀ w : Bytes, w.all isSpace = true → accept (w ++ m.1) = true) ∧
      m.1.length + m.2.length ≤ 2 ^ 30) (hc : Clear 0 ms) :
    session json accept ⟨stream (ms.map fun m => m.1 ++ m.2), [], fin⟩ =
      (withLead [] ms, .header (.src fin)) := by
  obtain ⟨out, e, h1, h2⟩ := c08_exact accept fin ms hm
  obtain ⟨rfl, rfl⟩ := served_clear h1 ⟨0, rfl⟩ hc
  exact h2

/-- With a single newline after each request there are two forbidden lengths for each size of the
buffer. -/
theorem clear_newline {lead : Nat} {ms : List (Bytes × Bytes)} (hl : lead ≤ 1)
    (h : ∀ m ∈ ms, m.2.length = 1 ∧ ¬Edge m.1.length ∧ ¬Edge (m.1.length + 1)) : Clear lead ms := by
  induction ms generalizing lead with
  | nil => trivial
  | cons m ms ih =>
    obtain ⟨v, t⟩ := m
    obtain ⟨h1, h2, h3⟩ := h (v, t) (by simp)
    simp only at h1 h2 h3
    refine ⟨fun n hn => ?_, ih (by omega) fun m hm => h m (by simp [hm])⟩
    have e1 : n ≠ v.length := fun e => h2 (e ▸ hn)
    have e2 : n ≠ v.length + 1 := fun e => h3 (e ▸ hn)
    omega

theorem grows_reach (k j : Nat) : Grows (512 * (2 ^ j - 1)) (512 * (2 ^ j - 1)) (512 * (2 ^ (j + k + 1) - 1))
    (512 * (2 ^ (j + k + 1) - 1)) := by
  have e : larger (512 * (2 ^ j - 1)) (512 * (2 ^ j - 1)) = 512 * (2 ^ (j + 1) - 1) := by
    have := Nat.one_le_two_pow (n := j)
    rw [larger, if_pos (by omega), Nat.pow_succ]; omega
  induction k generalizing j with
  | zero =>
    have := Grows.last (c := 512 * (2 ^ j - 1)) (j := 512 * (2 ^ j - 1)) (n := 512 * (2 ^ (j + 1) - 1)) (by omega)
    rw [e] at this
    exact this
  | succ k ih =>
    refine .more ?_ ?_
    · rw [e]
      have h1 : 2 ^ (j + 1) < 2 ^ (j + (k + 1) + 1) := Nat.pow_lt_pow_right (by omega) (by omega)
      have := Nat.one_le_two_pow (n := j + 1)
      omega
    · rw [e]
      have := ih (j + 1) (by
        have := Nat.one_le_two_pow (n := j + 1)
        rw [larger, if_pos (by omega), Nat.pow_succ 2 (j + 1)]; omega)
      have e2 : j + 1 + k + 1 = j + (k + 1) + 1 := by omega
      rw [e2] at this
      exact this

/-- C08 is violated for each size of the buffer: if the first request has this length and something
follows it in its frame then the session serves this request and ends. -/
theorem c08_violation_sizes (accept : Bytes → Bool) (fin : SrcErr) (v t : Bytes) (ms : List (Bytes × Bytes))
    (hm : ∀ m ∈ (v, t) :: ms, Completes json json.start m.1 ∧ m.2.all isSpace = true ∧
      (∀ w : Bytes, w.all isSpace = true → accept (w ++ m.1) = true) ∧
      m.1.length + m.2.length ≤ 2 ^ 30) {k : Nat} (hl : v.length = 512 * (2 ^ (k + 1) - 1)) (ht : t ≠ []) :
    session json accept ⟨stream (((v, t) :: ms).map fun m => m.1 ++ m.2), [], fin⟩ =
      ([v], .header .readBody) := by
  obtain ⟨out, e, h1, h2⟩ := c08_exact accept fin _ hm
  have hg := grows_reach k 0
  have hs : Served fin 0 [] ((v, t) :: ms) [v] (.header .readBody) := by
    refine .stuck (c := 0) (lead := []) (c' := 512 * (2 ^ (k + 1) - 1)) ?_ ?_
    · simpa [hl] using hg
    · have := List.length_pos_iff.mpr ht
      simp only [List.length_nil]; omega
  obtain ⟨rfl, rfl⟩ := c08_exact_unique h1 hs
  exact h2

theorem not_edge {n : Nat} (h : n < 3584) (h1 : n ≠ 0) (h2 : n ≠ 512) (h3 : n ≠ 1536) : ¬Edge n := by
  rintro ⟨k, rfl⟩
  match k with
  | 0 => simp at h1
  | 1 => simp at h2
  | 2 => simp at h3
  | k + 3 =>
    have : 2 ^ 3 ≤ 2 ^ (k + 3) := Nat.pow_le_pow_right (by omega) (by omega)
    omega

private def request (n : Nat) : Bytes :=
  (Json.obj [((bytesOf "a").map .plain, .str (List.replicate n (.plain 120)))]).text

/-- Non-vacuity: requests of 108, 608 and 2008 bytes with newlines. -/
example : (∀ m ∈ [(request 100, ([10] : Bytes)), (request 600, [10]), (request 2000, [10])],
      Completes json json.start m.1 ∧ m.2.all isSpace = true ∧ m.1.length + m.2.length ≤ 2 ^ 30) ∧
    Clear 0 [(request 100, [10]), (request 600, [10]), (request 2000, [10])] := by
  have h1 : (request 100).length = 108 := by decide +kernel
  have h2 : (request 600).length = 608 := by decide +kernel
  have h3 : (request 2000).length = 2008 := by decide +kernel
  refine ⟨fun m hm => ?_, clear_newline (by omega) fun m hm => ?_⟩ <;>
    simp only [List.mem_cons, List.not_mem_nil, or_false] at hm <;> rcases hm with rfl | rfl | rfl
  · exact ⟨completes_obj _ (by decide +kernel), by decide, by simp only [h1]; decide⟩
  · exact ⟨completes_obj _ (by decide +kernel), by decide, by simp only [h2]; decide⟩
  · exact ⟨completes_obj _ (by decide +kernel), by decide, by simp only [h3]; decide⟩
  · refine ⟨rfl, ?_, ?_⟩ <;> (dsimp only; rw [h1]; exact not_edge (by omega) (by omega) (by omega) (by omega))
  · refine ⟨rfl, ?_, ?_⟩ <;> (dsimp only; rw [h2]; exact not_edge (by omega) (by omega) (by omega) (by omega))
  · refine ⟨rfl, ?_, ?_⟩ <;> (dsimp only; rw [h3]; exact not_edge (by omega) (by omega) (by omega) (by omega))

/-- A request of 1536 bytes ends the session. -/
example : (request 1528).length = 512 * (2 ^ (1 + 1) - 1) := by decide +kernel

end Burl.Rpc
