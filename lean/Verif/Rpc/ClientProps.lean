import Verif.Rpc.Client
import Verif.Rpc.ServerProps
/-! Every call of the client ends once, with the answer to its own request. -/
namespace Burl.Rpc.Client
open Burl.Rpc.Server (Request)

variable {P R : Type}

/-! ### Specification -/

/-- What a message tells a call it belongs to. -/
inductive Tells (c : Call P R) (m : Message R) : Outcome R → Prop where
  | error {msg} : m.error = .text msg → msg ≠ [] → Tells c m (.server msg)
  | unspecified : m.error = .text [] → Tells c m (.server "unspecified error".toList)
  | result {v} : m.error = .absent → m.result = some v → c.accepts v = true → Tells c m (.reply v)
  | badBody {v} : m.error = .absent → m.result = some v → c.accepts v = false →
      Tells c m .badBody

/-- The number of a call. -/
def Numbered (s : State P R) (i n : Nat) : Prop := s.ids[n]? = some i

/-- The first message for a number that has been read since the number was given. -/
def heard (s : State P R) (n : Nat) : Option (Message R) :=
  (s.since[n]?).bind fun d => (s.received.drop d).find? (fun m => m.id == n)

/-- How a call may end. -/
inductive Good (s : State P R) (i : Nat) : Outcome R → Prop where
  /-- A message with the number of the call has been read. -/
  | told {n c m o} : Numbered s i n → s.calls[i]? = some c → heard s n = some m → Tells c m o →
      Good s i o
  /-- The request has not been written. -/
  | unsent : i ∈ s.bad → Good s i .unsent
  /-- The client has been closed or has lost the connection before the request was written. -/
  | refused : i ∉ s.ids → (s.shutdown || s.closing) = true → Good s i .shutdown
  /-- The connection has been lost and there was no message with the number of the call. -/
  | closed {n} : Numbered s i n → s.shutdown = true → s.closing = true → heard s n = none →
      Good s i .shutdown
  | eof {n} : Numbered s i n → s.shutdown = true → heard s n = none → Good s i .unexpectedEOF
  | broken {n f} : Numbered s i n → s.shutdown = true → f ≠ .eof → heard s n = none →
      Good s i (.broken f)

/-! ### Control -/

/-- `send` of the call holds `reqMutex`. -/
def Pc.holds : Pc → Bool
  | .locked => true
  | .writing _ => true
  | .failed _ => true
  | .unlock => true
  | _ => false

/-- `send` of the call has not registered it. -/
def Pc.early : Pc → Bool
  | .idle => true
  | .want => true
  | .locked => true
  | _ => false

/-- The number of the call while its request is written. -/
def Pc.number : Pc → Option Nat
  | .writing n => some n
  | .failed n => some n
  | _ => none

/-- Numbers, mutex and the end. -/
structure Inv (s : State P R) : Prop where
  idle : ∀ i, s.pc i = .idle ↔ s.calls.length ≤ i
  owner : ∀ i, s.owner = some i ↔ (s.pc i).holds = true
  fin : s.shutdown = true ↔ s.input = .finished
  quiet : s.shutdown = true → ∀ i, (s.pc i).number = none
  seq : s.ids.length = s.seq
  since : s.since.length = s.seq
  known : ∀ d ∈ s.since, d ≤ s.received.length
  nodup : s.ids.Nodup
  keys : (s.pending.map (·.1)).Nodup
  pend : ∀ e ∈ s.pending, s.ids[e.1]? = some e.2
  early : ∀ i, (s.pc i).early = true → i ∉ s.ids
  number : ∀ i n, (s.pc i).number = some n → s.ids[n]? = some i

@[simp] theorem set_same {f : Nat → Pc} {k : Nat} {p : Pc} : set f k p k = p := by simp [set]
theorem set_other {f : Nat → Pc} {k i : Nat} {p : Pc} (h : i ≠ k) : set f k p i = f i := by
  simp [set, h]

theorem inv_start : Inv (start : State P R) := by
  constructor <;> simp [start, Pc.holds, Pc.number]

/-- A step that changes only the place of a call that holds the mutex before and after it. -/
theorem Inv.move {s : State P R} (h : Inv s) {i : Nat} {p : Pc} (hh : (s.pc i).holds = true)
    (hp : p.holds = true) (he : p.early = true → (s.pc i).early = true)
    (hn : ∀ n, p.number = some n → (s.pc i).number = some n) :
    Inv { s with pc := set s.pc i p } := by
  have hne : p ≠ .idle := by intro e; subst e; simp [Pc.holds] at hp
  have hni : s.pc i ≠ .idle := by intro e; rw [e] at hh; simp [Pc.holds] at hh
  refine ⟨fun j => ?_, fun j => ?_, h.fin, fun hs j => ?_, h.seq, h.since, h.known, h.nodup, h.keys,
    h.pend, fun j => ?_, fun j n => ?_⟩
  · by_cases e : j = i
    · subst e
      simp only [set_same]
      have := h.idle j
      constructor
      · intro x; exact absurd x hne
      · intro x; exact absurd (this.2 x) hni
    · simp only [set_other e]; exact h.idle j
  · by_cases e : j = i
    · subst e
      simp only [set_same, hp, iff_true]
      exact (h.owner j).2 hh
    · simp only [set_other e]; exact h.owner j
  · by_cases e : j = i
    · subst e
      simp only [set_same]
      cases hq : p.number with
      | none => rfl
      | some n => have := hn n hq; rw [h.quiet hs j] at this; simp at this
    · simp only [set_other e]; exact h.quiet hs j
  · by_cases e : j = i
    · subst e
      simp only [set_same]
      exact fun x => h.early j (he x)
    · simp only [set_other e]; exact h.early j
  · by_cases e : j = i
    · subst e
      simp only [set_same]
      exact fun x => h.number j n (hn n x)
    · simp only [set_other e]; exact h.number j n

theorem Inv.drop {s : State P R} (h : Inv s) (n : Nat) :
    Inv { s with pending := s.pending.filter (fun e => e.1 != n) } := by
  refine ⟨h.idle, h.owner, h.fin, h.quiet, h.seq, h.since, h.known, h.nodup, ?_, ?_, h.early,
    h.number⟩
  · exact List.Nodup.sublist (List.Sublist.map _ List.filter_sublist) h.keys
  · intro e he
    exact h.pend e (List.mem_filter.1 he).1

theorem Inv.ghost {s : State P R} (h : Inv s) (sent : List (Request Nat P)) (bad : List Nat)
    (log : List (Nat × Outcome R)) :
    Inv { s with sent := sent, bad := bad, log := log } :=
  ⟨h.idle, h.owner, h.fin, h.quiet, h.seq, h.since, h.known, h.nodup, h.keys, h.pend, h.early,
    h.number⟩

theorem Inv.read {s : State P R} (h : Inv s) (hs : s.shutdown = false) (inp : Input R)
    (hi : inp ≠ .finished) : Inv { s with input := inp } :=
  ⟨h.idle, h.owner, by simp [hs, hi], h.quiet, h.seq, h.since, h.known, h.nodup, h.keys, h.pend,
    h.early, h.number⟩

theorem Inv.running {s : State P R} (h : Inv s) (hi : s.input ≠ .finished) : s.shutdown = false := by
  cases hs : s.shutdown with
  | false => rfl
  | true => exact absurd (h.fin.1 hs) hi

theorem Step.inv {s s' : State P R} (h : Inv s) (st : Step s s') : Inv s' := by
  cases st with
  | call c =>
    have hid : s.pc s.calls.length = .idle := (h.idle _).2 (Nat.le_refl _)
    refine ⟨fun j => ?_, fun j => ?_, h.fin, fun hs j => ?_, h.seq, h.since, h.known, h.nodup, h.keys,
      h.pend, fun j => ?_, fun j n => ?_⟩
    · simp only [List.length_append, List.length_singleton]
      by_cases e : j = s.calls.length
      · subst e; simp
      · rw [set_other e, h.idle j]; omega
    · by_cases e : j = s.calls.length
      · subst e
        simp only [set_same]
        rw [h.owner, hid]
        simp [Pc.holds]
      · simp only [set_other e]; exact h.owner j
    · by_cases e : j = s.calls.length
      · subst e; simp [Pc.number]
      · simp only [set_other e]; exact h.quiet hs j
    · by_cases e : j = s.calls.length
      · subst e
        intro _
        exact h.early _ (by rw [hid]; rfl)
      · simp only [set_other e]; exact h.early j
    · by_cases e : j = s.calls.length
      · subst e; simp [Pc.number]
      · simp only [set_other e]; exact h.number j n
  | @lock i hp ho =>
    have hnone : ∀ j, (s.pc j).holds = false := by
      intro j
      cases hj : (s.pc j).holds with
      | false => rfl
      | true => have := (h.owner j).2 hj; rw [ho] at this; simp at this
    refine ⟨fun j => ?_, fun j => ?_, h.fin, fun hs j => ?_, h.seq, h.since, h.known, h.nodup, h.keys,
      h.pend, fun j => ?_, fun j n => ?_⟩
    · by_cases e : j = i
      · subst e
        simp only [set_same]
        have := h.idle j
        rw [hp] at this
        simpa using this
      · simp only [set_other e]; exact h.idle j
    · by_cases e : j = i
      · subst e; simp [Pc.holds]
      · simp only [set_other e, hnone j]
        simp only [Option.some.injEq, Bool.false_eq_true, iff_false]
        exact fun x => e x.symm
    · by_cases e : j = i
      · subst e; simp [Pc.number]
      · simp only [set_other e]; exact h.quiet hs j
    · by_cases e : j = i
      · subst e
        intro _
        exact h.early _ (by rw [hp]; rfl)
      · simp only [set_other e]; exact h.early j
    · by_cases e : j = i
      · subst e; simp [Pc.number]
      · simp only [set_other e]; exact h.number j n
  | @refuse i hp hc =>
    exact (h.move (p := .unlock) (by rw [hp]; rfl) rfl (by simp [Pc.early])
      (by simp [Pc.number])).ghost s.sent s.bad _
  | @register i hp hc =>
    have hi : i ∉ s.ids := h.early i (by rw [hp]; rfl)
    have hsd : s.shutdown = false := by
      cases hs : s.shutdown <;> simp [hs] at hc ⊢
    refine ⟨fun j => ?_, fun j => ?_, h.fin, fun hs => ?_, ?_, ?_, ?_, ?_, ?_,
      ?_, fun j => ?_, fun j n => ?_⟩
    · by_cases e : j = i
      · subst e
        simp only [set_same]
        have := h.idle j
        rw [hp] at this
        simpa using this
      · simp only [set_other e]; exact h.idle j
    · by_cases e : j = i
      · subst e
        simp only [set_same]
        have := h.owner j
        rw [hp] at this
        simpa [Pc.holds] using this
      · simp only [set_other e]; exact h.owner j
    · simp only at hs
      rw [hsd] at hs
      simp at hs
    · simp [h.seq]
    · simp [h.since]
    · intro d hd
      simp only [List.mem_append, List.mem_singleton] at hd
      rcases hd with hd | hd
      · exact h.known d hd
      · exact Nat.le_of_eq hd
    · rw [List.nodup_append]
      refine ⟨h.nodup, by simp, ?_⟩
      intro a ha b hb e
      simp only [List.mem_singleton] at hb
      subst hb e
      exact hi ha
    · simp only [List.map_cons, List.nodup_cons]
      refine ⟨fun hm => ?_, h.keys⟩
      obtain ⟨e, he, e1⟩ := List.mem_map.1 hm
      have := (List.getElem?_eq_some_iff.1 (h.pend e he)).1
      rw [h.seq] at this
      omega
    · intro e he
      simp only [List.mem_cons] at he
      rcases he with rfl | he
      · simp [← h.seq]
      · have := h.pend e he
        simp only
        rw [List.getElem?_append_left (List.getElem?_eq_some_iff.1 this).1]
        exact this
    · by_cases e : j = i
      · subst e; simp [Pc.early]
      · simp only [set_other e]
        intro x
        simp only [List.mem_append, List.mem_singleton, not_or]
        exact ⟨h.early j x, e⟩
    · by_cases e : j = i
      · subst e
        simp only [set_same, Pc.number, Option.some.injEq]
        intro x
        subst x
        simp [← h.seq]
      · simp only [set_other e]
        intro x
        have := h.number j n x
        rw [List.getElem?_append_left (List.getElem?_eq_some_iff.1 this).1]
        exact this
  | @write i n c hp hc =>
    exact (h.move (p := .unlock) (by rw [hp]; rfl) rfl (by simp [Pc.early])
      (by simp [Pc.number])).ghost _ s.bad s.log
  | @writeFail i n c got hp hc =>
    exact (h.move (p := .failed n) (by rw [hp]; rfl) rfl (by simp [Pc.early])
      (by rw [hp]; simp [Pc.number])).ghost _ _ s.log
  | @giveUp i n j hp hl =>
    exact ((h.drop n).move (i := i) (p := .unlock) (by simp only; rw [hp]; rfl) rfl (by simp [Pc.early])
      (by simp [Pc.number])).ghost s.sent s.bad _
  | @gone i n hp hl =>
    exact h.move (p := .unlock) (by rw [hp]; rfl) rfl (by simp [Pc.early]) (by simp [Pc.number])
  | @unlock i hp =>
    have ho : s.owner = some i := (h.owner i).2 (by rw [hp]; rfl)
    refine ⟨fun j => ?_, fun j => ?_, h.fin, fun hs j => ?_, h.seq, h.since, h.known, h.nodup, h.keys,
      h.pend, fun j => ?_, fun j n => ?_⟩
    · by_cases e : j = i
      · subst e
        simp only [set_same]
        have := h.idle j
        rw [hp] at this
        simpa using this
      · simp only [set_other e]; exact h.idle j
    · by_cases e : j = i
      · subst e; simp [Pc.holds]
      · simp only [set_other e]
        have := h.owner j
        rw [ho] at this
        simp only [Option.some.injEq, reduceCtorEq, false_iff, Bool.not_eq_true] at this ⊢
        cases hh : (s.pc j).holds with
        | false => rfl
        | true => exact absurd (this.2 hh).symm e
    · by_cases e : j = i
      · subst e; simp [Pc.number]
      · simp only [set_other e]; exact h.quiet hs j
    · by_cases e : j = i
      · subst e; simp [Pc.early]
      · simp only [set_other e]; exact h.early j
    · by_cases e : j = i
      · subst e; simp [Pc.number]
      · simp only [set_other e]; exact h.number j n
  | @receive e m hr hh =>
    have h1 := (h.drop m.id).read (h.running (by rw [hr]; simp))
      (.deliver (s.pending.lookup m.id) e m.result) (by simp)
    refine ⟨h1.idle, h1.owner, h1.fin, h1.quiet, h1.seq, h1.since, ?_, h1.nodup, h1.keys, h1.pend,
      h1.early, h1.number⟩
    intro d hd
    simp only [List.length_append, List.length_singleton]
    exact Nat.le_succ_of_le (h.known d hd)
  | invalid m hr hh => exact h.read (h.running (by rw [hr]; simp)) _ (by simp)
  | fail hr hf => exact h.read (h.running (by rw [hr]; simp)) _ (by simp)
  | ignore hr => exact h.read (h.running (by rw [hr]; simp)) _ (by simp)
  | error hr he =>
    exact (h.read (h.running (by rw [hr]; simp)) .reading (by simp)).ghost s.sent s.bad _
  | reply hr hc ha =>
    exact (h.read (h.running (by rw [hr]; simp)) .reading (by simp)).ghost s.sent s.bad _
  | badBody hr hc ha =>
    exact (h.read (h.running (by rw [hr]; simp)) (.ended .badBody) (by simp)).ghost s.sent s.bad _
  | terminate hr ho =>
    refine ⟨h.idle, h.owner, by simp, fun _ j => ?_, h.seq, h.since, h.known, h.nodup, h.keys,
      h.pend, h.early, h.number⟩
    cases hj : s.pc j with
    | writing n => have := (h.owner j).2 (by rw [hj]; rfl); rw [ho] at this; simp at this
    | failed n => have := (h.owner j).2 (by rw [hj]; rfl); rw [ho] at this; simp at this
    | _ => rfl
  | close hc =>
    exact ⟨h.idle, h.owner, h.fin, h.quiet, h.seq, h.since, h.known, h.nodup, h.keys, h.pend,
      h.early, h.number⟩

theorem Steps.inv {s : State P R} (h : Steps start s) : Inv s := by
  induction h with
  | refl => exact inv_start
  | step _ st ih => exact st.inv ih

/-! ### A call ends once -/

/-- How many times the call has ended. -/
def endings (s : State P R) (i : Nat) : Nat := s.log.countP (fun e => e.1 == i)

/-- The reader is about to end the call. -/
def delivering (s : State P R) (i : Nat) : Nat :=
  match s.input with
  | .deliver (some j) _ _ => if j = i then 1 else 0
  | _ => 0

/-- The call is in the table; after the end the table is not used. -/
def waiting (s : State P R) (i : Nat) : Nat :=
  if s.shutdown then 0 else s.pending.countP (fun e => e.2 == i)

/-- Endings of a call that has been registered: now or in future. -/
def Due (s : State P R) : Prop :=
  ∀ i, endings s i + delivering s i + waiting s i = if (s.pc i).early then 0 else 1

theorem count_drop (l : List (Nat × Nat)) (n i : Nat) (hk : (l.map (·.1)).Nodup) :
    (l.filter (fun e => e.1 != n)).countP (fun e => e.2 == i) +
      (if l.lookup n = some i then 1 else 0) = l.countP (fun e => e.2 == i) := by
  induction l with
  | nil => simp
  | cons x xs ih =>
    obtain ⟨a, b⟩ := x
    simp only [List.map_cons, List.nodup_cons] at hk
    have ih := ih hk.2
    by_cases e : a = n
    · subst e
      have hf : xs.filter (fun e => e.1 != a) = xs := by
        rw [List.filter_eq_self]
        intro y hy
        have : y.1 ≠ a := fun e => hk.1 (List.mem_map.2 ⟨y, hy, e⟩)
        simpa using this
      have hl : xs.lookup a = none := by
        rw [List.lookup_eq_none_iff]
        intro y hy
        have : y.1 ≠ a := fun e => hk.1 (List.mem_map.2 ⟨y, hy, e⟩)
        exact bne_iff_ne.2 (Ne.symm this)
      simp only [List.filter_cons, bne_self_eq_false, Bool.false_eq_true, if_false, hf,
        List.lookup_cons_self, List.countP_cons, Option.some.injEq, beq_iff_eq]
    · have e1 : (a != n) = true := by simpa using e
      have e2 : (n == a) = false := beq_eq_false_iff_ne.2 (Ne.symm e)
      simp only [List.filter_cons, e1, if_true, List.countP_cons, List.lookup_cons, e2]
      omega

theorem endings_append (s : State P R) (i j : Nat) (o : Outcome R) :
    (s.log ++ [(j, o)]).countP (fun e => e.1 == i) = endings s i + if j = i then 1 else 0 := by
  simp [endings, List.countP_append, List.countP_cons]

theorem early_set (s : State P R) (i k : Nat) (p : Pc) :
    (set s.pc k p i).early = if i = k then p.early else (s.pc i).early := by
  unfold set; split <;> rfl

theorem due_start : Due (start : State P R) := by
  intro i; simp [endings, delivering, waiting, start, Pc.early]

theorem Step.due {s s' : State P R} (h : Inv s) (hd : Due s) (st : Step s s') : Due s' := by
  intro k
  have hk := hd k
  cases st with
  | call c =>
    have hid : s.pc s.calls.length = .idle := (h.idle _).2 (Nat.le_refl _)
    simp only [early_set]
    show endings s k + delivering s k + waiting s k = _
    rw [hk]
    by_cases e : k = s.calls.length
    · subst e
      rw [hid]
      simp [Pc.early]
    · simp [e]
  | @lock i hp ho =>
    simp only [early_set]
    show endings s k + delivering s k + waiting s k = _
    rw [hk]
    by_cases e : k = i
    · subst e
      rw [hp]
      simp [Pc.early]
    · simp [e]
  | @refuse i hp hc =>
    simp only [early_set]
    simp only [endings, endings_append]
    by_cases e : k = i
    · subst e
      rw [hp] at hk
      simp only [Pc.early, if_true] at hk
      simp only [endings, delivering, waiting, Pc.early, if_true] at hk ⊢
      simp; omega
    · simp only [if_neg e, if_neg (Ne.symm e)]
      simpa [endings, delivering, waiting] using hk
  | @register i hp hc =>
    have hsd : s.shutdown = false := by
      cases hs : s.shutdown <;> simp [hs] at hc ⊢
    simp only [early_set]
    simp only [endings, delivering, waiting, hsd, Bool.false_eq_true, if_false, List.countP_cons] at hk ⊢
    by_cases e : k = i
    · subst e
      rw [hp] at hk
      simp only [Pc.early, if_true] at hk
      simp [Pc.early]; omega
    · simp only [if_neg e]
      simp [Ne.symm e]; omega
  | @write i n c hp hc =>
    simp only [early_set]
    show endings s k + delivering s k + waiting s k = _
    rw [hk]
    by_cases e : k = i
    · subst e
      rw [hp]
      simp [Pc.early]
    · simp [e]
  | @writeFail i n c got hp hc =>
    simp only [early_set]
    show endings s k + delivering s k + waiting s k = _
    rw [hk]
    by_cases e : k = i
    · subst e
      rw [hp]
      simp [Pc.early]
    · simp [e]
  | @giveUp i n j hp hl =>
    have hsd : s.shutdown = false := by
      cases hs : s.shutdown with
      | false => rfl
      | true => have := h.quiet hs i; rw [hp] at this; simp [Pc.number] at this
    have hc := count_drop s.pending n k h.keys
    rw [hl] at hc
    simp only [early_set]
    simp only [endings, endings_append]
    simp only [endings, delivering, waiting, hsd, Bool.false_eq_true, if_false, Option.some.injEq] at hk hc ⊢
    have he : (if k = i then Pc.unlock.early else (s.pc k).early) = (s.pc k).early := by
      split
      · rename_i e; subst e; rw [hp]; rfl
      · rfl
    rw [he]
    omega
  | @gone i n hp hl =>
    simp only [early_set]
    show endings s k + delivering s k + waiting s k = _
    rw [hk]
    by_cases e : k = i
    · subst e
      rw [hp]
      simp [Pc.early]
    · simp [e]
  | @unlock i hp =>
    simp only [early_set]
    show endings s k + delivering s k + waiting s k = _
    rw [hk]
    by_cases e : k = i
    · subst e
      rw [hp]
      simp [Pc.early]
    · simp [e]
  | @receive e m hr hh =>
    have hsd := h.running (by rw [hr]; simp)
    have hc := count_drop s.pending m.id k h.keys
    simp only [endings, delivering, waiting, hsd, hr, Bool.false_eq_true, if_false] at hk hc ⊢
    cases hl : s.pending.lookup m.id with
    | none =>
      rw [hl] at hc
      simp at hc ⊢
      omega
    | some j =>
      rw [hl] at hc
      simp only [Option.some.injEq] at hc ⊢
      omega
  | invalid m hr hh => simpa [endings, delivering, waiting, hr] using hk
  | fail hr hf => simpa [endings, delivering, waiting, hr] using hk
  | ignore hr => simpa [endings, delivering, waiting, hr] using hk
  | error hr he =>
    simp only [endings, endings_append]
    simp only [endings, delivering, waiting, hr] at hk ⊢
    omega
  | reply hr hc ha =>
    simp only [endings, endings_append]
    simp only [endings, delivering, waiting, hr] at hk ⊢
    omega
  | badBody hr hc ha =>
    simp only [endings, endings_append]
    simp only [endings, delivering, waiting, hr] at hk ⊢
    omega
  | @terminate f hr ho =>
    have hsd := h.running (by rw [hr]; simp)
    simp only [endings, delivering, waiting, hr, hsd, Bool.false_eq_true, if_false, if_true,
      List.countP_append, List.countP_map] at hk ⊢
    have : List.countP ((fun e : Nat × Outcome R => e.1 == k) ∘
        fun e => (e.2, lastError f s.closing)) s.pending = s.pending.countP (fun e => e.2 == k) := rfl
    omega
  | close hc => exact hk

theorem Steps.due {s : State P R} (h : Steps start s) : Due s := by
  induction h with
  | refl => exact due_start
  | step h st ih => exact st.due h.inv ih

/-! ### Where outcomes come from -/

theorem Numbered.lt {s : State P R} (h : Inv s) {i n : Nat} (hn : Numbered s i n) : n < s.seq := by
  rw [← h.seq]; exact (List.getElem?_eq_some_iff.1 hn).1

theorem Numbered.inj {s : State P R} (h : Inv s) {i n n' : Nat} (h1 : Numbered s i n)
    (h2 : Numbered s i n') : n = n' := by
  obtain ⟨a1, b1⟩ := List.getElem?_eq_some_iff.1 h1
  obtain ⟨a2, b2⟩ := List.getElem?_eq_some_iff.1 h2
  have hp := List.pairwise_iff_getElem.1 h.nodup
  rcases Nat.lt_trichotomy n n' with x | x | x
  · exact absurd (b1.trans b2.symm) (hp n n' a1 a2 x)
  · exact x
  · exact absurd (b2.trans b1.symm) (hp n' n a2 a1 x)

theorem heard_none_of_le {s : State P R} (h : Inv s) {n : Nat} (hn : s.seq ≤ n) :
    heard s n = none := by
  unfold heard
  rw [List.getElem?_eq_none (by rw [h.since]; exact hn)]
  rfl

/-- What is heard after one more message. -/
theorem heard_receive {s : State P R} (h : Inv s) {n : Nat} (hn : n < s.seq) (m : Message R)
    {s' : State P R} (h1 : s'.since = s.since) (h2 : s'.received = s.received ++ [m]) :
    heard s' n = (heard s n).or (if m.id = n then some m else none) := by
  unfold heard
  rw [h1, h2]
  have hl : n < s.since.length := by rw [h.since]; exact hn
  rw [List.getElem?_eq_getElem hl]
  simp only [Option.bind_some]
  rw [List.drop_append_of_le_length (h.known _ (List.getElem_mem hl)), List.find?_append]
  congr 1
  simp only [List.find?_cons, List.find?_nil]
  by_cases e : m.id = n
  · simp [e]
  · rw [beq_eq_false_iff_ne.2 e, if_neg e]

theorem heard_register {s : State P R} (h : Inv s) (n : Nat) {s' : State P R}
    (h1 : s'.since = s.since ++ [s.received.length]) (h2 : s'.received = s.received) :
    heard s' n = heard s n := by
  rcases Nat.lt_trichotomy n s.seq with hn | hn | hn
  · unfold heard
    rw [h1, h2, List.getElem?_append_left (by rw [h.since]; exact hn)]
  · rw [heard_none_of_le h (Nat.le_of_eq hn.symm)]
    unfold heard
    rw [h1, h2, hn, ← h.since]
    simp
  · rw [heard_none_of_le h (Nat.le_of_lt hn)]
    unfold heard
    rw [h1, List.getElem?_eq_none (by simp [h.since]; omega)]
    rfl

theorem heard_same {s s' : State P R} (h1 : s'.since = s.since) (h2 : s'.received = s.received)
    (n : Nat) : heard s' n = heard s n := by
  unfold heard; rw [h1, h2]

theorem Good.mono {s s' : State P R} {i : Nat} {o : Outcome R} (g : Good s i o)
    (hids : ∀ n, Numbered s i n → Numbered s' i n) (hnot : i ∉ s.ids → i ∉ s'.ids)
    (hcalls : ∀ c, s.calls[i]? = some c → s'.calls[i]? = some c)
    (hsome : ∀ n m, Numbered s i n → heard s n = some m → heard s' n = some m)
    (hnone : s.shutdown = true → ∀ n, heard s n = none → heard s' n = none)
    (hbad : i ∈ s.bad → i ∈ s'.bad) (hsd : s.shutdown = true → s'.shutdown = true)
    (hcl : s.closing = true → s'.closing = true) : Good s' i o := by
  cases g with
  | told a b c d => exact .told (hids _ a) (hcalls _ b) (hsome _ _ a c) d
  | unsent a => exact .unsent (hbad a)
  | refused a b =>
    refine .refused (hnot a) ?_
    simp only [Bool.or_eq_true] at b ⊢
    rcases b with b | b
    · exact .inl (hsd b)
    · exact .inr (hcl b)
  | closed a b c d => exact .closed (hids _ a) (hsd b) (hcl c) (hnone b _ d)
  | eof a b d => exact .eof (hids _ a) (hsd b) (hnone b _ d)
  | broken a b c d => exact .broken (hids _ a) (hsd b) c (hnone b _ d)

/-- Where messages and outcomes come from. -/
structure Facts (s : State P R) : Prop where
  silent : ∀ e ∈ s.pending, heard s e.1 = none
  deliver : ∀ i e r, s.input = .deliver (some i) e r → ∃ n m, Numbered s i n ∧ heard s n = some m ∧
    m.header = some e ∧ m.result = r
  log : ∀ e ∈ s.log, Good s e.1 e.2
  failed : ∀ i n, s.pc i = .failed n → i ∈ s.bad
  bad : ∀ i ∈ s.bad, i ∈ s.ids

theorem facts_start : Facts (start : State P R) := by
  constructor <;> simp [start]

/-- A step that changes neither messages nor numbers. -/
theorem Facts.keep {s s' : State P R} (f : Facts s) (h1 : s'.since = s.since)
    (h2 : s'.received = s.received) (h3 : s'.ids = s.ids)
    (h4 : ∀ (i : Nat) (c : Call P R), s.calls[i]? = some c → s'.calls[i]? = some c)
    (h5 : ∀ i ∈ s.bad, i ∈ s'.bad) (h6 : s.shutdown = true → s'.shutdown = true)
    (h7 : s.closing = true → s'.closing = true) : ∀ e ∈ s.log, Good s' e.1 e.2 := by
  intro e he
  refine (f.log e he).mono (fun n hn => ?_) (by rw [h3]; exact id) (h4 _)
    (fun n m _ hm => (heard_same h1 h2 n).trans hm)
    (fun _ n hm => (heard_same h1 h2 n).trans hm) (h5 _) h6 h7
  unfold Numbered at hn ⊢
  rw [h3]; exact hn

theorem header_tells {c : Call P R} {m : Message R} {e : Str} (h : m.header = some e) :
    (e ≠ [] → Tells c m (.server e)) ∧
    (∀ v, e = [] → m.result = some v → (c.accepts v = true → Tells c m (.reply v)) ∧
      (c.accepts v = false → Tells c m .badBody)) := by
  unfold Message.header at h
  split at h
  · split at h
    · rename_i x hx
      simp only [Option.some.injEq] at h
      subst h
      refine ⟨fun hne => ?_, fun v hv => ?_⟩
      · split
        · rename_i hx0; subst hx0; exact .unspecified hx
        · rename_i hx0; exact .error hx hx0
      · split at hv
        · simp at hv
        · rename_i hx0; exact absurd hv hx0
    · simp at h
  · rename_i hc
    simp only [Option.some.injEq] at h
    subst h
    have ha : m.error = .absent := by
      cases hm : m.error with
      | absent => rfl
      | _ => exact absurd (.inl (by rw [hm]; simp)) hc
    exact ⟨fun x => absurd rfl x, fun v _ hv => ⟨.result ha hv, .badBody ha hv⟩⟩

theorem lookup_mem {l : List (Nat × Nat)} {n j : Nat} (h : l.lookup n = some j) : (n, j) ∈ l := by
  induction l with
  | nil => simp at h
  | cons x xs ih =>
    obtain ⟨a, b⟩ := x
    rw [List.lookup_cons] at h
    by_cases e : n = a
    · subst e; simp at h; simp [h]
    · have : (n == a) = false := beq_eq_false_iff_ne.2 e
      rw [this] at h
      exact List.mem_cons_of_mem _ (ih h)

theorem Step.facts {s s' : State P R} (h : Inv s) (hd : Due s) (f : Facts s) (st : Step s s') :
    Facts s' := by
  have hlog : ∀ e ∈ s.log, (s.pc e.1).early = false := by
    intro e he
    have h1 := hd e.1
    have : 0 < endings s e.1 := List.countP_pos_iff.2 ⟨e, he, by simp⟩
    cases hp : (s.pc e.1).early with
    | false => rfl
    | true => rw [hp] at h1; simp at h1; omega
  have app : ∀ {s1 : State P R} {i : Nat} {o : Outcome R}, (∀ e ∈ s.log, Good s1 e.1 e.2) →
      Good s1 i o → ∀ e ∈ s.log ++ [(i, o)], Good s1 e.1 e.2 := by
    intro s1 i o a b e he
    simp only [List.mem_append, List.mem_singleton] at he
    rcases he with he | rfl
    · exact a e he
    · exact b
  cases st with
  | call c =>
    refine ⟨f.silent, f.deliver, f.keep rfl rfl rfl ?_ (fun _ => id) id id, ?_, f.bad⟩
    · intro i c' hc
      show (s.calls ++ [c])[i]? = some c'
      rw [List.getElem?_append_left (List.getElem?_eq_some_iff.1 hc).1, hc]
    · intro i n hi
      by_cases e : i = s.calls.length
      · subst e; simp at hi
      · simp only [set_other e] at hi; exact f.failed i n hi
  | @lock i hp ho =>
    refine ⟨f.silent, f.deliver, f.keep rfl rfl rfl (fun _ _ => id) (fun _ => id) id id, ?_, f.bad⟩
    intro j n hj
    by_cases e : j = i
    · subst e; simp at hj
    · simp only [set_other e] at hj; exact f.failed j n hj
  | @refuse i hp hc =>
    refine ⟨f.silent, f.deliver, app (f.keep rfl rfl rfl (fun _ _ => id) (fun _ => id) id id)
      (.refused (h.early i (by rw [hp]; rfl)) hc), ?_, f.bad⟩
    intro j n hj
    by_cases e : j = i
    · subst e; simp at hj
    · simp only [set_other e] at hj; exact f.failed j n hj
  | @register i hp hc =>
    have hh := fun n => heard_register h n (s' := { s with
        seq := s.seq + 1, pending := (s.seq, i) :: s.pending, pc := set s.pc i (.writing s.seq),
        ids := s.ids ++ [i], since := s.since ++ [s.received.length] }) rfl rfl
    have hids : ∀ (j n : Nat), s.ids[n]? = some j → (s.ids ++ [i])[n]? = some j := by
      intro j n hn
      rw [List.getElem?_append_left (List.getElem?_eq_some_iff.1 hn).1, hn]
    refine ⟨?_, ?_, ?_, ?_, ?_⟩
    · intro e he
      rw [hh]
      simp only [List.mem_cons] at he
      rcases he with rfl | he
      · exact heard_none_of_le h (Nat.le_refl _)
      · exact f.silent e he
    · intro j e r hj
      obtain ⟨n, m, a, b, c⟩ := f.deliver j e r hj
      exact ⟨n, m, hids _ _ a, (hh n).trans b, c⟩
    · intro e he
      refine (f.log e he).mono (hids _) ?_ (fun _ => id) (fun n m _ hm => (hh n).trans hm)
        (fun _ n hm => (hh n).trans hm) id id id
      intro hn
      simp only [List.mem_append, List.mem_singleton, not_or]
      refine ⟨hn, fun e1 => ?_⟩
      have := hlog e he
      rw [e1, hp] at this
      simp [Pc.early] at this
    · intro j n hj
      by_cases e : j = i
      · subst e; simp at hj
      · simp only [set_other e] at hj; exact f.failed j n hj
    · intro j hj
      exact List.mem_append.2 (.inl (f.bad j hj))
  | @write i n c hp hc =>
    refine ⟨f.silent, f.deliver, f.keep rfl rfl rfl (fun _ _ => id) (fun _ => id) id id, ?_, f.bad⟩
    intro j n hj
    by_cases e : j = i
    · subst e; simp at hj
    · simp only [set_other e] at hj; exact f.failed j n hj
  | @writeFail i n c got hp hc =>
    refine ⟨f.silent, f.deliver, f.keep rfl rfl rfl (fun _ _ => id)
      (fun j hj => List.mem_append.2 (.inl hj)) id id, ?_, ?_⟩
    · intro j n hj
      simp only [List.mem_append, List.mem_singleton]
      by_cases e : j = i
      · exact .inr e
      · simp only [set_other e] at hj; exact .inl (f.failed j n hj)
    · intro j hj
      simp only [List.mem_append, List.mem_singleton] at hj
      rcases hj with hj | rfl
      · exact f.bad j hj
      · exact List.mem_of_getElem? (h.number j n (by rw [hp]; rfl))
  | @giveUp i n j hp hl =>
    have hj : j = i := by
      have h1 := h.pend _ (lookup_mem hl)
      have h2 := h.number i n (by rw [hp]; rfl)
      simp only at h1
      rw [h1] at h2
      simpa using h2
    subst hj
    refine ⟨fun e he => f.silent e (List.mem_filter.1 he).1, f.deliver,
      app (f.keep rfl rfl rfl (fun _ _ => id) (fun _ => id) id id) (.unsent (f.failed j n hp)), ?_,
      f.bad⟩
    intro k n hj
    by_cases e : k = j
    · subst e; simp at hj
    · simp only [set_other e] at hj; exact f.failed k n hj
  | @gone i n hp hl =>
    refine ⟨f.silent, f.deliver, f.keep rfl rfl rfl (fun _ _ => id) (fun _ => id) id id, ?_, f.bad⟩
    intro j n hj
    by_cases e : j = i
    · subst e; simp at hj
    · simp only [set_other e] at hj; exact f.failed j n hj
  | @unlock i hp =>
    refine ⟨f.silent, f.deliver, f.keep rfl rfl rfl (fun _ _ => id) (fun _ => id) id id, ?_, f.bad⟩
    intro j n hj
    by_cases e : j = i
    · subst e; simp at hj
    · simp only [set_other e] at hj; exact f.failed j n hj
  | @receive e m hr hh =>
    have hsd := h.running (by rw [hr]; simp)
    have hrec := fun n (hn : n < s.seq) => heard_receive h hn m (s' := { s with
        received := s.received ++ [m], input := .deliver (s.pending.lookup m.id) e m.result,
        pending := s.pending.filter (fun e => e.1 != m.id) }) rfl rfl
    refine ⟨?_, ?_, ?_, f.failed, f.bad⟩
    · intro x hx
      simp only [List.mem_filter, bne_iff_ne, ne_eq] at hx
      rw [hrec _ (Numbered.lt h (h.pend x hx.1)), f.silent x hx.1]
      simp [Ne.symm hx.2]
    · intro i e' r hi
      simp only [Input.deliver.injEq] at hi
      obtain ⟨h1, rfl, rfl⟩ := hi
      have hm := lookup_mem h1
      have hn : Numbered s i m.id := h.pend _ hm
      refine ⟨m.id, m, hn, ?_, hh, rfl⟩
      rw [hrec _ (Numbered.lt h hn), f.silent _ hm]
      simp
    · intro x hx
      refine (f.log x hx).mono (fun _ => id) id (fun _ => id) (fun n m' hn hm => ?_) ?_ id id id
      · rw [hrec _ (Numbered.lt h hn), hm]
        rfl
      · intro hs
        rw [hsd] at hs
        simp at hs
  | invalid m hr hh =>
    exact ⟨f.silent, by simp, f.keep rfl rfl rfl (fun _ _ => id) (fun _ => id) id id, f.failed, f.bad⟩
  | fail hr hf =>
    exact ⟨f.silent, by simp, f.keep rfl rfl rfl (fun _ _ => id) (fun _ => id) id id, f.failed, f.bad⟩
  | ignore hr =>
    exact ⟨f.silent, by simp, f.keep rfl rfl rfl (fun _ _ => id) (fun _ => id) id id, f.failed, f.bad⟩
  | @error i e r hr he =>
    obtain ⟨n, m, a, b, c, d⟩ := f.deliver _ _ _ hr
    have hi : i < s.calls.length := by
      rcases Nat.lt_or_ge i s.calls.length with x | x
      · exact x
      · exact absurd (List.mem_of_getElem? a) (h.early i (by rw [(h.idle i).2 x]; rfl))
    refine ⟨f.silent, by simp, app (f.keep rfl rfl rfl (fun _ _ => id) (fun _ => id) id id) ?_,
      f.failed, f.bad⟩
    exact .told a (List.getElem?_eq_getElem hi) b ((header_tells c).1 he)
  | @reply i v c hr hc ha =>
    obtain ⟨n, m, a, b, c, d⟩ := f.deliver _ _ _ hr
    refine ⟨f.silent, by simp, app (f.keep rfl rfl rfl (fun _ _ => id) (fun _ => id) id id) ?_,
      f.failed, f.bad⟩
    exact .told a hc b (((header_tells c).2 v rfl d).1 ha)
  | @badBody i v c hr hc ha =>
    obtain ⟨n, m, a, b, c, d⟩ := f.deliver _ _ _ hr
    refine ⟨f.silent, by simp, app (f.keep rfl rfl rfl (fun _ _ => id) (fun _ => id) id id) ?_,
      f.failed, f.bad⟩
    exact .told a hc b (((header_tells c).2 v rfl d).2 ha)
  | @terminate g hr ho =>
    refine ⟨f.silent, by simp, ?_, f.failed, f.bad⟩
    intro x hx
    simp only [List.mem_append, List.mem_map] at hx
    rcases hx with hx | ⟨y, hy, rfl⟩
    · exact f.keep (s' := { s with
          shutdown := true, input := .finished,
          log := s.log ++ s.pending.map (fun e => (e.2, lastError g s.closing)) })
        rfl rfl rfl (fun _ _ => id) (fun _ => id) (fun _ => rfl) id x hx
    · have hn := h.pend y hy
      have hq := f.silent y hy
      simp only
      cases g with
      | eof =>
        unfold lastError
        simp only
        split
        · rename_i hc; exact .closed hn rfl hc hq
        · exact .eof hn rfl hq
      | _ => exact .broken hn rfl (by simp) hq
  | close hc =>
    exact ⟨f.silent, f.deliver, f.keep rfl rfl rfl (fun _ _ => id) (fun _ => id) id (fun _ => rfl),
      f.failed, f.bad⟩

theorem Steps.facts {s : State P R} (h : Steps start s) : Facts s := by
  induction h with
  | refl => exact facts_start
  | step h st ih => exact st.facts h.inv h.due ih

/-! ### Requests -/

/-- Requests that have been written. -/
structure Wire (s : State P R) : Prop where
  sent : ∀ q ∈ s.sent, ∃ i n c, Numbered s i n ∧ s.calls[i]? = some c ∧ q = c.request n
  fresh : ∀ i n, s.pc i = .writing n → ∀ q ∈ s.sent, q.id ≠ some n
  once : (s.sent.map (·.id)).Nodup
  written : ∀ (i n : Nat) (c : Call P R), Numbered s i n → s.calls[i]? = some c →
    (s.pc i).number = none → i ∉ s.bad → c.request n ∈ s.sent

theorem wire_start : Wire (start : State P R) := by
  constructor <;> simp [start, Numbered]

/-- A step that writes nothing. -/
theorem Wire.keep {s s' : State P R} (w : Wire s) (h1 : s'.sent = s.sent) (h2 : s'.ids = s.ids)
    (h3 : s'.calls = s.calls) (h4 : s'.bad = s.bad)
    (h5 : ∀ i n, s'.pc i = .writing n → s.pc i = .writing n)
    (h6 : ∀ i, (s'.pc i).number = none → i ∈ s.ids → i ∉ s.bad → (s.pc i).number = none) :
    Wire s' := by
  refine ⟨fun q hq => ?_, fun i n hi q hq => ?_, by rw [h1]; exact w.once,
    fun i n c a b d e => ?_⟩
  · rw [h1] at hq
    obtain ⟨i, n, c, a, b, d⟩ := w.sent q hq
    exact ⟨i, n, c, by unfold Numbered at a ⊢; rw [h2]; exact a, by rw [h3]; exact b, d⟩
  · rw [h1] at hq
    exact w.fresh i n (h5 i n hi) q hq
  · rw [h1]
    unfold Numbered at a
    rw [h2] at a
    rw [h3] at b
    rw [h4] at e
    exact w.written i n c a b (h6 i d (List.mem_of_getElem? a) e) e

theorem set_writing {f : Nat → Pc} {k : Nat} {p : Pc} (hp : ∀ n, p ≠ .writing n) (i n : Nat)
    (h : set f k p i = .writing n) : f i = .writing n := by
  by_cases e : i = k
  · subst e; rw [set_same] at h; exact absurd h (hp n)
  · rw [set_other e] at h; exact h

theorem set_number {f : Nat → Pc} {k : Nat} {p : Pc} (hk : p.number = none → (f k).number = none)
    (i : Nat) (h : (set f k p i).number = none) : (f i).number = none := by
  by_cases e : i = k
  · subst e; rw [set_same] at h; exact hk h
  · rw [set_other e] at h; exact h

theorem Step.wire {s s' : State P R} (h : Inv s) (f : Facts s) (w : Wire s) (st : Step s s') :
    Wire s' := by
  have hwrite : ∀ (i n : Nat) (c : Call P R), s.pc i = .writing n → s.calls[i]? = some c →
      ((s.sent ++ [c.request n]).map (·.id)).Nodup := by
    intro i n c hp hc
    rw [List.map_append, List.nodup_append]
    refine ⟨w.once, by simp, ?_⟩
    intro a ha b hb e
    simp only [List.map_cons, List.map_nil, List.mem_singleton] at hb
    obtain ⟨q, hq, rfl⟩ := List.mem_map.1 ha
    exact w.fresh i n hp q hq (e.trans hb)
  have hother : ∀ (i n j m : Nat) (p : Pc), s.pc i = .writing n → (∀ k, p ≠ .writing k) →
      set s.pc i p j = .writing m → m ≠ n := by
    intro i n j m p hp hne hj e
    have hj' := set_writing hne j m hj
    have h1 := h.number i n (by rw [hp]; rfl)
    have h2 := h.number j m (by rw [hj']; rfl)
    rw [e, h1] at h2
    have : i = j := by simpa using h2
    subst this
    rw [set_same] at hj
    exact hne _ hj
  cases st with
  | call c =>
    have hid : s.pc s.calls.length = .idle := (h.idle _).2 (Nat.le_refl _)
    refine ⟨fun q hq => ?_, fun i n hi q hq => ?_, w.once, fun i n c' a b d e => ?_⟩
    · obtain ⟨i, n, c', a, b, d⟩ := w.sent q hq
      refine ⟨i, n, c', a, ?_, d⟩
      show (s.calls ++ [c])[i]? = some c'
      rw [List.getElem?_append_left (List.getElem?_eq_some_iff.1 b).1, b]
    · exact w.fresh i n (set_writing (by simp) i n hi) q hq
    · have hi : i < s.calls.length := by
        rcases Nat.lt_or_ge i s.calls.length with x | x
        · exact x
        · exact absurd (List.mem_of_getElem? a) (h.early i (by rw [(h.idle i).2 x]; rfl))
      simp only at b
      rw [List.getElem?_append_left hi] at b
      refine w.written i n c' a b ?_ e
      simp only [set_other (Nat.ne_of_lt hi)] at d
      exact d
  | @lock i hp ho =>
    exact w.keep rfl rfl rfl rfl (set_writing (by simp))
      (fun j a _ _ => set_number (by rw [hp]; simp [Pc.number]) j a)
  | @refuse i hp hc =>
    exact w.keep rfl rfl rfl rfl (set_writing (by simp))
      (fun j a _ _ => set_number (by rw [hp]; simp [Pc.number]) j a)
  | @register i hp hc =>
    refine ⟨fun q hq => ?_, fun j n hj q hq e => ?_, w.once, fun j n c a b d e => ?_⟩
    · obtain ⟨j, n, c, a, b, d⟩ := w.sent q hq
      refine ⟨j, n, c, ?_, b, d⟩
      show (s.ids ++ [i])[n]? = some j
      rw [List.getElem?_append_left (List.getElem?_eq_some_iff.1 a).1]
      exact a
    · obtain ⟨k, m, c, a, b, rfl⟩ := w.sent q hq
      simp only [Call.request, Option.some.injEq] at e
      subst e
      by_cases e : j = i
      · subst e
        simp only [set_same, Pc.writing.injEq] at hj
        have := Numbered.lt h a
        omega
      · simp only [set_other e] at hj
        exact w.fresh j m hj _ hq rfl
    · have hj : j ≠ i := by
        rintro rfl
        simp [Pc.number] at d
      simp only [set_other hj] at d
      refine w.written j n c ?_ b d e
      have a' : (s.ids ++ [i])[n]? = some j := a
      rcases Nat.lt_or_ge n s.ids.length with x | x
      · rw [List.getElem?_append_left x] at a'; exact a'
      · rw [List.getElem?_append_right x] at a'
        have := List.mem_of_getElem? a'
        simp only [List.mem_singleton] at this
        exact absurd this hj
  | @write i n c hp hc =>
    have hn := h.number i n (by rw [hp]; rfl)
    refine ⟨fun q hq => ?_, fun j m hj q hq => ?_, hwrite i n c hp hc, fun j m c' a b d e => ?_⟩
    · simp only [List.mem_append, List.mem_singleton] at hq
      rcases hq with hq | rfl
      · exact w.sent q hq
      · exact ⟨i, n, c, hn, hc, rfl⟩
    · simp only [List.mem_append, List.mem_singleton] at hq
      rcases hq with hq | rfl
      · exact w.fresh j m (set_writing (by simp) j m hj) q hq
      · have := hother i n j m _ hp (by simp) hj
        simp only [Call.request, ne_eq, Option.some.injEq]
        exact fun e => this e.symm
    · simp only [List.mem_append, List.mem_singleton]
      by_cases e1 : j = i
      · subst e1
        have := Numbered.inj h a hn
        subst this
        have hcc : c' = c := by
          have b' : s.calls[j]? = some c' := b
          rw [hc] at b'
          simpa using b'.symm
        exact .inr (by rw [hcc])
      · simp only [set_other e1] at d
        exact .inl (w.written j m c' a b d e)
  | @writeFail i n c got hp hc =>
    have hn := h.number i n (by rw [hp]; rfl)
    have hsub : ∀ q ∈ s.sent, q ∈ if got = true then s.sent ++ [c.request n] else s.sent := by
      intro q hq
      split
      · exact List.mem_append.2 (.inl hq)
      · exact hq
    refine ⟨fun q hq => ?_, fun j m hj q hq => ?_, ?_, fun j m c' a b d e => ?_⟩
    · simp only at hq
      split at hq
      · simp only [List.mem_append, List.mem_singleton] at hq
        rcases hq with hq | rfl
        · exact w.sent q hq
        · exact ⟨i, n, c, hn, hc, rfl⟩
      · exact w.sent q hq
    · simp only at hq
      split at hq
      · simp only [List.mem_append, List.mem_singleton] at hq
        rcases hq with hq | rfl
        · exact w.fresh j m (set_writing (by simp) j m hj) q hq
        · have := hother i n j m _ hp (by simp) hj
          simp only [Call.request, ne_eq, Option.some.injEq]
          exact fun e => this e.symm
      · exact w.fresh j m (set_writing (by simp) j m hj) q hq
    · simp only
      split
      · exact hwrite i n c hp hc
      · exact w.once
    · simp only [List.mem_append, List.mem_singleton, not_or] at e
      simp only [set_other e.2] at d
      exact hsub _ (w.written j m c' a b d e.1)
  | @giveUp i n j hp hl =>
    refine w.keep rfl rfl rfl rfl (set_writing (by simp)) ?_
    intro k a _ hb
    by_cases e : k = i
    · subst e; exact absurd (f.failed k n hp) hb
    · simp only [set_other e] at a; exact a
  | @gone i n hp hl =>
    refine w.keep rfl rfl rfl rfl (set_writing (by simp)) ?_
    intro k a _ hb
    by_cases e : k = i
    · subst e; exact absurd (f.failed k n hp) hb
    · simp only [set_other e] at a; exact a
  | @unlock i hp =>
    exact w.keep rfl rfl rfl rfl (set_writing (by simp))
      (fun j a _ _ => set_number (by rw [hp]; simp [Pc.number]) j a)
  | receive m hr hh => exact w.keep rfl rfl rfl rfl (fun _ _ => id) (fun _ a _ _ => a)
  | invalid m hr hh => exact w.keep rfl rfl rfl rfl (fun _ _ => id) (fun _ a _ _ => a)
  | fail hr hf => exact w.keep rfl rfl rfl rfl (fun _ _ => id) (fun _ a _ _ => a)
  | ignore hr => exact w.keep rfl rfl rfl rfl (fun _ _ => id) (fun _ a _ _ => a)
  | error hr he => exact w.keep rfl rfl rfl rfl (fun _ _ => id) (fun _ a _ _ => a)
  | reply hr hc ha => exact w.keep rfl rfl rfl rfl (fun _ _ => id) (fun _ a _ _ => a)
  | badBody hr hc ha => exact w.keep rfl rfl rfl rfl (fun _ _ => id) (fun _ a _ _ => a)
  | terminate hr ho => exact w.keep rfl rfl rfl rfl (fun _ _ => id) (fun _ a _ _ => a)
  | close hc => exact w.keep rfl rfl rfl rfl (fun _ _ => id) (fun _ a _ _ => a)

theorem Steps.wire {s : State P R} (h : Steps start s) : Wire s := by
  induction h with
  | refl => exact wire_start
  | step h st ih => exact st.wire h.inv h.facts ih

/-! ### Theorems -/

/-- A call ends at most once. -/
theorem c60_once {s : State P R} (h : Steps start s) (i : Nat) :
    s.log.countP (fun e => e.1 == i) ≤ 1 := by
  have := h.due i
  unfold endings at this
  split at this <;> omega

/-- A call ends with what the first message with its number tells, or with a failure of the
connection. -/
theorem c60_outcome {s : State P R} (h : Steps start s) {i : Nat} {o : Outcome R}
    (ho : (i, o) ∈ s.log) : Good s i o := h.facts.log _ ho

/-- Different calls have different numbers. -/
theorem c60_numbers {s : State P R} (h : Steps start s) {i j n m : Nat} (h1 : Numbered s i n)
    (h2 : Numbered s j m) : i = j ↔ n = m := by
  constructor
  · rintro rfl; exact Numbered.inj h.inv h1 h2
  · rintro rfl
    unfold Numbered at h1 h2
    rw [h1] at h2
    simpa using h2

/-- Requests are those of the calls, at most one for a call; a call that has been given a number
has its request written unless there was an error. -/
theorem c60_requests {s : State P R} (h : Steps start s) :
    (∀ q ∈ s.sent, ∃ i n c, Numbered s i n ∧ s.calls[i]? = some c ∧
      q = ⟨some n, c.method, some c.param⟩) ∧
    (s.sent.map (·.id)).Nodup ∧
    ∀ (i n : Nat) (c : Call P R), Numbered s i n → s.calls[i]? = some c → s.pc i = .sent →
      i ∉ s.bad → ⟨some n, c.method, some c.param⟩ ∈ s.sent :=
  ⟨h.wire.sent, h.wire.once, fun i n c a b d e => h.wire.written i n c a b (by rw [d]; rfl) e⟩

theorem endings_pos {s : State P R} {i : Nat} (h : 0 < endings s i) : ∃ o, (i, o) ∈ s.log := by
  obtain ⟨e, he, h1⟩ := List.countP_pos_iff.1 h
  have : e.1 = i := by simpa using h1
  exact ⟨e.2, by rw [← this]; exact he⟩

theorem not_early {s : State P R} (h : Inv s) {i n : Nat} (hn : Numbered s i n) :
    (s.pc i).early = false := by
  cases hp : (s.pc i).early with
  | false => rfl
  | true => exact absurd (List.mem_of_getElem? hn) (h.early i hp)

/-- A message with the number of a call is not lost: unless it is being handled, the call has ended
with what the first such message tells, or has ended before since its request was not written. -/
theorem c60_heard {s : State P R} (h : Steps start s) {i n : Nat} {m : Message R}
    (hn : Numbered s i n) (hm : heard s n = some m)
    (hi : ∀ e r, s.input ≠ .deliver (some i) e r) :
    ∃ o, (i, o) ∈ s.log ∧ (o = .unsent ∨ ∃ c, s.calls[i]? = some c ∧ Tells c m o) := by
  have hd := h.due i
  rw [not_early h.inv hn] at hd
  have h1 : delivering s i = 0 := by
    unfold delivering
    split
    · rename_i j e r hj
      split
      · rename_i e1; subst e1; exact absurd hj (hi e r)
      · rfl
    · rfl
  have h2 : waiting s i = 0 := by
    unfold waiting
    split
    · rfl
    · rw [List.countP_eq_zero]
      intro e he
      simp only [beq_iff_eq]
      intro e1
      have h3 := h.inv.pend e he
      rw [e1] at h3
      have := Numbered.inj h.inv hn h3
      have h4 := h.facts.silent e he
      rw [← this, hm] at h4
      simp at h4
  obtain ⟨o, ho⟩ := endings_pos (s := s) (i := i) (by simp at hd; omega)
  refine ⟨o, ho, ?_⟩
  have bad : ∀ n', Numbered s i n' → heard s n' ≠ none := by
    intro n' hn' e
    rw [← Numbered.inj h.inv hn hn', hm] at e
    simp at e
  cases h.facts.log _ ho with
  | told a b c d =>
    have := Numbered.inj h.inv hn a
    subst this
    rw [hm] at c
    simp only [Option.some.injEq] at c
    subst c
    exact .inr ⟨_, b, d⟩
  | unsent a => exact .inl rfl
  | refused a b => exact absurd (List.mem_of_getElem? hn) a
  | closed a b c d => exact absurd d (bad _ a)
  | eof a b d => exact absurd d (bad _ a)
  | broken a b c d => exact absurd d (bad _ a)

/-- A step other than a new call, `Close` and reading. -/
def Inner (s s' : State P R) : Prop :=
  Step s s' ∧ s'.calls.length = s.calls.length ∧ s'.closing = s.closing ∧
    (s.input = .reading → s'.input = .reading)

/-- Nothing hangs: if no step can be made other than reading, all calls have written their requests;
they have ended, or the client waits for messages. -/
theorem c60_progress {s : State P R} (h : Steps start s) (hstuck : ∀ s', ¬ Inner s s') :
    (∀ i, i < s.calls.length → s.pc i = .sent) ∧
    (s.input = .reading ∨ s.input = .finished ∧
      ∀ i, i < s.calls.length → ∃ o, (i, o) ∈ s.log) := by
  have hi := h.inv
  have hcall : ∀ i, s.pc i ≠ .idle → ∃ c, s.calls[i]? = some c := by
    intro i hne
    rcases Nat.lt_or_ge i s.calls.length with x | x
    · exact ⟨_, List.getElem?_eq_getElem x⟩
    · exact absurd ((hi.idle i).2 x) hne
  have free : ∀ i, (s.pc i).holds = false := by
    intro i
    cases hp : s.pc i with
    | idle => rfl
    | want => rfl
    | sent => rfl
    | locked =>
      cases hc : (s.shutdown || s.closing) with
      | true => exact (hstuck _ ⟨.refuse hp hc, rfl, rfl, id⟩).elim
      | false => exact (hstuck _ ⟨.register hp hc, rfl, rfl, id⟩).elim
    | writing n =>
      obtain ⟨c, hc⟩ := hcall i (by rw [hp]; simp)
      exact (hstuck _ ⟨.write hp hc, rfl, rfl, id⟩).elim
    | failed n =>
      cases hl : s.pending.lookup n with
      | none => exact (hstuck _ ⟨.gone hp hl, rfl, rfl, id⟩).elim
      | some j => exact (hstuck _ ⟨.giveUp hp hl, rfl, rfl, id⟩).elim
    | unlock => exact (hstuck _ ⟨.unlock hp, rfl, rfl, id⟩).elim
  have ho : s.owner = none := by
    cases hw : s.owner with
    | none => rfl
    | some i => have := (hi.owner i).1 hw; rw [free i] at this; simp at this
  have hsent : ∀ i, i < s.calls.length → s.pc i = .sent := by
    intro i hl
    have hf := free i
    cases hp : s.pc i with
    | idle => have := (hi.idle i).1 hp; omega
    | want => exact (hstuck _ ⟨.lock hp ho, rfl, rfl, id⟩).elim
    | sent => rfl
    | _ => rw [hp] at hf; simp [Pc.holds] at hf
  refine ⟨hsent, ?_⟩
  cases hin : s.input with
  | reading => exact .inl rfl
  | ended f => exact (hstuck _ ⟨.terminate hin ho, rfl, rfl, by rw [hin]; simp⟩).elim
  | deliver j e r =>
    exfalso
    cases j with
    | none => exact hstuck _ ⟨.ignore hin, rfl, rfl, fun _ => rfl⟩
    | some j =>
      by_cases he : e = []
      · subst he
        obtain ⟨n, m, a, b, c, d⟩ := h.facts.deliver _ _ _ hin
        obtain ⟨cl, hc⟩ := hcall j (by
          intro x
          have := not_early hi a
          rw [x] at this
          simp [Pc.early] at this)
        have hr : ∃ v, r = some v := by
          rw [← d]
          unfold Message.header at c
          split at c
          · split at c
            · simp only [Option.some.injEq] at c
              split at c
              · simp at c
              · rename_i hx; exact absurd c hx
            · simp at c
          · rename_i hx
            cases hr : m.result with
            | none => exact absurd (.inr (by rw [hr]; rfl)) hx
            | some v => exact ⟨v, rfl⟩
        obtain ⟨v, rfl⟩ := hr
        cases ha : cl.accepts v with
        | true => exact hstuck _ ⟨.reply hin hc ha, rfl, rfl, fun _ => rfl⟩
        | false => exact hstuck _ ⟨.badBody hin hc ha, rfl, rfl, by rw [hin]; simp⟩
      · exact hstuck _ ⟨.error hin he, rfl, rfl, fun _ => rfl⟩
  | finished =>
    refine .inr ⟨rfl, fun i hl => ?_⟩
    have hd := h.due i
    rw [hsent i hl] at hd
    have hs := hi.fin.2 hin
    simp only [delivering, waiting, hin, hs, Pc.early, Bool.false_eq_true, if_false, if_true] at hd
    exact endings_pos (by omega)

/-- Steps left for a call. -/
def Pc.rank : Pc → Nat
  | .idle => 0
  | .want => 5
  | .locked => 4
  | .writing _ => 3
  | .failed _ => 2
  | .unlock => 1
  | .sent => 0

/-- The same for all calls. -/
def total (f : Nat → Pc) : Nat → Nat
  | 0 => 0
  | n + 1 => total f n + (f n).rank

/-- Steps left for the reader. -/
def Input.rank : Input R → Nat
  | .deliver _ _ _ => 2
  | .ended _ => 1
  | _ => 0

theorem total_set_ge (f : Nat → Pc) (k : Nat) (p : Pc) (n : Nat) (h : n ≤ k) :
    total (set f k p) n = total f n := by
  induction n with
  | zero => rfl
  | succ n ih => simp only [total]; rw [ih (by omega), set_other (by omega)]

theorem total_set (f : Nat → Pc) (k : Nat) (p : Pc) (n : Nat) (h : k < n) :
    total (set f k p) n + (f k).rank = total f n + p.rank := by
  induction n with
  | zero => omega
  | succ n ih =>
    simp only [total]
    by_cases e : k = n
    · subst e
      rw [total_set_ge f k p k (Nat.le_refl _), set_same]
      omega
    · rw [set_other (Ne.symm e)]
      have := ih (by omega)
      omega

/-- Steps left. -/
def left (s : State P R) : Nat := total s.pc s.calls.length + s.input.rank

theorem rank_le (p : Pc) : p.rank ≤ 5 := by cases p <;> simp [Pc.rank]

theorem total_le (f : Nat → Pc) (n : Nat) : total f n ≤ 5 * n := by
  induction n with
  | zero => simp [total]
  | succ n ih => simp only [total]; have := rank_le (f n); omega

theorem Inner.left {s s' : State P R} (h : Inv s) (st : Inner s s') : left s' < left s := by
  obtain ⟨st, h1, h2, h3⟩ := st
  have hlt : ∀ i, s.pc i ≠ .idle → i < s.calls.length := by
    intro i hne
    rcases Nat.lt_or_ge i s.calls.length with x | x
    · exact x
    · exact absurd ((h.idle i).2 x) hne
  have move : ∀ (i : Nat) (p : Pc), s.pc i ≠ .idle → p.rank < (s.pc i).rank →
      total (set s.pc i p) s.calls.length < total s.pc s.calls.length := by
    intro i p hne hr
    have := total_set s.pc i p s.calls.length (hlt i hne)
    omega
  unfold Client.left
  cases st with
  | call c => simp at h1
  | @lock i hp ho =>
    have := move i .locked (by rw [hp]; simp) (by rw [hp]; simp [Pc.rank]); simp only; omega
  | @refuse i hp hc =>
    have := move i .unlock (by rw [hp]; simp) (by rw [hp]; simp [Pc.rank]); simp only; omega
  | @register i hp hc =>
    have := move i (.writing s.seq) (by rw [hp]; simp) (by rw [hp]; simp [Pc.rank]); simp only; omega
  | @write i n c hp hc =>
    have := move i .unlock (by rw [hp]; simp) (by rw [hp]; simp [Pc.rank]); simp only; omega
  | @writeFail i n c got hp hc =>
    have := move i (.failed n) (by rw [hp]; simp) (by rw [hp]; simp [Pc.rank]); simp only; omega
  | @giveUp i n j hp hl =>
    have := move i .unlock (by rw [hp]; simp) (by rw [hp]; simp [Pc.rank]); simp only; omega
  | @gone i n hp hl =>
    have := move i .unlock (by rw [hp]; simp) (by rw [hp]; simp [Pc.rank]); simp only; omega
  | @unlock i hp =>
    have := move i .sent (by rw [hp]; simp) (by rw [hp]; simp [Pc.rank]); simp only; omega
  | receive m hr hh => have := h3 hr; simp at this
  | invalid m hr hh => have := h3 hr; simp at this
  | fail hr hf => have := h3 hr; simp at this
  | ignore hr => simp [hr, Input.rank]
  | error hr he => simp [hr, Input.rank]
  | reply hr hc ha => simp [hr, Input.rank]
  | badBody hr hc ha => simp [hr, Input.rank]
  | terminate hr ho => simp [hr, Input.rank]
  | close hc => simp [hc] at h2

/-- A number of such steps. -/
inductive Inners (s : State P R) : Nat → State P R → Prop where
  | refl : Inners s 0 s
  | step {n t u} : Inners s n t → Inner t u → Inners s (n + 1) u

theorem Inners.steps {s t : State P R} {n : Nat} (h : Inners s n t) (hs : Steps start s) :
    Steps start t ∧ n + left t ≤ left s ∧ t.calls.length = s.calls.length := by
  induction h with
  | refl => exact ⟨hs, by omega, rfl⟩
  | step _ st ih =>
    refine ⟨ih.1.step st.1, ?_, st.2.1.trans ih.2.2⟩
    have := st.left ih.1.inv
    omega

/-- Without new calls, `Close` and messages the client stops after a bounded number of steps, so
all calls have ended soon after the reader has. -/
theorem c60_ends {s t : State P R} {n : Nat} (h : Steps start s) (hn : Inners s n t) :
    n ≤ 5 * s.calls.length + 2 := by
  have := (hn.steps h).2.1
  have h1 := total_le s.pc s.calls.length
  have h2 : s.input.rank ≤ 2 := by cases s.input <;> simp [Input.rank]
  unfold left at this
  omega

theorem Step.closed {s s' : State P R} (hc : s.closing = true) (st : Step s s') :
    s'.closing = true ∧ s'.ids = s.ids := by
  cases st with
  | register hp h => rw [hc] at h; simp at h
  | close h => exact ⟨rfl, rfl⟩
  | _ => exact ⟨hc, rfl⟩

theorem Step.calls {s s' : State P R} (st : Step s s') : s.calls.length ≤ s'.calls.length := by
  cases st <;> simp

theorem Steps.trans {s t u : State P R} (h1 : Steps s t) (h2 : Steps t u) : Steps s u := by
  induction h2 with
  | refl => exact h1
  | step _ st ih => exact ih.step st

/-- After `Close` no call is given a number, so requests of new calls are not written and the calls
fail with `ErrShutdown`. -/
theorem c60_closed {s t : State P R} (h : Steps start s) (hc : s.closing = true) (hs : Steps s t) :
    t.ids = s.ids ∧ ∀ i, s.calls.length ≤ i →
      (∀ n, ¬Numbered t i n) ∧ ∀ o, (i, o) ∈ t.log → o = .shutdown := by
  have key : t.closing = true ∧ t.ids = s.ids := by
    induction hs with
    | refl => exact ⟨hc, rfl⟩
    | step _ st ih => exact ⟨(st.closed ih.1).1, (st.closed ih.1).2.trans ih.2⟩
  refine ⟨key.2, fun i hi => ?_⟩
  have hno : i ∉ t.ids := by
    rw [key.2]
    exact h.inv.early i (by rw [(h.inv.idle i).2 hi]; rfl)
  have hnn : ∀ n, ¬Numbered t i n := fun n hn => hno (List.mem_of_getElem? hn)
  refine ⟨hnn, fun o ho => ?_⟩
  have ht := h.trans hs
  cases ht.facts.log _ ho with
  | told a => exact absurd a (hnn _)
  | unsent a => exact absurd (ht.facts.bad i a) hno
  | refused a b => rfl
  | closed a b c d => exact absurd a (hnn _)
  | eof a b d => exact absurd a (hnn _)
  | broken a b c d => exact absurd a (hnn _)

/-! ### With the backend -/

/-- A reply of the backend as it is read by the client: `null` is not told from an absent
result. -/
def message {V : Type} (isNull : V → Bool) (p : Server.Reply Nat V) : Message V :=
  match p.body with
  | .result v => ⟨p.id.getD 0, if isNull v then none else some v, .absent⟩
  | .error msg => ⟨p.id.getD 0, none, .text msg⟩

/-- The client connected to the backend: requests read by the backend are a beginning of those
written by the client, messages read by the client are a beginning of replies.  The result of a call
is that of its own method and parameter, the error of a call is that of its own method. -/
theorem c60_answers {A V : Type} {w : Server.World P A V} {isNull : V → Bool} {s : State P V}
    (h : Steps start s) {reqs : List (Request Nat P)} {k : Nat} {t : Server.State Nat P A V}
    (hb : Server.Steps w (Server.start reqs) k t) (hreq : reqs <+: s.sent)
    (hrep : s.received <+: t.out.map (message isNull)) {i : Nat} {c : Call P V}
    (hc : s.calls[i]? = some c) {o : Outcome V} (ho : (i, o) ∈ s.log) :
    (∀ v, o = .reply v → ∃ n : Nat, Server.Answers w ⟨some n, c.method, some c.param⟩ (.result v)) ∧
    (∀ msg, o = .server msg →
      ∃ n : Nat, Server.Answers w ⟨some n, c.method, some c.param⟩ (.error msg)) := by
  obtain ⟨ks, hm⟩ := Server.c59_replies hb
  have key : ∀ n m, Numbered s i n → heard s n = some m → ∃ b, m = message isNull ⟨some n, b⟩ ∧
      Server.Answers w (c.request n) b := by
    intro n m hn hh
    have hmem : m ∈ s.received ∧ m.id = n := by
      unfold heard at hh
      rw [Option.bind_eq_some_iff] at hh
      obtain ⟨d, -, hd⟩ := hh
      exact ⟨List.mem_of_mem_drop (List.mem_of_find?_eq_some hd),
        by simpa using List.find?_some hd⟩
    obtain ⟨p, hp, hpm⟩ := List.mem_map.1 (hrep.subset hmem.1)
    obtain ⟨j, hj⟩ := List.getElem?_of_mem hp
    have hjl := (List.getElem?_eq_some_iff.1 hj).1
    rw [← hm.length] at hjl
    obtain ⟨r, hr, hid, ha⟩ := hm.answers j _ p (List.getElem?_eq_getElem hjl) hj
    obtain ⟨i', n', c', a1, a2, a3⟩ := h.wire.sent r (hreq.subset (List.mem_of_getElem? hr))
    have hid' : p.id = some n' := by rw [hid, a3]; rfl
    have hn' : n' = n := by
      rw [← hmem.2, ← hpm]
      unfold message
      rw [hid']
      split <;> rfl
    subst hn'
    have hi : i' = i := (c60_numbers h a1 hn).2 rfl
    subst hi
    rw [hc] at a2
    simp only [Option.some.injEq] at a2
    subst a2
    refine ⟨p.body, ?_, by rw [← a3]; exact ha⟩
    rw [← hpm]
    unfold message
    rw [hid']
  have errs : ∀ n msg, Server.Answers w (c.request n) (.error msg) → msg ≠ [] := by
    intro n msg ha
    cases ha <;> assumption
  refine ⟨?_, ?_⟩
  · rintro v rfl
    cases h.facts.log _ ho with
    | told a b d e =>
      rename_i n c' m
      obtain ⟨body, hbm, hba⟩ := key n m a d
      cases e with
      | result e1 e2 e3 =>
        refine ⟨n, ?_⟩
        cases body with
        | error msg => rw [hbm] at e1; simp [message] at e1
        | result v' =>
          rw [hbm] at e2
          simp only [message] at e2
          split at e2
          · simp at e2
          · simp only [Option.some.injEq] at e2
            subst e2
            exact hba
  · rintro msg rfl
    cases h.facts.log _ ho with
    | told a b d e =>
      rename_i n c' m
      obtain ⟨body, hbm, hba⟩ := key n m a d
      cases e with
      | error e1 e2 =>
        refine ⟨n, ?_⟩
        cases body with
        | result v' => rw [hbm] at e1; simp [message] at e1
        | error msg' =>
          rw [hbm] at e1
          simp only [message, ErrField.text.injEq] at e1
          subst e1
          exact hba
      | unspecified e1 =>
        cases body with
        | result v' => rw [hbm] at e1; simp [message] at e1
        | error msg' =>
          rw [hbm] at e1
          simp only [message, ErrField.text.injEq] at e1
          subst e1
          exact absurd rfl (errs _ _ hba)

/-! ### Examples -/

section Examples

abbrev Ex := State Nat Nat

/-- A call that accepts small numbers. -/
def ask (x : Nat) (m : Str := "f".toList) : Call Nat Nat := ⟨m, x, fun v => v < 100⟩

/-- Steps by name. -/
inductive Ev where
  | call (x : Nat) (m : Str := "f".toList) | lock (i : Nat) | refuse (i : Nat) | register (i : Nat) | write (i : Nat)
  | writeFail (i : Nat) | giveUp (i : Nat) | unlock (i : Nat) | receive (m : Message Nat)
  | invalid (m : Message Nat) | fail | deliver | terminate | close

/-- A step by its name. -/
def step? (s : Ex) : Ev → Option Ex
  | .call x m => some { s with calls := s.calls ++ [ask x m], pc := set s.pc s.calls.length .want }
  | .lock i => if s.pc i = .want ∧ s.owner = none then
      some { s with owner := some i, pc := set s.pc i .locked } else none
  | .refuse i => if s.pc i = .locked ∧ (s.shutdown || s.closing) = true then
      some { s with log := s.log ++ [(i, .shutdown)], pc := set s.pc i .unlock } else none
  | .register i => if s.pc i = .locked ∧ (s.shutdown || s.closing) = false then
      some { s with seq := s.seq + 1, pending := (s.seq, i) :: s.pending,
                    pc := set s.pc i (.writing s.seq),
                    ids := s.ids ++ [i], since := s.since ++ [s.received.length] } else none
  | .write i => match s.pc i, s.calls[i]? with
    | .writing n, some c =>
      some { s with sent := s.sent ++ [c.request n], pc := set s.pc i .unlock }
    | _, _ => none
  | .writeFail i => match s.pc i, s.calls[i]? with
    | .writing n, some _ => some { s with bad := s.bad ++ [i], pc := set s.pc i (.failed n) }
    | _, _ => none
  | .giveUp i => match s.pc i with
    | .failed n => match s.pending.lookup n with
      | some j => some { s with pending := s.pending.filter (fun e => e.1 != n),
                                log := s.log ++ [(j, .unsent)], pc := set s.pc i .unlock }
      | none => none
    | _ => none
  | .unlock i => if s.pc i = .unlock then
      some { s with owner := none, pc := set s.pc i .sent } else none
  | .receive m => match s.input, m.header with
    | .reading, some e =>
      some { s with received := s.received ++ [m],
                    input := .deliver (s.pending.lookup m.id) e m.result,
                    pending := s.pending.filter (fun e => e.1 != m.id) }
    | _, _ => none
  | .invalid m => match s.input, m.header with
    | .reading, none => some { s with input := .ended .invalid }
    | _, _ => none
  | .fail => match s.input with
    | .reading => some { s with input := .ended .eof }
    | _ => none
  | .deliver => match s.input with
    | .deliver none _ _ => some { s with input := .reading }
    | .deliver (some i) [] (some v) => match s.calls[i]? with
      | some c => match c.accepts v with
        | true => some { s with input := .reading, log := s.log ++ [(i, .reply v)] }
        | false => some { s with input := .ended .badBody, log := s.log ++ [(i, .badBody)] }
      | none => none
    | .deliver (some i) (x :: e) _ =>
      some { s with input := .reading, log := s.log ++ [(i, .server (x :: e))] }
    | _ => none
  | .terminate => match s.input, s.owner with
    | .ended f, none =>
      some { s with shutdown := true, input := .finished,
                    log := s.log ++ s.pending.map (fun e => (e.2, lastError f s.closing)) }
    | _, _ => none
  | .close => if s.closing = false then some { s with closing := true } else none

theorem step?_step {s s' : Ex} {e : Ev} (h : step? s e = some s') : Step s s' := by
  cases e with
  | call x m => simp only [step?, Option.some.injEq] at h; subst h; exact .call _
  | lock i =>
    simp only [step?, Option.ite_none_right_eq_some, Option.some.injEq] at h
    obtain ⟨⟨a, b⟩, rfl⟩ := h; exact .lock a b
  | refuse i =>
    simp only [step?, Option.ite_none_right_eq_some, Option.some.injEq] at h
    obtain ⟨⟨a, b⟩, rfl⟩ := h; exact .refuse a b
  | register i =>
    simp only [step?, Option.ite_none_right_eq_some, Option.some.injEq] at h
    obtain ⟨⟨a, b⟩, rfl⟩ := h; exact .register a b
  | write i =>
    simp only [step?] at h
    split at h
    · rename_i a b; simp only [Option.some.injEq] at h; subst h; exact .write a b
    · simp at h
  | writeFail i =>
    simp only [step?] at h
    split at h
    · rename_i a b; simp only [Option.some.injEq] at h; subst h; exact .writeFail false a b
    · simp at h
  | giveUp i =>
    simp only [step?] at h
    split at h
    · rename_i a
      split at h
      · rename_i b; simp only [Option.some.injEq] at h; subst h; exact .giveUp a b
      · simp at h
    · simp at h
  | unlock i =>
    simp only [step?, Option.ite_none_right_eq_some, Option.some.injEq] at h
    obtain ⟨a, rfl⟩ := h; exact .unlock a
  | receive m =>
    simp only [step?] at h
    split at h
    · rename_i a b; simp only [Option.some.injEq] at h; subst h; exact .receive m a b
    · simp at h
  | invalid m =>
    simp only [step?] at h
    split at h
    · rename_i a b; simp only [Option.some.injEq] at h; subst h; exact .invalid m a b
    · simp at h
  | fail =>
    simp only [step?] at h
    split at h
    · rename_i a; simp only [Option.some.injEq] at h; subst h; exact .fail a (.inl rfl)
    · simp at h
  | deliver =>
    simp only [step?] at h
    split at h
    · rename_i a; simp only [Option.some.injEq] at h; subst h; exact .ignore a
    · rename_i a
      split at h
      · rename_i b
        split at h
        · rename_i c; simp only [Option.some.injEq] at h; subst h; exact .reply a b c
        · rename_i c; simp only [Option.some.injEq] at h; subst h; exact .badBody a b c
      · simp at h
    · rename_i a; simp only [Option.some.injEq] at h; subst h; exact .error a (by simp)
    · simp at h
  | terminate =>
    simp only [step?] at h
    split at h
    · rename_i a b; simp only [Option.some.injEq] at h; subst h; exact .terminate a b
    · simp at h
  | close =>
    simp only [step?, Option.ite_none_right_eq_some, Option.some.injEq] at h
    obtain ⟨a, rfl⟩ := h; exact .close a

/-- Steps by names. -/
def run? (s : Ex) : List Ev → Option Ex
  | [] => some s
  | e :: es => (step? s e).bind fun s' => run? s' es

theorem run?_steps {es : List Ev} : ∀ {r s s' : Ex}, Steps r s → run? s es = some s' →
    Steps r s' := by
  induction es with
  | nil => intro r s s' h e; simp only [run?, Option.some.injEq] at e; subst e; exact h
  | cons e es ih =>
    intro r s s' h h'
    simp only [run?, Option.bind_eq_some_iff] at h'
    obtain ⟨t, h1, h2⟩ := h'
    exact ih (h.step (step?_step h1)) h2

/-- Steps to a state where something holds. -/
theorem reach {r : Ex} (es : List Ev) {p : Ex → Prop} (h : ∃ s, run? r es = some s ∧ p s) :
    ∃ s, Steps r s ∧ p s :=
  let ⟨s, h1, h2⟩ := h
  ⟨s, run?_steps .refl h1, h2⟩

/-- Two calls write their requests. -/
def both : List Ev := [.call 5, .call 6, .lock 0, .register 0, .write 0, .unlock 0, .lock 1,
  .register 1, .write 1, .unlock 1]

/-- Replies in the other order reach their calls. -/
example : ∃ s : Ex, Steps start s ∧ s.log = [(1, .reply 36), (0, .server "bad".toList)] ∧
    s.sent = [⟨some 0, "f".toList, some 5⟩, ⟨some 1, "f".toList, some 6⟩] :=
  reach (both ++ [.receive ⟨1, some 36, .absent⟩, .deliver,
    .receive ⟨0, none, .text "bad".toList⟩, .deliver]) ⟨_, rfl, rfl, rfl⟩

/-- A result that does not fit fails the other call as well. -/
example : ∃ s : Ex, Steps start s ∧ s.log = [(1, .badBody), (0, .broken .badBody)] :=
  reach (both ++ [.receive ⟨1, some 200, .absent⟩, .deliver, .terminate]) ⟨_, rfl, rfl⟩

/-- So does `null` instead of a result. -/
example : ∃ s : Ex, Steps start s ∧ s.log = [(1, .broken .invalid), (0, .broken .invalid)] :=
  reach (both ++ [.invalid ⟨0, none, .absent⟩, .terminate]) ⟨_, rfl, rfl⟩

/-- An error message without an identifier, as that of the wrapper, is for the first call. -/
example : ∃ s : Ex, Steps start s ∧
    s.log = [(0, .server "failed".toList), (1, .unexpectedEOF)] :=
  reach (both ++ [.receive ⟨0, none, .text "failed".toList⟩, .deliver, .fail, .terminate])
    ⟨_, rfl, rfl⟩

/-- It is lost if it arrives before the first call is made. -/
theorem c60_early_message : ∃ s : Ex, Steps start s ∧ s.calls.length = 1 ∧
    s.received = [⟨0, none, .text "failed".toList⟩] ∧ s.log = [(0, .shutdown)] :=
  reach [.receive ⟨0, none, .text "failed".toList⟩, .deliver, .fail, .terminate, .call 5, .lock 0,
    .refuse 0] ⟨_, rfl, rfl, rfl, rfl⟩

/-- A request is not written, another call goes on. -/
example : ∃ s : Ex, Steps start s ∧ s.log = [(0, .unsent), (1, .reply 36)] ∧ s.bad = [0] :=
  reach [.call 5, .call 6, .lock 0, .register 0, .writeFail 0, .giveUp 0, .unlock 0, .lock 1,
    .register 1, .write 1, .receive ⟨1, some 36, .absent⟩, .deliver, .unlock 1] ⟨_, rfl, rfl, rfl⟩

/-- `Close` while a call is pending; a later call is refused. -/
example : ∃ s : Ex, Steps start s ∧ s.closing = true ∧ ∃ t, Steps s t ∧
    t.log = [(2, .shutdown), (0, .reply 25), (1, .shutdown)] :=
  reach (both ++ [.close]) ⟨_, rfl, rfl, reach [.call 7, .lock 2, .refuse 2,
    .receive ⟨0, some 25, .absent⟩, .deliver, .fail, .unlock 2, .terminate] ⟨_, rfl, rfl⟩⟩

/-- Hypotheses of `c60_heard`. -/
example : ∃ s : Ex, Steps start s ∧ Numbered s 1 1 ∧
    heard s 1 = some ⟨1, some 36, .absent⟩ ∧ ∀ e r, s.input ≠ .deliver (some 1) e r :=
  reach (both ++ [.receive ⟨1, some 36, .absent⟩, .deliver])
    ⟨_, rfl, by unfold Numbered; rfl, rfl, fun _ _ => by simp⟩

/-- Hypotheses of `c60_progress`: nothing but reading can be done. -/
example : ∃ s : Ex, Steps start s ∧ s.calls.length = 2 ∧ ∀ s', ¬Inner s s' := by
  refine reach both ⟨_, rfl, rfl, ?_⟩
  rintro s' ⟨st, h1, h2, h3⟩
  have hpc : ∀ i p, (set (set (set (set (set (set (set (set (set (set (fun _ => Pc.idle) 0 .want)
      1 .want) 0 .locked) 0 (.writing 0)) 0 .unlock) 0 .sent) 1 .locked) 1 (.writing 1)) 1 .unlock)
      1 .sent) i = p → p = .sent ∨ p = .idle := by
    intro i p h
    match i with
    | 0 => exact .inl h.symm
    | 1 => exact .inl h.symm
    | n + 2 => exact .inr h.symm
  cases st with
  | call c => simp at h1
  | lock hp => simpa using hpc _ _ hp
  | refuse hp => simpa using hpc _ _ hp
  | register hp => simpa using hpc _ _ hp
  | write hp => simpa using hpc _ _ hp
  | writeFail _ hp => simpa using hpc _ _ hp
  | giveUp hp => simpa using hpc _ _ hp
  | gone hp => simpa using hpc _ _ hp
  | unlock hp => simpa using hpc _ _ hp
  | receive m hr => simpa using h3 hr
  | invalid m hr => simpa using h3 hr
  | fail hr => simpa using h3 hr
  | ignore hr => simp [start] at hr
  | error hr => simp [start] at hr
  | reply hr => simp [start] at hr
  | badBody hr => simp [start] at hr
  | terminate hr => simp [start] at hr
  | close hc => exact absurd h2 (by simp [start])

/-- Hypotheses of `c60_answers`: three calls, the backend answers in another order. -/
example : ∃ (s : Ex) (k : Nat) (t : Server.State Nat Nat Nat Nat), Steps start s ∧
    Server.Steps Server.exWorld (Server.start s.sent) k t ∧
    s.received = t.out.map (message fun _ => false) ∧
    s.log = [(1, .server "rpc: can't find service unknown.burl.nothing".toList), (2, .reply 4),
      (0, .reply 2)] := by
  have d1 : dispatch "burl.urlMentions".toList = .ok .urlMentions := by rfl
  have d2 : dispatch "burl.nothing".toList = .error .noService := by rfl
  have d3 : dispatch "hello".toList = .ok .hello := by rfl
  have d4 : Server.dispatchText .noService "burl.nothing".toList =
      "rpc: can't find service unknown.burl.nothing".toList := by decide +kernel
  obtain ⟨k, t, h1, h2, h3, h4⟩ := Server.example_session (w := Server.exWorld)
    (r1 := ⟨some 0, "burl.urlMentions".toList, some 1⟩)
    (r2 := ⟨some 1, "burl.nothing".toList, some 2⟩)
    (r3 := ⟨some 2, "hello".toList, some 3⟩) (m1 := .urlMentions) (m3 := .hello) (a1 := 1) (a3 := 3)
    (t := "rpc: can't find service unknown.burl.nothing".toList) (v1 := 2) (v3 := 4)
    (by simp only [Server.prepare, Server.Methods.find, d1, Server.exWorld]) (by simp only [Server.prepare, Server.Methods.find, d2, d4])
    (by simp only [Server.prepare, Server.Methods.find, d3, Server.exWorld]) ⟨rfl, rfl⟩ ⟨rfl, rfl⟩ rfl
    (by unfold Server.respond; split <;> rfl) rfl
  rw [Server.respond, if_pos (by simp)] at h4
  obtain ⟨s, hs, e1, e2, e3⟩ := reach (r := start) (p := fun s =>
      s.sent = [⟨some 0, "burl.urlMentions".toList, some 1⟩,
        ⟨some 1, "burl.nothing".toList, some 2⟩, ⟨some 2, "hello".toList, some 3⟩] ∧
      s.received = [⟨1, none, .text "rpc: can't find service unknown.burl.nothing".toList⟩,
        ⟨2, some 4, .absent⟩, ⟨0, some 2, .absent⟩] ∧
      s.log = [(1, .server "rpc: can't find service unknown.burl.nothing".toList), (2, .reply 4),
        (0, .reply 2)])
    [.call 1 "burl.urlMentions".toList, .call 2 "burl.nothing".toList, .call 3 "hello".toList,
      .lock 0, .register 0, .write 0, .unlock 0, .lock 1, .register 1, .write 1, .unlock 1,
      .lock 2, .register 2, .write 2,
      .receive ⟨1, none, .text "rpc: can't find service unknown.burl.nothing".toList⟩, .deliver,
      .receive ⟨2, some 4, .absent⟩, .deliver, .receive ⟨0, some 2, .absent⟩, .deliver]
    ⟨_, rfl, rfl, rfl, rfl⟩
  refine ⟨s, k, t, hs, by rw [e1]; exact h1, ?_, e3⟩
  rw [e2, h4]
  rfl

end Examples

end Burl.Rpc.Client
