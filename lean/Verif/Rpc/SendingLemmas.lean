import Verif.Rpc.Sending
import Verif.Rpc.Spec
import Verif.Frame.Lemmas
namespace Burl.Rpc
open Burl.Frame.Spec Burl.Rpc.Spec Burl.Frame

/-- What the lock holder has put on the wire so far, and the shared buffer, by program
counter (before the pipe breaks). -/
def HolderOk (m? : Option Bytes) (pc : PC) (buf tail : Bytes) : Prop :=
  match pc with
  | .waiting => False
  | .done => False
  | .locked => buf = [] ∧ tail = []
  | .encoded => ∃ m, m? = some m ∧ buf = m ∧ tail = []
  | .header rest => ∃ m, m? = some m ∧ buf = m ∧ tail ++ rest = le32 m.length
  | .body k => ∃ m, m? = some m ∧ buf = m ∧ k ≤ m.length ∧ tail = le32 m.length ++ m.take k
  | .unlocking => buf = [] ∧ tail = replyWire m?

/-- The same after the pipe broke: the wire no longer grows. -/
def HolderBroken (pc : PC) (buf : Bytes) (m? : Option Bytes) : Prop :=
  match pc with
  | .waiting => False
  | .done => False
  | .locked => buf = []
  | .encoded => m? = some buf
  | .header _ => m? = some buf
  | .body _ => m? = some buf
  | .unlocking => buf = []

structure Inv (msgs : Nat → Option Bytes) (s : State) : Prop where
  nodup : s.order.Nodup
  free : s.lock = none → s.buf = [] ∧ (∀ i, s.pc i = .waiting ∨ s.pc i = .done) ∧
    (∀ i, s.pc i = .done ↔ i ∈ s.order)
  held : ∀ i, s.lock = some i → ∃ l, s.order = l ++ [i] ∧
    (∀ j, j ≠ i → s.pc j = .waiting ∨ s.pc j = .done) ∧
    (∀ j, s.pc j = .done ↔ j ∈ l)
  freeWire : s.lock = none → s.broken = false → s.out = wire msgs s.order
  heldWire : ∀ i l, s.lock = some i → s.broken = false → s.order = l ++ [i] →
    ∃ tail, s.out = wire msgs l ++ tail ∧ HolderOk (msgs i) (s.pc i) s.buf tail
  brokenWire : s.broken = true → s.out <+: wire msgs s.order
  brokenHeld : ∀ i, s.lock = some i → s.broken = true → HolderBroken (s.pc i) s.buf (msgs i)

theorem wire_append (msgs) (a b : List Nat) : wire msgs (a ++ b) = wire msgs a ++ wire msgs b := by
  simp [wire]

@[simp] theorem wire_single (msgs) (i : Nat) : wire msgs [i] = wireOf msgs i := by
  simp [wire]

@[simp] theorem setPc_self (f : Nat → PC) (i : Nat) (p : PC) : setPc f i p i = p := by
  simp [setPc]

theorem setPc_ne (f : Nat → PC) {i j : Nat} (p : PC) (h : j ≠ i) : setPc f i p j = f j := by
  simp [setPc, h]

/-- A goroutine that is neither waiting nor done holds the lock. -/
theorem Inv.holder {msgs s} (h : Inv msgs s) {i : Nat} (h1 : s.pc i ≠ .waiting)
    (h2 : s.pc i ≠ .done) : s.lock = some i := by
  cases hl : s.lock with
  | none => have := (h.free hl).2.1 i; simp_all
  | some j =>
    obtain ⟨l, _, hj, _⟩ := h.held j hl
    by_cases hij : i = j
    · rw [hij]
    · have := hj i hij; simp_all

theorem HolderOk.prefix {m? pc buf tail} (h : HolderOk m? pc buf tail) :
    tail <+: (replyWire m?) := by
  unfold HolderOk at h
  split at h
  · exact h.elim
  · exact h.elim
  · rw [h.2]; exact List.nil_prefix
  · obtain ⟨m, _, _, h⟩ := h; rw [h]; exact List.nil_prefix
  · obtain ⟨m, hm, _, h⟩ := h
    rw [hm]; simp only [replyWire, frame]
    rw [← h, List.append_assoc]; exact List.prefix_append _ _
  · obtain ⟨m, hm, _, _, h⟩ := h
    rw [hm, h]; simp only [replyWire, frame]
    exact List.prefix_append_right_inj _ |>.mpr (List.take_prefix _ _)
  · rw [h.2]; exact List.prefix_refl _

/-- Steps of the lock holder that keep the lock. -/
theorem Inv.holderStep {msgs : Nat → Option Bytes} {s : State} (h : Inv msgs s) {i : Nat}
    (hl : s.lock = some i) {p : PC} {buf' add : Bytes} (hp : p ≠ .done) (_ : p ≠ .waiting)
    (hok : s.broken = false → ∀ tail, HolderOk (msgs i) (s.pc i) s.buf tail →
      HolderOk (msgs i) p buf' (tail ++ add))
    (hbr : s.broken = true → add = [] ∧
      (HolderBroken (s.pc i) s.buf (msgs i) → HolderBroken p buf' (msgs i))) :
    Inv msgs { s with pc := setPc s.pc i p, buf := buf', out := s.out ++ add } := by
  obtain ⟨l, ho, hj, hd⟩ := h.held i hl
  refine ⟨h.nodup, ?_, ?_, ?_, ?_, ?_, ?_⟩
  · intro hn; simp [hl] at hn
  · intro i' hi'
    simp only [hl, Option.some.injEq] at hi'
    subst hi'
    refine ⟨l, ho, fun j hne => ?_, fun j => ?_⟩
    · simp only [setPc_ne _ _ hne]; exact hj j hne
    · by_cases hne : j = i
      · subst hne
        simp only [setPc_self]
        have hnd := h.nodup
        rw [ho, List.nodup_append] at hnd
        constructor
        · intro h'; exact absurd h' hp
        · intro h'; exact absurd rfl (hnd.2.2 j h' j (by simp))
      · simp only [setPc_ne _ _ hne]; exact hd j
  · intro hn; simp [hl] at hn
  · intro i' l' hi' hb ho'
    simp only [hl, Option.some.injEq] at hi'
    subst hi'
    simp only at ho' hb
    obtain ⟨tail, h1, h2⟩ := h.heldWire i l' hl hb ho'
    refine ⟨tail ++ add, ?_, ?_⟩
    · simp only [h1, List.append_assoc]
    · simp only [setPc_self]; exact hok hb tail h2
  · intro hb
    simp only at hb
    rw [(hbr hb).1]; simp only [List.append_nil]
    exact h.brokenWire hb
  · intro i' hi' hb
    simp only [hl, Option.some.injEq] at hi'
    subst hi'
    simp only [setPc_self]
    exact (hbr hb).2 (h.brokenHeld i hl hb)

theorem Inv.init (msgs) : Inv msgs State.init := by
  refine ⟨by simp [State.init], ?_, ?_, ?_, ?_, ?_, ?_⟩ <;> simp [State.init, wire]

theorem Inv.step {msgs : Nat → Option Bytes} {s t : State} (h : Inv msgs s)
    (hs : Step msgs s t) : Inv msgs t := by
  cases hs with
  | acquire i hpc hl =>
    obtain ⟨hb, hw, hd⟩ := h.free hl
    have hni : i ∉ s.order := by
      intro hi; have := (hd i).mpr hi; simp [hpc] at this
    refine ⟨?_, ?_, ?_, ?_, ?_, ?_, ?_⟩
    · simp only [List.nodup_append]
      exact ⟨h.nodup, by simp, fun a ha b hb => by simp at hb; subst hb; intro hab; exact hni (hab ▸ ha)⟩
    · intro hn; simp at hn
    · intro i' hi'
      simp only [Option.some.injEq] at hi'; subst hi'
      refine ⟨s.order, rfl, fun j hne => ?_, fun j => ?_⟩
      · simp only [setPc_ne _ _ hne]; exact hw j
      · by_cases hne : j = i
        · subst hne; simp [hni]
        · simp only [setPc_ne _ _ hne]; exact hd j
    · intro hn; simp at hn
    · intro i' l hi' hbr ho
      simp only [Option.some.injEq] at hi'; subst hi'
      simp only at ho hbr
      have : s.order = l := by
        have := congrArg List.dropLast ho; simpa using this
      subst this
      refine ⟨[], by simp only [h.freeWire hl hbr, List.append_nil], ?_⟩
      simp only [setPc_self, HolderOk, hb, and_self]
    · intro hbr
      simp only [wire_append]
      exact (h.brokenWire hbr).trans (List.prefix_append _ _)
    · intro i' hi' hbr
      simp only [Option.some.injEq] at hi'; subst hi'
      simp only [setPc_self, HolderBroken, hb]
  | encode i m hpc hm =>
    have hl := h.holder (i := i) (by simp [hpc]) (by simp [hpc])
    have := h.holderStep hl (p := .encoded) (buf' := s.buf ++ m) (add := []) (by simp) (by simp)
      (fun _ tail ht => by
        rw [hpc] at ht
        simp only [HolderOk] at ht ⊢
        exact ⟨m, hm, by simp [ht.1], by simp [ht.2]⟩)
      (fun _ => ⟨rfl, fun hb => by
        rw [hpc] at hb
        simp only [HolderBroken] at hb ⊢
        simp [hb, hm]⟩)
    simpa using this
  | encodeFail i hpc hm =>
    have hl := h.holder (i := i) (by simp [hpc]) (by simp [hpc])
    have := h.holderStep hl (p := .unlocking) (buf' := s.buf) (add := []) (by simp) (by simp)
      (fun _ tail ht => by
        rw [hpc] at ht
        simp only [HolderOk] at ht ⊢
        simp [ht, hm, replyWire])
      (fun _ => ⟨rfl, fun hb => by
        rw [hpc] at hb
        simpa only [HolderBroken] using hb⟩)
    simpa using this
  | enter i hpc =>
    have hl := h.holder (i := i) (by simp [hpc]) (by simp [hpc])
    have := h.holderStep hl (p := .header (putU32 (s.buf.length % 4294967296))) (buf' := s.buf)
      (add := []) (by simp) (by simp)
      (fun _ tail ht => by
        rw [hpc] at ht
        simp only [HolderOk] at ht ⊢
        obtain ⟨m, h1, h2, h3⟩ := ht
        refine ⟨m, h1, h2, ?_⟩
        rw [h3, h2, putU32_eq_le32]
        simp only [List.append_nil, List.nil_append, le32]
        congr 1
        · congr 1; omega
        · congr 1
          · congr 1; omega
          · congr 1
            · congr 1; omega
            · congr 1; congr 1; omega)
      (fun _ => ⟨rfl, fun hb => by
        rw [hpc] at hb
        simpa only [HolderBroken] using hb⟩)
    simpa using this
  | headerChunk i rest c hpc hbr hc =>
    have hl := h.holder (i := i) (by simp [hpc]) (by simp [hpc])
    have := h.holderStep hl (p := .header (rest.drop c)) (buf' := s.buf)
      (add := rest.take c) (by simp) (by simp)
      (fun _ tail ht => by
        rw [hpc] at ht
        simp only [HolderOk] at ht ⊢
        obtain ⟨m, h1, h2, h3⟩ := ht
        exact ⟨m, h1, h2, by simpa using h3⟩)
      (fun hb => by simp [hbr] at hb)
    exact this
  | headerDone i hpc =>
    have hl := h.holder (i := i) (by simp [hpc]) (by simp [hpc])
    have := h.holderStep hl (p := .body 0) (buf' := s.buf)
      (add := []) (by simp) (by simp)
      (fun _ tail ht => by
        rw [hpc] at ht
        simp only [HolderOk] at ht ⊢
        obtain ⟨m, h1, h2, h3⟩ := ht
        exact ⟨m, h1, h2, by omega, by simpa using h3⟩)
      (fun _ => ⟨rfl, fun hb => by
        rw [hpc] at hb
        simpa only [HolderBroken] using hb⟩)
    simpa using this
  | bodyChunk i k c hpc hbr hc =>
    have hl := h.holder (i := i) (by simp [hpc]) (by simp [hpc])
    have := h.holderStep hl (p := .body (k + c)) (buf' := s.buf)
      (add := (s.buf.drop k).take c) (by simp) (by simp)
      (fun _ tail ht => by
        rw [hpc] at ht
        simp only [HolderOk] at ht ⊢
        obtain ⟨m, h1, h2, h3, h4⟩ := ht
        refine ⟨m, h1, h2, by rw [← h2]; exact hc, ?_⟩
        rw [h4, h2, List.take_add, List.append_assoc])
      (fun hb => by simp [hbr] at hb)
    exact this
  | bodyDone i k hpc hk =>
    have hl := h.holder (i := i) (by simp [hpc]) (by simp [hpc])
    have := h.holderStep hl (p := .unlocking) (buf' := [])
      (add := []) (by simp) (by simp)
      (fun _ tail ht => by
        rw [hpc] at ht
        simp only [HolderOk] at ht ⊢
        obtain ⟨m, h1, h2, h3, h4⟩ := ht
        refine ⟨trivial, ?_⟩
        rw [h1, h4, hk, h2]; simp [replyWire, frame])
      (fun _ => ⟨rfl, fun _ => by simp [HolderBroken]⟩)
    simpa using this
  | headerFail i rest hpc hb =>
    have hl := h.holder (i := i) (by simp [hpc]) (by simp [hpc])
    have := h.holderStep hl (p := .unlocking) (buf' := [])
      (add := []) (by simp) (by simp)
      (fun hb' => by simp [hb] at hb')
      (fun _ => ⟨rfl, fun _ => by simp [HolderBroken]⟩)
    simpa using this
  | bodyFail i k hpc hb =>
    have hl := h.holder (i := i) (by simp [hpc]) (by simp [hpc])
    have := h.holderStep hl (p := .unlocking) (buf' := [])
      (add := []) (by simp) (by simp)
      (fun hb' => by simp [hb] at hb')
      (fun _ => ⟨rfl, fun _ => by simp [HolderBroken]⟩)
    simpa using this
  | break_ =>
    refine ⟨h.nodup, h.free, h.held, ?_, ?_, ?_, ?_⟩
    · simp
    · simp
    · intro _
      by_cases hb : s.broken = true
      · exact h.brokenWire hb
      · simp only [Bool.not_eq_true] at hb
        cases hl : s.lock with
        | none => rw [show (_ : Bytes) = _ from h.freeWire hl hb]; exact List.prefix_refl _
        | some i =>
          obtain ⟨l, ho, _, _⟩ := h.held i hl
          obtain ⟨tail, h1, h2⟩ := h.heldWire i l hl hb ho
          simp only [ho, h1, wire_append, wire_single]
          exact (List.prefix_append_right_inj _).mpr h2.prefix
    · intro i hl _
      simp only at hl ⊢
      by_cases hb : s.broken = true
      · exact h.brokenHeld i hl hb
      · simp only [Bool.not_eq_true] at hb
        obtain ⟨l, ho, _, _⟩ := h.held i hl
        obtain ⟨tail, h1, h2⟩ := h.heldWire i l hl hb ho
        cases hpc : s.pc i <;> simp only [hpc, HolderOk, HolderBroken] at h2 ⊢
        · exact h2.1
        · obtain ⟨m, e1, e2, _⟩ := h2; rw [e1, e2]
        · obtain ⟨m, e1, e2, _⟩ := h2; rw [e1, e2]
        · obtain ⟨m, e1, e2, _⟩ := h2; rw [e1, e2]
        · exact h2.1
  | release i hpc =>
    have hl := h.holder (i := i) (by simp [hpc]) (by simp [hpc])
    obtain ⟨l, ho, hj, hd⟩ := h.held i hl
    have hbuf : s.buf = [] := by
      by_cases hb : s.broken = true
      · have := h.brokenHeld i hl hb
        rw [hpc] at this; simpa [HolderBroken] using this
      · simp only [Bool.not_eq_true] at hb
        obtain ⟨tail, h1, h2⟩ := h.heldWire i l hl hb ho
        rw [hpc] at h2; simp only [HolderOk] at h2; exact h2.1
    refine ⟨h.nodup, ?_, ?_, ?_, ?_, h.brokenWire, ?_⟩
    · intro _
      refine ⟨hbuf, fun j => ?_, fun j => ?_⟩
      · by_cases hne : j = i
        · subst hne; simp
        · simp only [setPc_ne _ _ hne]; exact hj j hne
      · by_cases hne : j = i
        · subst hne; simp [ho]
        · simp only [setPc_ne _ _ hne, ho, List.mem_append, List.mem_singleton, hne, or_false]
          exact hd j
    · intro i' hi'; simp at hi'
    · intro _ hb
      simp only at hb
      obtain ⟨tail, h1, h2⟩ := h.heldWire i l hl hb ho
      rw [hpc] at h2; simp only [HolderOk] at h2
      simp only [ho, h1, wire_append, wire_single, wireOf, h2.2]
    · intro i' l' hi'; simp at hi'
    · intro i' hi'; simp at hi'

theorem Reach.inv {msgs s} (h : Reach msgs s) : Inv msgs s := by
  induction h with
  | init => exact Inv.init msgs
  | step _ hs ih => exact ih.step hs

end Burl.Rpc
