import Verif.Rpc.Command
/-! C67: closing of a client that has started a backend. -/
namespace Burl.Rpc.Command
open Burl

namespace Spec

/-- `n` steps. -/
inductive Run (cap : Nat) : Nat → State → State → Prop where
  | zero {s} : Run cap 0 s s
  | succ {n s t u} : Step cap s t → Run cap n t u → Run cap (n + 1) s u

/-- Nothing can happen any more. -/
def Stuck (cap : Nat) (s : State) : Prop := ∀ t, ¬ Step cap s t

/-- `Close` has been called. -/
def Called (s : State) : Prop := s.closer ≠ .no

/-- The methods of all requests that have been written have returned and their responses have left
the backend. -/
def CarriedOut (s : State) : Prop := ∀ r, r ∈ s.sent → r ∈ s.answered ∨ r ∈ s.fromBackend

/-- Every request has been answered, and no request is being written. -/
def Quiet (s : State) : Prop := s.buffer = none ∧ s.answered.length = s.sent.length

end Spec
open Spec

/-! ## Lemmas -/

private def weigh : Closer → Nat
  | .no => 4
  | .begun => 3
  | .reader => 2
  | .waiting _ => 1
  | .returned _ => 0

private def measure (s : State) : Nat :=
  weigh s.closer + (if s.buffer.isSome then 6 else 0) + 5 * s.toBackend.length + 4 * s.calls.length
    + 3 * s.done.length + 2 * s.fromBackend.length + s.input.toNat + s.loop.toNat
    + (if s.exit.isNone then 1 else 0)

private theorem decreases {cap s t} (h : Step cap s t) (hc : Called s) :
    measure t < measure s ∧ Called t := by
  cases h with
  | encode r h1 => exact absurd h1 hc
  | frame h1 h2 h3 => constructor <;> simp_all [measure, Called] <;> omega
  | frameFail h1 h2 => constructor <;> simp_all [measure, Called]
  | receive h1 h2 h3 => constructor <;> simp_all [measure, Called] <;> omega
  | inputEnd h1 => constructor <;> simp_all [measure, Called]
  | close h1 => exact absurd h1 hc
  | closeReader h1 => constructor <;> simp_all [measure, Called, weigh]
  | closeWriter h1 => constructor <;> simp_all [measure, Called, weigh]
  | wait h1 h2 => constructor <;> simp_all [measure, Called, weigh]
  | take h1 h2 h3 => constructor <;> simp_all [measure, Called] <;> omega
  | eof h1 h2 h3 h4 => constructor <;> simp_all [measure, Called]
  | finish h1 h2 => constructor <;> simp_all [measure, Called] <;> omega
  | crash h1 h2 => constructor <;> simp_all [measure, Called]
  | respond h1 h2 h3 h4 => constructor <;> simp_all [measure, Called] <;> omega
  | sigpipe h1 h2 h3 => constructor <;> simp_all [measure, Called]
  | exit h1 h2 h3 h4 => constructor <;> simp_all [measure, Called]

/-- Ends of pipes follow `Close`; how `Close` returns. -/
private structure Inv (s : State) : Prop where
  rOpen : s.rOpen = true ↔ s.closer = .no ∨ s.closer = .begun
  wOpen : s.wOpen = true ↔ s.closer = .no ∨ s.closer = .begun ∨ s.closer = .reader
  loop : s.loop = false → s.toBackend = [] ∧ s.wOpen = false
  success : s.exit = some .success → s.loop = false ∧ s.calls = [] ∧ s.done = []
  signal : s.exit = some .signal → s.rOpen = false
  ret : ∀ r, s.closer = .returned r → ∃ e x, s.exit = some x ∧ r = result e x
  count : s.sent.Perm (s.toBackend ++ s.calls ++ s.done ++ s.fromBackend ++ s.answered)

private theorem inv_fresh : Inv fresh := by
  constructor <;> simp [fresh]

private theorem perm_of_count {a b : List Nat} (h : a.Perm b) {a' b' : List Nat}
    (h' : ∀ x, a'.count x + b.count x = a.count x + b'.count x) : a'.Perm b' := by
  rw [List.perm_iff_count] at *
  intro x
  have := h x; have := h' x; omega

private theorem inv_step {cap s t} (h : Step cap s t) (i : Inv s) : Inv t := by
  obtain ⟨i1, i2, i3, i4, i5, i6, i7⟩ := i
  cases h with
  | encode r h1 => exact ⟨i1, i2, i3, i4, i5, i6, i7⟩
  | frame h1 h2 h3 =>
    refine ⟨i1, i2, ?_, i4, i5, i6, perm_of_count i7 (by intro x; simp [List.count_append, List.count_cons]; omega)⟩
    intro hl; have := (i3 hl).2; simp_all
  | frameFail h1 h2 => exact ⟨i1, i2, i3, i4, i5, i6, i7⟩
  | receive h1 h2 h3 =>
    refine ⟨i1, i2, i3, i4, i5, i6, perm_of_count i7 (by intro x; simp [h3, List.count_append, List.count_cons]; omega)⟩
  | inputEnd h1 => exact ⟨i1, i2, i3, i4, i5, i6, i7⟩
  | close h1 => refine ⟨?_, ?_, i3, i4, i5, ?_, i7⟩ <;> simp_all
  | closeReader h1 => refine ⟨?_, ?_, i3, i4, ?_, ?_, i7⟩ <;> simp_all
  | closeWriter h1 => refine ⟨?_, ?_, ?_, i4, i5, ?_, i7⟩ <;> simp_all
  | @wait e x h1 h2 =>
    refine ⟨?_, ?_, i3, i4, i5, ?_, i7⟩ <;> try simp_all
    cases e <;> simp
  | take h1 h2 h3 =>
    refine ⟨i1, i2, ?_, ?_, i5, i6, perm_of_count i7 (by intro x; simp [h3, List.count_append, List.count_cons]; omega)⟩ <;> simp_all
  | eof h1 h2 h3 h4 => refine ⟨i1, i2, ?_, ?_, i5, i6, i7⟩ <;> simp_all
  | finish h1 h2 =>
    refine ⟨i1, i2, i3, ?_, i5, i6, perm_of_count i7 (by intro x; simp [h2, List.count_append, List.count_cons]; omega)⟩
    simp_all
  | crash h1 h2 => refine ⟨i1, i2, i3, ?_, ?_, ?_, i7⟩ <;> simp_all
  | respond h1 h2 h3 h4 =>
    refine ⟨i1, i2, i3, ?_, i5, i6, perm_of_count i7 (by intro x; simp [h2, List.count_append, List.count_cons]; omega)⟩
    simp_all
  | sigpipe h1 h2 h3 => refine ⟨i1, i2, i3, ?_, ?_, ?_, i7⟩ <;> simp_all
  | exit h1 h2 h3 h4 => refine ⟨i1, i2, i3, ?_, ?_, ?_, i7⟩ <;> simp_all

private theorem inv_of_steps {cap s t} (h : Steps cap s t) (i : Inv s) : Inv t := by
  induction h with
  | refl => exact i
  | step _ h ih => exact inv_step h ih

/-- After `Close` with no calls pending. -/
private structure Calm (s : State) : Prop where
  buffer : s.buffer = none
  lists : s.toBackend = [] ∧ s.calls = [] ∧ s.done = [] ∧ s.fromBackend = []
  exit : s.exit = none ∨ s.exit = some .success
  closer : s.closer = .begun ∨ s.closer = .reader ∨ s.closer = .waiting false ∨ s.closer = .returned .nil

private theorem calm_step {cap s t} (h : Step cap s t) (i : Calm s) : Calm t := by
  obtain ⟨i1, ⟨i2, i3, i4, i5⟩, i6, i7⟩ := i
  cases h with
  | encode r h1 => simp_all
  | frame h1 h2 h3 => simp_all
  | frameFail h1 h2 => simp_all
  | receive h1 h2 h3 => simp_all
  | inputEnd h1 => exact ⟨i1, ⟨i2, i3, i4, i5⟩, i6, i7⟩
  | close h1 => simp_all
  | closeReader h1 => exact ⟨i1, ⟨i2, i3, i4, i5⟩, i6, by simp⟩
  | closeWriter h1 => exact ⟨i1, ⟨i2, i3, i4, i5⟩, i6, by simp [i1]⟩
  | wait h1 h2 =>
    refine ⟨i1, ⟨i2, i3, i4, i5⟩, i6, ?_⟩
    simp_all [result]
  | take h1 h2 h3 => simp_all
  | eof h1 h2 h3 h4 => exact ⟨i1, ⟨i2, i3, i4, i5⟩, i6, i7⟩
  | finish h1 h2 => simp_all
  | crash h1 h2 => simp_all
  | respond h1 h2 h3 h4 => simp_all
  | sigpipe h1 h2 h3 => simp_all
  | exit h1 h2 h3 h4 => exact ⟨i1, ⟨i2, i3, i4, i5⟩, by simp, i7⟩

/-! ## C67 -/

/-- The command that is started is the first of the words with the others as its arguments, and an
error is returned exactly if there are no words or the operating system refuses. -/
theorem c67_command (os : Os) (args : List Str) :
    (∀ cmd rest, newClientCommand os args = .ok (cmd, rest) ↔
      args = cmd :: rest ∧ os.stdin = true ∧ os.stdout = true ∧ os.start cmd rest = true) ∧
    (newClientCommand os args = .error .noCommand ↔ args = []) ∧
    (newClientCommand os args = .error .pipe ↔ args ≠ [] ∧ (os.stdin = false ∨ os.stdout = false)) ∧
    (newClientCommand os args = .error .start ↔ os.stdin = true ∧ os.stdout = true ∧
      ∃ cmd rest, args = cmd :: rest ∧ os.start cmd rest = false) := by
  cases args with
  | nil => simp [newClientCommand]
  | cons a as =>
    refine ⟨fun cmd rest => ?_, ?_, ?_, ?_⟩
    · simp only [newClientCommand]
      constructor
      · intro h
        split at h <;> try (cases h; done)
        split at h <;> try (cases h; done)
        split at h <;> try (cases h; done)
        next h1 h2 h3 =>
          cases h
          exact ⟨rfl, by simpa using h1, by simpa using h2, by simpa using h3⟩
      · rintro ⟨h, h1, h2, h3⟩
        cases h
        simp [h1, h2, h3]
    · simp only [newClientCommand]
      cases h1 : os.stdin <;> cases h2 : os.stdout <;> cases h3 : os.start a as <;> simp
    · simp only [newClientCommand]
      cases h1 : os.stdin <;> cases h2 : os.stdout <;> cases h3 : os.start a as <;> simp
    · simp only [newClientCommand]
      cases h1 : os.stdin <;> cases h2 : os.stdout <;> cases h3 : os.start a as <;> simp
      · exact ⟨a, as, ⟨rfl, rfl⟩, h3⟩
      · exact h3

/-- After `Close` has been called only a limited number of things can happen, and they come to an end
only when `Close` has returned. -/
theorem c67_returns (cap : Nat) (s : State) (hs : Steps cap fresh s) (hc : Called s) :
    (∃ bound, ∀ n t, Run cap n s t → n ≤ bound) ∧
    (∀ t, Steps cap s t → Stuck cap t → ∃ r, t.closer = .returned r) := by
  constructor
  · refine ⟨measure s, fun n t h => ?_⟩
    clear hs
    induction h with
    | zero => omega
    | succ h _ ih =>
      have := decreases h hc
      have := ih this.2
      omega
  · intro t ht hst
    have hi : Inv t := inv_of_steps ht (inv_of_steps hs inv_fresh)
    have hct : Called t := by
      clear hst hi
      induction ht with
      | refl => exact hc
      | step _ h ih => exact (decreases h ih).2
    obtain ⟨i1, i2, i3, i4, i5, i6, i7⟩ := hi
    cases hcl : t.closer with
    | no => exact absurd hcl hct
    | begun => exact absurd (.closeReader hcl) (hst _)
    | reader => exact absurd (.closeWriter hcl) (hst _)
    | returned r => exact ⟨r, rfl⟩
    | waiting e =>
      exfalso
      have hr : t.rOpen = false := by simpa [hcl] using i1
      have hw : t.wOpen = false := by simpa [hcl] using i2
      cases hx : t.exit with
      | some x => exact hst _ (.wait hcl hx)
      | none =>
        cases hca : t.calls with
        | cons r rs => exact hst _ (.finish (pre := []) hx hca)
        | nil =>
          cases hd : t.done with
          | cons r rs => exact hst _ (.sigpipe hx (by simp [hd]) hr)
          | nil =>
            cases hl : t.loop with
            | false => exact hst _ (.exit hx hl hca hd)
            | true =>
              cases htb : t.toBackend with
              | nil => exact hst _ (.eof hx hl htb hw)
              | cons r rs => exact hst _ (.take hx hl htb)

/-- When `Close` has returned the backend has ended.  `Close` returns no error only if the backend has
ended with success, and then all requests that had been written have been carried out; and it returns
the error of the process only if the process has ended with it. -/
theorem c67_result (cap : Nat) (s : State) (hs : Steps cap fresh s) (r : Result)
    (hr : s.closer = .returned r) :
    ∃ x, s.exit = some x ∧ (r = .nil → x = .success ∧ CarriedOut s) ∧
      (∀ e, r = .wait e → x = e ∧ e ≠ .success) := by
  obtain ⟨i1, i2, i3, i4, i5, i6, i7⟩ := inv_of_steps hs inv_fresh
  obtain ⟨e, x, hx, rfl⟩ := i6 r hr
  refine ⟨x, hx, ?_, ?_⟩
  · intro h
    have hxs : x = .success := by
      cases e <;> cases x <;> simp_all [result]
    subst hxs
    refine ⟨rfl, fun q hq => ?_⟩
    obtain ⟨h1, h2, h3⟩ := i4 hx
    have := (i3 h1).1
    have := i7.mem_iff.1 hq
    simp_all [or_comm]
  · intro e' h
    cases e <;> cases x <;> simp_all [result] <;> subst h <;> simp

/-- What `Close` returns: if a request was being written when the pipe was closed, that is reported;
otherwise the way the process has ended. -/
theorem c67_exact (cap : Nat) (s s' : State) (hn : s.closer = .reader) (hc : Step cap s s')
    (hw : s'.closer ≠ .reader) (t : State) (ht : Steps cap s' t) (r : Result)
    (hr : t.closer = .returned r) :
    ∃ x, t.exit = some x ∧ (r = .buffer ↔ s.buffer ≠ none) ∧
      (s.buffer = none → (x = .success → r = .nil) ∧ (x ≠ .success → r = .wait x)) := by
  have hs' : s'.closer = .waiting s.buffer.isSome := by
    cases hc with
    | closeWriter => rfl
    | close h => rw [hn] at h; cases h
    | closeReader h => rw [hn] at h; cases h
    | wait h => rw [hn] at h; cases h
    | _ => exact absurd hn hw
  have key : t.closer = .waiting s.buffer.isSome ∨
      ∃ x, t.exit = some x ∧ t.closer = .returned (result s.buffer.isSome x) := by
    clear hr
    induction ht with
    | refl => exact .inl hs'
    | step _ h ih =>
      rcases ih with ih | ⟨x, ih1, ih2⟩
      · cases h with
        | wait h1 h2 =>
          rw [ih] at h1
          cases h1
          exact .inr ⟨_, h2, rfl⟩
        | encode r h1 => rw [ih] at h1; cases h1
        | close h1 => rw [ih] at h1; cases h1
        | closeReader h1 => rw [ih] at h1; cases h1
        | closeWriter h1 => rw [ih] at h1; cases h1
        | _ => exact .inl ih
      · right
        cases h with
        | wait h1 h2 => rw [ih2] at h1; cases h1
        | encode r h1 => rw [ih2] at h1; cases h1
        | close h1 => rw [ih2] at h1; cases h1
        | closeReader h1 => rw [ih2] at h1; cases h1
        | closeWriter h1 => rw [ih2] at h1; cases h1
        | crash h1 => rw [ih1] at h1; cases h1
        | sigpipe h1 => rw [ih1] at h1; cases h1
        | exit h1 => rw [ih1] at h1; cases h1
        | _ => exact ⟨x, ih1, ih2⟩
  rw [hr] at key
  rcases key with h | ⟨x, hx, h⟩
  · cases h
  · cases h
    refine ⟨x, hx, ?_⟩
    cases hb : s.buffer <;> cases x <;> simp [result]

/-- If all calls have been answered and the backend is running when `Close` is called, then `Close`
returns no error. -/
theorem c67_clean (cap : Nat) (s : State) (hs : Steps cap fresh s) (hq : Quiet s)
    (hx : s.exit = none) (s' : State) (hn : s.closer = .no) (hc : Step cap s s') (hc' : Called s')
    (t : State) (ht : Steps cap s' t) (r : Result) (hr : t.closer = .returned r) : r = .nil := by
  obtain ⟨i1, i2, i3, i4, i5, i6, i7⟩ := inv_of_steps hs inv_fresh
  obtain ⟨hb, hl⟩ := hq
  have hlen := i7.length_eq
  simp only [List.length_append] at hlen
  have hz : ∀ l : List Nat, l.length = 0 → l = [] := fun l h => List.length_eq_zero_iff.1 h
  have hs' : s' = { s with closer := .begun } := by
    clear hlen hz i1 i2 i3 i4 i5 i6 i7 ht
    cases hc with
    | close => rfl
    | closeReader h => rw [hn] at h; cases h
    | closeWriter h => rw [hn] at h; cases h
    | wait h => rw [hn] at h; cases h
    | _ => exact absurd hn hc'
  have hcalm : Calm s' := by
    subst hs'
    exact ⟨hb, ⟨hz _ (by show s.toBackend.length = 0; omega), hz _ (by show s.calls.length = 0; omega),
      hz _ (by show s.done.length = 0; omega), hz _ (by show s.fromBackend.length = 0; omega)⟩, .inl hx, by simp⟩
  have : Calm t := by
    clear hr
    induction ht with
    | refl => exact hcalm
    | step _ h ih => exact calm_step h ih
  have := this.closer
  rw [hr] at this
  rcases this with h | h | h | h <;> cases h
  rfl

/-- Until `Close` is called the backend does not end unless a method ends it, whatever the calls. -/
theorem c67_alive (cap : Nat) (s : State) (hs : Steps cap fresh s) (hn : s.closer = .no) :
    s.exit = none ∨ s.exit = some .crash := by
  obtain ⟨i1, i2, i3, i4, i5, i6, i7⟩ := inv_of_steps hs inv_fresh
  cases hx : s.exit with
  | none => simp
  | some x =>
    cases x with
    | crash => simp
    | success => have := i3 (i4 hx).1; simp_all
    | signal => have := i5 hx; simp_all

/-- A client that does not wait for answers may lose requests: the backend is ended by an attempt to
answer the first of two requests before it has read the second one, though both had been written
before `Close` was called. -/
theorem c67_lost : ∃ s t, Steps 1 fresh s ∧ s.closer = .no ∧ s.sent = [1, 2] ∧ s.buffer = none ∧
    Steps 1 s t ∧ t.closer = .returned (.wait .signal) ∧ ¬ CarriedOut t ∧ 2 ∈ t.toBackend := by
  refine ⟨⟨.no, true, true, true, none, [1, 2], [], true, [], [], none, [1, 2], []⟩,
    ⟨.returned (.wait .signal), false, false, true, none, [2], [], true, [], [1], some .signal, [1, 2], []⟩,
    ?_, rfl, rfl, rfl, ?_, rfl, ?_, by simp⟩
  · exact (((Steps.refl.step (.encode 1 rfl rfl)).step (.frame rfl rfl rfl)).step (.encode 2 rfl rfl)).step
      (.frame rfl rfl rfl)
  · exact (((((((Steps.refl.step (.close rfl)).step (.take rfl rfl rfl)).step
      (.finish (pre := []) rfl rfl)).step (.closeReader rfl)).step (.closeWriter rfl)).step
      (.sigpipe rfl (by simp) rfl)).step (.wait (e := false) (x := .signal) rfl rfl))
  · intro h
    have := h 2 (by simp)
    simp at this

/-! ## The hypotheses can be met -/

/-- One call is made and answered. -/
private def answeredOne : State := ⟨.no, true, true, true, none, [], [], true, [], [], none, [7], [7]⟩

private theorem answeredOne_steps : Steps 1 fresh answeredOne :=
  (((((Steps.refl.step (.encode 7 rfl rfl)).step (.frame rfl rfl rfl)).step (.take rfl rfl rfl)).step
    (.finish (pre := []) rfl rfl)).step (.respond (pre := []) rfl rfl rfl (by simp [fresh]))).step
    (.receive rfl rfl rfl)

example : Quiet answeredOne ∧ answeredOne.closer = .no ∧ answeredOne.exit = none := by
  simp [Quiet, answeredOne]

/-- `Close` returns after it. -/
example : ∃ t, Steps 1 { answeredOne with closer := .begun } t ∧ t.closer = .returned .nil := by
  refine ⟨_, ((((Steps.refl.step (.closeReader rfl)).step (.closeWriter rfl)).step
    (.eof rfl rfl rfl rfl)).step (.exit rfl rfl rfl rfl)).step (.wait (e := false) (x := .success) rfl rfl), rfl⟩

example : Called { answeredOne with closer := .begun } ∧
    Steps 1 fresh { answeredOne with closer := .begun } :=
  ⟨by simp [Called], answeredOne_steps.step (.close rfl)⟩

/-- A request is being written when the pipe is closed. -/
example : ∃ s s' t, Steps 1 fresh s ∧ s.closer = .reader ∧ s.buffer = some 3 ∧ Step 1 s s' ∧
    s'.closer ≠ .reader ∧ Steps 1 s' t ∧ t.closer = .returned .buffer := by
  refine ⟨⟨.reader, false, true, true, some 3, [], [], true, [], [], none, [], []⟩, _, _,
    ((Steps.refl.step (.encode 3 rfl rfl)).step (.close rfl)).step (.closeReader rfl), rfl, rfl,
    .closeWriter rfl, by simp, ((Steps.refl.step (.eof rfl rfl rfl rfl)).step
      (.exit rfl rfl rfl rfl)).step (.wait (e := true) (x := .success) rfl rfl), rfl⟩

example : newClientCommand ⟨true, true, fun _ _ => true⟩ ["a".toList, "b".toList] =
    .ok ("a".toList, ["b".toList]) := rfl

end Burl.Rpc.Command
