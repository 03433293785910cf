import Verif.Rpc.Server
import Verif.Rpc.Props
/-! Every request gets one reply, with its own identifier. -/
namespace Burl.Rpc.Server
open Burl.Rpc Burl.Rpc.Spec

/-! ### Specification -/

/-- The method behind a name a client may use. -/
def reached : Call → Method
  | .hello => .hello
  | .capture => .capture
  | .visit => .visit
  | .urlMentions => .urlMentions
  | .linkSet => .linkSet

theorem dispatch_reached {name : Str} {m : Method} (h : dispatch name = .ok m) :
    ∃ c : Call, c.Name name ∧ reached c = m := by
  obtain ⟨c, h1, h2⟩ := (c09_exact name m).1 h
  refine ⟨c, h1, ?_⟩
  rw [← h2]
  cases c <;> rfl

/-- Names of calls that a program serves and the methods behind them. -/
class Calls (M : Type) [Methods M] (C : outParam Type) where
  Name : C → Str → Prop
  method : C → M
  found : ∀ {name m}, Methods.find name = .ok m → ∃ c, Name c name ∧ method c = m
  missing : ∀ {name : Str} {t : Str}, (Methods.find name : Except Str M) = .error t → t ≠ [] ∧ ∀ c, ¬Name c name

theorem mapped : ∀ q ∈ methodMap, (dispatch q.1).isOk = true := by decide +kernel

/-- C09: a request with any other name is answered with a message that has the name. -/
theorem c09_message (name : Str) (h : ∀ c : Call, ¬ c.Name name) :
    (Methods.find name : Except Str Method) =
      .error ("rpc: can't find service unknown.".toList ++ name) := by
  have hn : methodMap.lookup name = none := by
    refine lookup_none_of _ _ fun p hp he => ?_
    subst he
    have key : ∃ m, dispatch p.1 = .ok m := by
      have := mapped p hp
      cases hd : dispatch p.1 with
      | ok m => exact ⟨m, rfl⟩
      | error e => rw [hd] at this; cases this
    obtain ⟨m, hm⟩ := key
    obtain ⟨c, hc, -⟩ := (c09_exact _ m).mp hm
    exact h c hc
  have he : dispatch name = .error .noService := by
    unfold dispatch
    refine c09_unmapped methodMap services (fun p hp => ?_) name hn
    simp only [services, List.mem_singleton] at hp
    subst hp
    decide
  have ht : "rpc: can't find service unknown.".toList =
      "rpc: can't find service ".toList ++ "unknown.".toList := by decide +kernel
  have hf : (Methods.find name : Except Str Method) = .error (dispatchText .noService name) := by
    show (match dispatch name with
      | .error e => .error (dispatchText e name)
      | .ok m => .ok m : Except Str Method) = _
    rw [he]
  have hm : mapName methodMap name = "unknown.".toList ++ name := by
    unfold mapName
    rw [hn]
  rw [hf]
  unfold dispatchText missingText
  rw [hm, ht, List.append_assoc]

/-- Non-vacuity: a name of a method of Go. -/
example : (Methods.find "Burl.Hello".toList : Except Str Method) =
    .error "rpc: can't find service unknown.Burl.Hello".toList := rfl

/-- Calls of the backend. -/
instance : Calls Method Call where
  Name := Call.Name
  method := reached
  found {name m} h := by
    simp only [Methods.find] at h
    cases hd : dispatch name with
    | error e => rw [hd] at h; cases h
    | ok m' =>
      rw [hd] at h
      injection h with h
      subst h
      exact dispatch_reached hd
  missing {name t} h := by
    simp only [Methods.find] at h
    cases hd : dispatch name with
    | ok m' => rw [hd] at h; cases h
    | error e =>
      rw [hd] at h
      injection h with h
      refine ⟨?_, fun c hc => ?_⟩
      · rw [← h]
        unfold dispatchText missingText
        cases e <;> simp
      · have := (c09_exact name (target c)).2 ⟨c, hc, rfl⟩
        rw [hd] at this
        simp at this

/-- What a reply to a request may say. -/
inductive Answers {Id P A V M C : Type} [Methods M] [Calls M C]
    (w : World P A V M) (r : Request Id P) : Body V → Prop where
  /-- There is no such method. -/
  | unknown {msg} : (∀ c : C, ¬Calls.Name M c r.method) → msg ≠ [] → Answers w r (.error msg)
  | noParams {msg} : r.params = none → msg ≠ [] → Answers w r (.error msg)
  | badParams {c : C} {p msg} : Calls.Name M c r.method → r.params = some p →
      w.unmarshal (Calls.method c) p = .error msg → msg ≠ [] → Answers w r (.error msg)
  /-- A failure without a message. -/
  | badParamsSilent {c : C} {p} : Calls.Name M c r.method → r.params = some p →
      w.unmarshal (Calls.method c) p = .error [] → Answers w r (.result w.invalid)
  /-- The method has succeeded. -/
  | result {c : C} {p a v} : Calls.Name M c r.method → r.params = some p →
      w.unmarshal (Calls.method c) p = .ok a → w.returns (Calls.method c) a v none → Answers w r (.result v)
  /-- The method has failed. -/
  | failed {c : C} {p a v msg} : Calls.Name M c r.method → r.params = some p →
      w.unmarshal (Calls.method c) p = .ok a → w.returns (Calls.method c) a v (some msg) → msg ≠ [] →
      Answers w r (.error msg)
  /-- The method has failed without a message: this is not told from success. -/
  | failedSilent {c : C} {p a v} : Calls.Name M c r.method → r.params = some p →
      w.unmarshal (Calls.method c) p = .ok a → w.returns (Calls.method c) a v (some []) →
      Answers w r (.result v)

variable {Id P A V M C : Type} [Methods M] [calls : Calls M C] {w : World P A V M}

theorem answers_refused {r : Request Id P} {t : Str} (h : prepare w r = .error t) :
    Answers w r (respond w.invalid t) := by
  unfold prepare at h
  cases hd : (Methods.find r.method : Except Str M) with
  | error e =>
    rw [hd] at h
    simp only [Except.error.injEq] at h
    subst h
    obtain ⟨hne, hc⟩ := Calls.missing hd
    rw [respond, if_pos hne]
    exact .unknown hc hne
  | ok m =>
    rw [hd] at h
    obtain ⟨c, hc, rfl⟩ := Calls.found hd
    simp only at h
    cases hp : r.params with
    | none =>
      rw [hp] at h
      simp only [Except.error.injEq] at h
      have hne : t ≠ [] := by rw [← h]; simp
      rw [respond, if_pos hne]
      exact .noParams hp hne
    | some p =>
      rw [hp] at h
      simp only at h
      cases hu : w.unmarshal (Calls.method c) p with
      | ok a => rw [hu] at h; simp at h
      | error t' =>
        rw [hu] at h
        simp only [Except.error.injEq] at h
        subst h
        unfold respond
        split
        · rename_i hne
          exact .badParams hc hp hu hne
        · rename_i hne
          have : t' = [] := by simpa using hne
          subst this
          exact .badParamsSilent hc hp hu

theorem prepared {r : Request Id P} {m : M} {a : A} (h : prepare w r = .ok (m, a)) :
    ∃ (c : C) (p : P), Calls.Name M c r.method ∧ r.params = some p ∧ w.unmarshal (Calls.method c) p = .ok a ∧
      Calls.method c = m := by
  unfold prepare at h
  cases hd : (Methods.find r.method : Except Str M) with
  | error e => rw [hd] at h; simp at h
  | ok m' =>
    rw [hd] at h
    obtain ⟨c, hc, rfl⟩ := Calls.found hd
    simp only at h
    cases hp : r.params with
    | none => rw [hp] at h; simp at h
    | some p =>
      rw [hp] at h
      simp only at h
      cases hu : w.unmarshal (Calls.method c) p with
      | error t' => rw [hu] at h; simp at h
      | ok a' =>
        rw [hu] at h
        simp only [Except.ok.injEq, Prod.mk.injEq] at h
        obtain ⟨rfl, rfl⟩ := h
        exact ⟨c, p, hc, rfl, hu, rfl⟩

theorem answers_returned {r : Request Id P} {m : M} {a : A} {v : V} {err : Option Str}
    (h : prepare w r = .ok (m, a)) (hr : w.returns m a v err) : Answers w r (returned v err) := by
  obtain ⟨c, p, hc, hp, hu, rfl⟩ := prepared h
  unfold returned respond
  cases err with
  | none => simpa using .result hc hp hu hr
  | some msg =>
    by_cases hm : msg = []
    · subst hm
      simpa using .failedSilent hc hp hu hr
    · simpa [hm] using .failed hc hp hu hr hm

/-- The request is a call of a method that neither returns nor panics. -/
def NeverEnds (w : World P A V M) (r : Request Id P) : Prop :=
  ∃ (c : C) (p : P) (a : A), Calls.Name M c r.method ∧ r.params = some p ∧
    w.unmarshal (Calls.method c) p = .ok a ∧ (∀ v err, ¬w.returns (Calls.method c) a v err) ∧
    ¬w.panics (Calls.method c) a

theorem neverEnds_of {r : Request Id P} {m : M} {a : A} (h : prepare w r = .ok (m, a))
    (h1 : ∀ v err, ¬w.returns m a v err) (h2 : ¬w.panics m a) : NeverEnds w r := by
  obtain ⟨c, p, hc, hp, hu, rfl⟩ := prepared h
  exact ⟨c, p, a, hc, hp, hu, h1, h2⟩

/-- Every reply is for a request of its own: `ks` tells which one. -/
structure Matched (w : World P A V M) (reqs : List (Request Id P)) (out : List (Reply Id V))
    (ks : List Nat) : Prop where
  length : ks.length = out.length
  once : ks.Nodup
  answers : ∀ (i k : Nat) (p : Reply Id V), ks[i]? = some k → out[i]? = some p →
    ∃ r, reqs[k]? = some r ∧ p.id = r.id ∧ Answers w r p.body

/-! ### Invariant -/

/-- What is known about a request. -/
def Pc.ok (w : World P A V M) (r : Request Id P) : Pc Id A V M → Prop
  | .idle => False
  | .got => True
  | .running m a => prepare w r = .ok (m, a)
  | .want b => Answers w r b
  | .writing id b => id = r.id ∧ Answers w r b
  | .done => True

/-- The identifier is in the table. -/
def Pc.open_ : Pc Id A V M → Bool
  | .got => true
  | .running _ _ => true
  | .want _ => true
  | _ => false

structure Inv (w : World P A V M) (reqs : List (Request Id P)) (s : State Id P A V M) : Prop where
  seq : s.seq = s.seen.length
  all : s.seen ++ s.todo = reqs
  idle : ∀ k, (k = 0 ∨ s.seq < k) → s.pc k = .idle
  ok : ∀ k r, 1 ≤ k → s.seen[k - 1]? = some r → (s.pc k).ok w r
  ids : ∀ k r, 1 ≤ k → s.seen[k - 1]? = some r → (s.pc k).open_ = true →
    s.pending.lookup k = some r.id
  lock : ∀ k, s.lock = some k ↔ ∃ id b, s.pc k = .writing id b
  busy : ∀ k, s.loop = .busy k → s.pc k = .got ∨ (∃ b, s.pc k = .want b) ∨ ∃ id b, s.pc k = .writing id b
  got : ∀ k, s.pc k = .got → s.loop = .busy k
  over : (s.loop = .waiting ∨ s.loop = .closed) → s.todo = []
  closed : s.loop = .closed → ∀ k, 1 ≤ k → k ≤ s.seq → s.pc k = .done
  out : s.out = (s.log.filter (·.2.2)).map (·.2.1)
  done : ∀ k, s.pc k = .done ↔ k ∈ s.log.map (·.1)
  nodup : (s.log.map (·.1)).Nodup
  log : ∀ e ∈ s.log, ∃ r, 1 ≤ e.1 ∧ s.seen[e.1 - 1]? = some r ∧ e.2.1.id = r.id ∧
    Answers w r e.2.1.body ∧ (e.2.2 = false → s.broken = true ∨ e.2.1.body.encodes w = false)

omit [Methods M] in
theorem set_same {f : Nat → Pc Id A V M} {k : Nat} {p : Pc Id A V M} : set f k p k = p := by simp [set]
omit [Methods M] in
theorem set_other {f : Nat → Pc Id A V M} {k i : Nat} {p : Pc Id A V M} (h : i ≠ k) :
    set f k p i = f i := by simp [set, h]

theorem lookup_filter {l : List (Nat × Option Id)} {k i : Nat} (h : i ≠ k) :
    (l.filter (fun p => p.1 != k)).lookup i = l.lookup i := by
  induction l with
  | nil => rfl
  | cons x xs ih =>
    obtain ⟨a, b⟩ := x
    by_cases hx : a = k
    · subst hx
      rw [List.filter_cons_of_neg (by simp), ih, List.lookup_cons]
      have : (i == a) = false := by simpa using h
      rw [this]
    · rw [List.filter_cons_of_pos (by simpa using hx), List.lookup_cons, List.lookup_cons, ih]

theorem inv_start (reqs : List (Request Id P)) : Inv w reqs (start reqs : State Id P A V M) := by
  constructor <;> simp [start]

theorem Inv.request {reqs : List (Request Id P)} {s : State Id P A V M} (h : Inv w reqs s) {k : Nat}
    (hk : s.pc k ≠ .idle) : ∃ r, 1 ≤ k ∧ k ≤ s.seq ∧ s.seen[k - 1]? = some r := by
  have h1 : ¬(k = 0 ∨ s.seq < k) := fun hc => hk (h.idle k hc)
  have h2 : k - 1 < s.seen.length := by rw [← h.seq]; omega
  exact ⟨s.seen[k - 1], by omega, by omega, List.getElem?_eq_getElem h2⟩

/-- A step that only changes what is known about one request. -/
theorem inv_set {reqs : List (Request Id P)} {s : State Id P A V M} (h : Inv w reqs s) {k : Nat}
    {p : Pc Id A V M} {l : Loop} (hk : s.pc k ≠ .idle) (hw : ∀ id b, s.pc k ≠ .writing id b)
    (hd : s.pc k ≠ .done) (hopen : (s.pc k).open_ = true)
    (hp : ∀ r, s.seen[k - 1]? = some r → p.ok w r) (hpw : ∀ id b, p ≠ .writing id b)
    (hpd : p ≠ .done) (hpi : p ≠ .got)
    (hl : (l = s.loop ∧ (s.loop = .busy k → ∃ b, p = .want b)) ∨
      (s.loop = .busy k ∧ l = .ready)) (hnot : s.loop = .busy k ∨ s.pc k ≠ .got) :
    Inv w reqs { s with pc := set s.pc k p, loop := l } := by
  obtain ⟨r, h1, h2, h3⟩ := h.request hk
  refine ⟨h.seq, h.all, ?_, ?_, ?_, ?_, ?_, ?_, ?_, ?_, h.out, ?_, h.nodup, h.log⟩
  · intro i hi
    simp only at hi ⊢
    rw [set_other (by omega)]
    exact h.idle i hi
  · intro i r' hi hr
    by_cases he : i = k
    · subst he
      simp only [set_same]
      exact hp r' hr
    · simp only [set_other he]
      exact h.ok i r' hi hr
  · intro i r' hi hr ho
    by_cases he : i = k
    · subst he
      exact h.ids i r' hi hr hopen
    · simp only [set_other he] at ho
      exact h.ids i r' hi hr ho
  · intro i
    by_cases he : i = k
    · subst he
      simp only [set_same]
      rw [h.lock]
      constructor
      · rintro ⟨id, b, hb⟩; exact absurd hb (hw id b)
      · rintro ⟨id, b, hb⟩; exact absurd hb (hpw id b)
    · simp only [set_other he]
      exact h.lock i
  · intro i hi
    simp only at hi
    rcases hl with ⟨rfl, hq⟩ | ⟨hb, rfl⟩
    · by_cases he : i = k
      · subst he
        simp only [set_same]
        exact .inr (.inl (hq hi))
      · simp only [set_other he]
        exact h.busy i hi
    · simp at hi
  · intro i hi
    by_cases he : i = k
    · subst he
      simp only [set_same] at hi
      exact absurd hi hpi
    · simp only [set_other he] at hi
      have := h.got i hi
      rcases hl with ⟨rfl, _⟩ | ⟨hb, rfl⟩
      · exact this
      · rw [hb] at this
        simp only [Loop.busy.injEq] at this
        exact absurd this.symm he
  · intro hi
    rcases hl with ⟨rfl, _⟩ | ⟨hb, rfl⟩
    · exact h.over hi
    · simp at hi
  · intro hi
    simp only at hi
    rcases hl with ⟨rfl, _⟩ | ⟨hb, rfl⟩
    · exact absurd (h.closed hi k h1 h2) hd
    · simp at hi
  · intro i
    by_cases he : i = k
    · subst he
      simp only [set_same]
      constructor
      · intro hc; exact absurd hc hpd
      · intro hc; exact absurd ((h.done i).2 hc) hd
    · simp only [set_other he]
      exact h.done i

theorem after_cases (l : Loop) (k : Nat) :
    (l = .busy k ∧ l.after k = .ready) ∨ (l ≠ .busy k ∧ l.after k = l) := by
  cases l with
  | busy i =>
    by_cases h : i = k
    · subst h; exact .inl ⟨rfl, by simp [Loop.after]⟩
    · exact .inr ⟨by simpa using h, by simp [Loop.after, h]⟩
  | _ => exact .inr ⟨by simp, rfl⟩

theorem Step.inv {reqs : List (Request Id P)} {s s' : State Id P A V M} (h : Inv w reqs s)
    (hs : Step w s s') : Inv w reqs s' := by
  cases hs with
  | read hc hl ht =>
    rename_i r rest
    have hidle : ∀ k, s.pc k ≠ .idle → k ≠ s.seq + 1 := by
      rintro k hk rfl
      exact hk (h.idle _ (.inr (by omega)))
    have hfresh : s.pc (s.seq + 1) = .idle := h.idle _ (.inr (by omega))
    have hseen : ∀ {k : Nat} {r' : Request Id P}, k ≠ s.seq + 1 → 1 ≤ k →
        (s.seen ++ [r])[k - 1]? = some r' → s.seen[k - 1]? = some r' := by
      intro k r' hk hk1 he
      rw [List.getElem?_append] at he
      split at he
      · exact he
      · rename_i hge
        have := h.seq
        have : k - 1 - s.seen.length = 0 ∨ 0 < k - 1 - s.seen.length := by omega
        rcases this with h0 | h0
        · omega
        · obtain ⟨j, hj⟩ : ∃ j, k - 1 - s.seen.length = j + 1 := ⟨_, (Nat.sub_add_cancel h0).symm⟩
          rw [hj] at he
          simp at he
    refine ⟨?_, ?_, ?_, ?_, ?_, ?_, ?_, ?_, ?_, ?_, h.out, ?_, h.nodup, ?_⟩
    · simp [h.seq]
    · have := h.all
      rw [ht] at this
      simpa using this
    · intro k hk
      simp only at hk
      simp only
      rw [set_other (by omega)]
      exact h.idle k (by omega)
    · intro k r' hk hr
      by_cases he : k = s.seq + 1
      · subst he; simp only [set_same]; trivial
      · simp only [set_other he]
        exact h.ok k r' hk (hseen he hk hr)
    · intro k r' hk hr ho
      by_cases he : k = s.seq + 1
      · subst he
        have : s.seq + 1 - 1 = s.seen.length := by rw [h.seq]; omega
        rw [this] at hr
        simp only [List.getElem?_concat_length, Option.some.injEq] at hr
        subst hr
        simp
      · simp only [set_other he] at ho
        have := h.ids k r' hk (hseen he hk hr) ho
        simp only [List.lookup_cons]
        have hne : (k == s.seq + 1) = false := by simpa using he
        rw [hne]
        exact this
    · intro k
      by_cases he : k = s.seq + 1
      · subst he
        simp only [set_same]
        rw [h.lock, hfresh]
        simp
      · simp only [set_other he]
        exact h.lock k
    · intro k hk
      simp only [Loop.busy.injEq] at hk
      subst hk
      simp only [set_same]
      exact .inl trivial
    · intro k hk
      by_cases he : k = s.seq + 1
      · subst he; rfl
      · simp only [set_other he] at hk
        have := h.got k hk
        rw [hl] at this
        simp at this
    · intro hk; simp at hk
    · intro hk; simp at hk
    · intro k
      by_cases he : k = s.seq + 1
      · subst he
        simp only [set_same]
        rw [← h.done, hfresh]
        simp
      · simp only [set_other he]
        exact h.done k
    · intro e he
      obtain ⟨r', g1, g2, g3⟩ := h.log e he
      refine ⟨r', g1, ?_, g3⟩
      simp only
      rw [List.getElem?_append_left]
      · exact g2
      · exact (List.getElem?_eq_some_iff.1 g2).1
  | refuse hc hl hp hr ht =>
    rename_i k r t
    refine inv_set (l := s.loop) h (by rw [hp]; simp) (by rw [hp]; simp) (by rw [hp]; simp)
      (by rw [hp]; rfl) ?_ (by simp) (by simp) (by simp) (.inl ⟨rfl, fun _ => ⟨_, rfl⟩⟩) (.inl hl)
    intro r' hr'
    rw [hr] at hr'
    simp only [Option.some.injEq] at hr'
    subst hr'
    exact answers_refused ht
  | spawn hc hl hp hr ht =>
    rename_i k r m a
    refine inv_set h (by rw [hp]; simp) (by rw [hp]; simp) (by rw [hp]; simp)
      (by rw [hp]; rfl) ?_ (by simp) (by simp) (by simp) (.inr ⟨hl, rfl⟩) (.inl hl)
    intro r' hr'
    rw [hr] at hr'
    simp only [Option.some.injEq] at hr'
    subst hr'
    exact ht
  | finish hc hp hr =>
    rename_i k m a v err
    refine inv_set (l := s.loop) h (by rw [hp]; simp) (by rw [hp]; simp) (by rw [hp]; simp)
      (by rw [hp]; rfl) ?_ (by simp) (by simp) (by simp) (.inl ⟨rfl, fun _ => ⟨_, rfl⟩⟩)
      (.inr (by rw [hp]; simp))
    intro r' hr'
    obtain ⟨_, h1, _, _⟩ := h.request (k := k) (by rw [hp]; simp)
    have := h.ok k r' h1 hr'
    rw [hp] at this
    exact answers_returned this hr
  | panic hc hp hr =>
    exact ⟨h.seq, h.all, h.idle, h.ok, h.ids, h.lock, h.busy, h.got, h.over, h.closed, h.out, h.done,
      h.nodup, h.log⟩
  | take hc hp hl hk =>
    rename_i k b id
    obtain ⟨r, h1, h2, h3⟩ := h.request (k := k) (by rw [hp]; simp)
    refine ⟨h.seq, h.all, ?_, ?_, ?_, ?_, ?_, ?_, h.over, ?_, h.out, ?_, h.nodup, h.log⟩
    · intro i hi
      simp only at hi ⊢
      rw [set_other (by omega)]
      exact h.idle i hi
    · intro i r' hi hr
      by_cases he : i = k
      · subst he
        simp only [set_same]
        have g1 := h.ok i r' hi hr
        rw [hp] at g1
        have g2 := h.ids i r' hi hr (by rw [hp]; rfl)
        rw [hk] at g2
        simp only [Option.some.injEq] at g2
        exact ⟨g2, g1⟩
      · simp only [set_other he]
        exact h.ok i r' hi hr
    · intro i r' hi hr ho
      by_cases he : i = k
      · subst he
        simp only [set_same] at ho
        simp [Pc.open_] at ho
      · simp only [set_other he] at ho
        simp only
        rw [lookup_filter he]
        exact h.ids i r' hi hr ho
    · intro i
      by_cases he : i = k
      · subst he
        simp [set_same]
      · simp only [set_other he, Option.some.injEq]
        constructor
        · intro hc; exact absurd hc.symm he
        · intro hc
          have := (h.lock i).2 hc
          rw [hl] at this
          simp at this
    · intro i hi
      by_cases he : i = k
      · subst he
        simp only [set_same]
        exact .inr (.inr ⟨_, _, rfl⟩)
      · simp only [set_other he]
        exact h.busy i hi
    · intro i hi
      by_cases he : i = k
      · subst he
        simp [set_same] at hi
      · simp only [set_other he] at hi
        exact h.got i hi
    · intro hi
      have := h.closed hi k h1 h2
      rw [hp] at this
      simp at this
    · intro i
      by_cases he : i = k
      · subst he
        simp only [set_same]
        rw [← h.done, hp]
        simp
      · simp only [set_other he]
        exact h.done i
  | stray hc hp hl hk =>
    rename_i k b
    obtain ⟨r, h1, h2, h3⟩ := h.request (k := k) (by rw [hp]; simp)
    have := h.ids k r h1 h3 (by rw [hp]; rfl)
    rw [hk] at this
    simp at this
  | write hc hp =>
    rename_i k id b
    obtain ⟨r, h1, h2, h3⟩ := h.request (k := k) (by rw [hp]; simp)
    have hok := h.ok k r h1 h3
    rw [hp] at hok
    have hlock : s.lock = some k := (h.lock k).2 ⟨id, b, hp⟩
    have hnot : k ∉ s.log.map (·.1) := by
      rw [← h.done, hp]
      simp
    refine ⟨h.seq, h.all, ?_, ?_, ?_, ?_, ?_, ?_, ?_, ?_, ?_, ?_, ?_, ?_⟩
    · intro i hi
      simp only at hi ⊢
      rw [set_other (by omega)]
      exact h.idle i hi
    · intro i r' hi hr
      by_cases he : i = k
      · subst he
        simp only [set_same]
        trivial
      · simp only [set_other he]
        exact h.ok i r' hi hr
    · intro i r' hi hr ho
      by_cases he : i = k
      · subst he
        simp only [set_same] at ho
        simp [Pc.open_] at ho
      · simp only [set_other he] at ho
        exact h.ids i r' hi hr ho
    · intro i
      by_cases he : i = k
      · subst he
        simp [set_same]
      · simp only [set_other he]
        constructor
        · intro hc; simp at hc
        · intro hc
          have := (h.lock i).2 hc
          rw [hlock] at this
          simp only [Option.some.injEq] at this
          exact absurd this.symm he
    · intro i hi
      simp only at hi ⊢
      rcases after_cases s.loop k with ⟨_, e⟩ | ⟨hne, e⟩
      · rw [e] at hi; simp at hi
      · rw [e] at hi
        have he : i ≠ k := by rintro rfl; exact hne hi
        rw [set_other he]
        exact h.busy i hi
    · intro i hi
      by_cases he : i = k
      · subst he
        simp [set_same] at hi
      · simp only [set_other he] at hi ⊢
        have hb := h.got i hi
        rw [hb]
        simp [Loop.after, he]
    · intro hi
      simp only at hi
      rcases after_cases s.loop k with ⟨_, e⟩ | ⟨_, e⟩
      · rw [e] at hi; simp at hi
      · rw [e] at hi; exact h.over hi
    · intro hi i hi1 hi2
      simp only at hi hi2
      rcases after_cases s.loop k with ⟨_, e⟩ | ⟨_, e⟩
      · rw [e] at hi; simp at hi
      · rw [e] at hi
        have := h.closed hi k h1 h2
        rw [hp] at this
        simp at this
    · simp only [List.filter_append, List.map_append, ← h.out]
      congr 1
      cases hb : (b.encodes w && !s.broken) <;> simp
    · intro i
      by_cases he : i = k
      · subst he
        simp [set_same]
      · simp only [set_other he]
        rw [h.done i]
        simp [he]
    · simp only [List.map_append, List.map_cons, List.map_nil]
      rw [List.nodup_append]
      refine ⟨h.nodup, by simp, ?_⟩
      intro a ha b' hb' hab
      simp only [List.mem_singleton] at hb'
      subst hb' hab
      exact hnot ha
    · intro e he
      rcases List.mem_append.1 he with he | he
      · exact h.log e he
      · simp only [List.mem_singleton] at he
        subst he
        refine ⟨r, h1, h3, hok.1, hok.2, ?_⟩
        intro hf
        simp only at hf
        by_cases hb : b.encodes w = true
        · rw [hb] at hf
          simp only [Bool.true_and, Bool.not_eq_false'] at hf
          exact .inl hf
        · exact .inr (by simpa using hb)
  | break_ hc hb =>
    refine ⟨h.seq, h.all, h.idle, h.ok, h.ids, h.lock, h.busy, h.got, h.over, h.closed, h.out, h.done,
      h.nodup, ?_⟩
    intro e he
    obtain ⟨r, g1, g2, g3, g4, -⟩ := h.log e he
    exact ⟨r, g1, g2, g3, g4, fun _ => .inl rfl⟩
  | eof hc hl ht =>
    refine ⟨h.seq, h.all, h.idle, h.ok, h.ids, h.lock, ?_, ?_, fun _ => ht, ?_, h.out, h.done,
      h.nodup, h.log⟩
    · intro k hk; simp at hk
    · intro k hk
      have := h.got k hk
      rw [hl] at this
      simp at this
    · intro hk; simp at hk
  | close hc hl hd =>
    refine ⟨h.seq, h.all, h.idle, h.ok, h.ids, h.lock, ?_, ?_, fun _ => h.over (.inl hl), fun _ => hd, h.out,
      h.done, h.nodup, h.log⟩
    · intro k hk; simp at hk
    · intro k hk
      have := h.got k hk
      rw [hl] at this
      simp at this

theorem Steps.inv {reqs : List (Request Id P)} {n : Nat} {s : State Id P A V M}
    (h : Steps w (start reqs) n s) : Inv w reqs s := by
  generalize hs : (start reqs : State Id P A V M) = s0 at h
  induction h with
  | refl => subst hs; exact inv_start reqs
  | step _ hst ih => exact hst.inv ih

/-! ### Theorems -/

/-- The numbers of requests that have got a reply, in the order of replies. -/
def answered (s : State Id P A V M) : List Nat := (s.log.filter (·.2.2)).map (fun e => e.1 - 1)

theorem Inv.matched {reqs : List (Request Id P)} {s : State Id P A V M} (h : Inv w reqs s) :
    Matched w reqs s.out (answered s) := by
  have hpos : ∀ e ∈ s.log, 1 ≤ e.1 := fun e he => (h.log e he).choose_spec.1
  refine ⟨by simp [answered, h.out], ?_, ?_⟩
  · have h1 : ((s.log.filter (·.2.2)).map (·.1)).Nodup :=
      List.Nodup.sublist (List.Sublist.map _ List.filter_sublist) h.nodup
    have h2 : ∀ (l : List (Nat × Reply Id V × Bool)), (∀ e ∈ l, 1 ≤ e.1) → (l.map (·.1)).Nodup →
        (l.map (fun e => e.1 - 1)).Nodup := by
      intro l
      induction l with
      | nil => simp
      | cons x xs ih =>
        intro hp hn
        simp only [List.map_cons, List.nodup_cons, List.mem_map, not_exists, not_and] at hn ⊢
        refine ⟨fun y hy e => hn.1 y hy ?_, ih (fun e he => hp e (by simp [he])) hn.2⟩
        have := hp x (by simp)
        have := hp y (by simp [hy])
        omega
    exact h2 _ (fun e he => hpos e (List.mem_filter.1 he).1) h1
  · intro i k p hk hp
    rw [h.out] at hp
    simp only [answered, List.getElem?_map, Option.map_eq_some_iff] at hk hp
    obtain ⟨e, he, rfl⟩ := hk
    obtain ⟨e', he', rfl⟩ := hp
    rw [he] at he'
    simp only [Option.some.injEq] at he'
    subst he'
    obtain ⟨r, -, g1, g2, g3, -⟩ := h.log e (List.mem_filter.1 (List.mem_of_getElem? he)).1
    refine ⟨r, ?_, g2, g3⟩
    rw [← h.all, List.getElem?_append_left]
    · exact g1
    · exact (List.getElem?_eq_some_iff.1 g1).1

/-- Replies belong to requests: each has the identifier of its request and an answer to it, and no
request gets two. -/
theorem c59_replies {reqs : List (Request Id P)} {n : Nat} {s : State Id P A V M}
    (h : Steps w (start reqs) n s) : ∃ ks, Matched w reqs s.out ks := ⟨_, h.inv.matched⟩

theorem Inv.replied {reqs : List (Request Id P)} {s : State Id P A V M} (hi : Inv w reqs s) {k : Nat}
    {r : Request Id P} (hr : reqs[k]? = some r) (hd : s.pc (k + 1) = .done) :
    k ∈ answered s ∨ s.broken = true ∨ ∃ v, Answers w r (.result v) ∧ w.encodes v = false := by
  rw [hi.done, List.mem_map] at hd
  obtain ⟨e, he, hek⟩ := hd
  obtain ⟨r', g1, g2, g3, g4, g5⟩ := hi.log e he
  have hkr : e.1 - 1 = k := by omega
  have hlt := (List.getElem?_eq_some_iff.1 g2).1
  rw [hkr] at g2 hlt
  rw [← hi.all, List.getElem?_append_left hlt, g2] at hr
  simp only [Option.some.injEq] at hr
  subst hr
  cases hb' : e.2.2 with
  | true => exact .inl (List.mem_map.2 ⟨e, List.mem_filter.2 ⟨he, hb'⟩, hkr⟩)
  | false =>
    right
    rcases g5 hb' with h5 | h5
    · exact .inl h5
    · right
      cases hbody : e.2.1.body with
      | error m => rw [hbody] at h5; simp [Body.encodes] at h5
      | result v => rw [hbody] at h5 g4; exact ⟨v, g4, h5⟩

/-- When the session has ended, all requests have been answered, except those whose answer can not
be written. -/
theorem c59_complete {reqs : List (Request Id P)} {n : Nat} {s : State Id P A V M}
    (h : Steps w (start reqs) n s) (hc : s.loop = .closed) (hb : s.broken = false) :
    ∃ ks, Matched w reqs s.out ks ∧ ∀ k r, reqs[k]? = some r →
      k ∈ ks ∨ ∃ v, Answers w r (.result v) ∧ w.encodes v = false := by
  refine ⟨_, h.inv.matched, ?_⟩
  intro k r hr
  have hi := h.inv
  have hall := hi.all
  rw [hi.over (.inr hc), List.append_nil] at hall
  have hlen : k < reqs.length := (List.getElem?_eq_some_iff.1 hr).1
  have hd := hi.closed hc (k + 1) (by omega) (by rw [hi.seq, hall]; omega)
  rcases hi.replied hr hd with h1 | h1 | h1
  · exact .inl h1
  · rw [hb] at h1; simp at h1
  · exact .inr h1

include calls in
/-- Different requests of a client have different identifiers: so do replies. -/
theorem c59_distinct {reqs : List (Request Id P)} {n : Nat} {s : State Id P A V M}
    (h : Steps w (start reqs) n s) (hids : (reqs.map (·.id)).Nodup) : (s.out.map (·.id)).Nodup := by
  obtain ⟨ks, hm⟩ := c59_replies h
  refine List.pairwise_iff_getElem.2 ?_
  intro i j hi hj hij hne
  simp only [List.length_map] at hi hj
  have hi' : i < ks.length := by rw [hm.length]; exact hi
  have hj' : j < ks.length := by rw [hm.length]; exact hj
  obtain ⟨r1, a1, a2, -⟩ := hm.answers i ks[i] s.out[i] (List.getElem?_eq_getElem hi')
    (List.getElem?_eq_getElem hi)
  obtain ⟨r2, b1, b2, -⟩ := hm.answers j ks[j] s.out[j] (List.getElem?_eq_getElem hj')
    (List.getElem?_eq_getElem hj)
  simp only [List.getElem_map] at hne
  have hk : ks[i] ≠ ks[j] := List.pairwise_iff_getElem.1 hm.once i j hi' hj' hij
  obtain ⟨hl1, e1⟩ := List.getElem?_eq_some_iff.1 a1
  obtain ⟨hl2, e2⟩ := List.getElem?_eq_some_iff.1 b1
  have hp := List.pairwise_iff_getElem.1 hids
  rcases Nat.lt_or_gt_of_ne hk with hlt | hlt
  · refine hp _ _ (by simpa using hl1) (by simpa using hl2) hlt ?_
    simp only [List.getElem_map, e1, e2]
    rw [← a2, ← b2, hne]
  · refine hp _ _ (by simpa using hl2) (by simpa using hl1) hlt ?_
    simp only [List.getElem_map, e1, e2]
    rw [← a2, ← b2, hne]

/-- The process ends before the input does only if a method called by one of the requests ends
it. -/
theorem c59_crash {reqs : List (Request Id P)} {n : Nat} {s : State Id P A V M}
    (h : Steps w (start reqs) n s) (hc : s.crashed = true) :
    ∃ r ∈ reqs, ∃ (c : C) (p : P) (a : A), Calls.Name M c r.method ∧ r.params = some p ∧
      w.unmarshal (Calls.method c) p = .ok a ∧ w.panics (Calls.method c) a := by
  generalize hs : (start reqs : State Id P A V M) = s0 at h
  induction h with
  | refl => subst hs; cases hc
  | @step n t u hst hstep ih =>
    subst hs
    cases hstep with
    | @panic k m a _ hrun hp =>
      have hi := hst.inv
      have h1 : 1 ≤ k ∧ k ≤ t.seq := by
        refine Classical.byContradiction fun hn => ?_
        have := hi.idle k (by omega)
        rw [hrun] at this
        cases this
      have hlt : k - 1 < t.seen.length := by rw [← hi.seq]; omega
      have hok := hi.ok k t.seen[k - 1] h1.1 (List.getElem?_eq_getElem hlt)
      rw [hrun] at hok
      obtain ⟨c, p, hc1, hc2, hc3, rfl⟩ := prepared hok
      exact ⟨t.seen[k - 1], by rw [← hi.all]; simp, c, p, a, hc1, hc2, hc3, hp⟩
    | _ => exact ih hc

/-- Nothing holds a request but its own method: when only the environment can move, all requests
have been read and each is answered or its method does not return; if there are no such methods
then the session has ended. -/
theorem c59_progress {reqs : List (Request Id P)} {n : Nat} {s : State Id P A V M}
    (h : Steps w (start reqs) n s) (hc : s.crashed = false)
    (hstuck : ∀ s', Step w s s' → s'.broken ≠ s.broken) :
    (∃ ks, Matched w reqs s.out ks ∧ ∀ k r, reqs[k]? = some r →
      k ∈ ks ∨ s.broken = true ∨ (∃ v, Answers w r (.result v) ∧ w.encodes v = false) ∨
        NeverEnds w r) ∧
      ((∀ r ∈ reqs, ¬NeverEnds w r) → s.loop = .closed) := by
  have hi := h.inv
  -- nobody holds the mutex
  have hw : ∀ k id b, s.pc k ≠ .writing id b := by
    intro k id b hp
    exact hstuck _ (.write hc hp) rfl
  have hlock : s.lock = none := by
    cases hl : s.lock with
    | none => rfl
    | some k =>
      obtain ⟨id, b, hp⟩ := (hi.lock k).1 hl
      exact absurd hp (hw k id b)
  have hwant : ∀ k b, s.pc k ≠ .want b := by
    intro k b hp
    cases hk : s.pending.lookup k with
    | none => exact hstuck _ (.stray hc hp hlock hk) rfl
    | some id => exact hstuck _ (.take hc hp hlock hk) rfl
  have hgot : ∀ k, s.pc k ≠ .got := by
    intro k hp
    obtain ⟨r, h1, h2, h3⟩ := hi.request (k := k) (by rw [hp]; simp)
    cases ht : prepare w r with
    | error t => exact hstuck _ (.refuse hc (hi.got k hp) hp h3 ht) rfl
    | ok q => exact hstuck _ (.spawn hc (hi.got k hp) hp h3 ht) rfl
  have hbusy : ∀ k, s.loop ≠ .busy k := by
    intro k hb
    rcases hi.busy k hb with h' | ⟨b, h'⟩ | ⟨id, b, h'⟩
    · exact hgot k h'
    · exact hwant k b h'
    · exact hw k id b h'
  have hready : s.loop ≠ .ready := by
    intro hl
    cases ht : s.todo with
    | nil => exact hstuck _ (.eof hc hl ht) rfl
    | cons r rest => exact hstuck _ (.read hc hl ht) rfl
  have hover : s.loop = .waiting ∨ s.loop = .closed := by
    cases hl : s.loop with
    | ready => exact absurd hl hready
    | busy k => exact absurd hl (hbusy k)
    | waiting => exact .inl rfl
    | closed => exact .inr rfl
  have htodo := hi.over hover
  have hall := hi.all
  rw [htodo, List.append_nil] at hall
  have hdone : ∀ k r, reqs[k]? = some r → s.pc (k + 1) = .done ∨ NeverEnds w r := by
    intro k r hr
    have hseen : s.seen[k + 1 - 1]? = some r := by rw [hall]; exact hr
    have hok := hi.ok (k + 1) r (by omega) hseen
    cases hp : s.pc (k + 1) with
    | idle => rw [hp] at hok; exact hok.elim
    | got => exact absurd hp (hgot _)
    | want b => exact absurd hp (hwant _ b)
    | writing id b => exact absurd hp (hw _ id b)
    | done => exact .inl rfl
    | running m a =>
      rw [hp] at hok
      refine .inr (neverEnds_of hok (fun v err hr => ?_) fun hpn => ?_)
      · exact hstuck _ (.finish hc hp hr) rfl
      · exact hstuck _ (.panic hc hp hpn) rfl
  refine ⟨⟨_, hi.matched, fun k r hr => ?_⟩, fun hne => ?_⟩
  · rcases hdone k r hr with hd | hd
    · rcases hi.replied hr hd with h1 | h1 | h1
      · exact .inl h1
      · exact .inr (.inl h1)
      · exact .inr (.inr (.inl h1))
    · exact .inr (.inr (.inr hd))
  · rcases hover with hl | hl
    · refine (hstuck _ (.close hc hl ?_) rfl).elim
      intro k h1 h2
      rw [hi.seq, hall] at h2
      have hlt : k - 1 < reqs.length := by omega
      rcases hdone (k - 1) _ (List.getElem?_eq_getElem hlt) with hd | hd
      · rwa [Nat.sub_add_cancel h1] at hd
      · exact absurd hd (hne _ (List.getElem_mem hlt))
    · exact hl

/-! ### The number of steps -/

def Pc.rank : Pc Id A V M → Nat
  | .idle => 0
  | .got => 1
  | .running _ _ => 2
  | .want _ => 3
  | .writing _ _ => 4
  | .done => 5

def total (f : Nat → Pc Id A V M) : Nat → Nat
  | 0 => 0
  | n + 1 => total f n + (f (n + 1)).rank

def Loop.rank : Loop → Nat
  | .waiting => 1
  | .closed => 2
  | _ => 0

def State.spent (s : State Id P A V M) : Nat :=
  total s.pc s.seq + s.loop.rank + (if s.broken then 1 else 0) + (if s.crashed then 1 else 0)

omit [Methods M] in
theorem total_set_gt {f : Nat → Pc Id A V M} {k n : Nat} {p : Pc Id A V M} (h : n < k) :
    total (set f k p) n = total f n := by
  induction n with
  | zero => rfl
  | succ n ih =>
    simp only [total]
    rw [ih (by omega), set_other (by omega)]

omit [Methods M] in
theorem total_set {f : Nat → Pc Id A V M} {k n : Nat} {p : Pc Id A V M} (h1 : 1 ≤ k) (h2 : k ≤ n) :
    total (set f k p) n + (f k).rank = total f n + p.rank := by
  induction n with
  | zero => omega
  | succ n ih =>
    simp only [total]
    by_cases he : k = n + 1
    · subst he
      rw [total_set_gt (by omega), set_same]
      omega
    · rw [set_other (by omega)]
      have := ih (by omega)
      omega

omit [Methods M] in
theorem rank_le (p : Pc Id A V M) : p.rank ≤ 5 := by cases p <;> simp [Pc.rank]

omit [Methods M] in
theorem total_le (f : Nat → Pc Id A V M) (n : Nat) : total f n ≤ 5 * n := by
  induction n with
  | zero => simp [total]
  | succ n ih =>
    have := rank_le (f (n + 1))
    simp only [total]
    omega

theorem rank_after (l : Loop) (k : Nat) : (l.after k).rank = l.rank := by
  rcases after_cases l k with ⟨e, h⟩ | ⟨_, h⟩
  · rw [h, e]; rfl
  · rw [h]

theorem Step.spent {reqs : List (Request Id P)} {s s' : State Id P A V M} (h : Inv w reqs s)
    (hs : Step w s s') : s.spent + 1 ≤ s'.spent := by
  have key : ∀ {k : Nat} {p : Pc Id A V M}, s.pc k ≠ .idle → (s.pc k).rank < p.rank →
      total s.pc s.seq + 1 ≤ total (set s.pc k p) s.seq := by
    intro k p hk hr
    obtain ⟨r, h1, h2, h3⟩ := h.request hk
    have := total_set (f := s.pc) (p := p) h1 h2
    omega
  cases hs with
  | read hc hl ht =>
    simp only [State.spent, total, hl, Loop.rank, set_same, Pc.rank]
    rw [total_set_gt (by omega)]
    omega
  | refuse hc hl hp hr ht =>
    rename_i k r t
    have := key (k := k) (p := .want (respond w.invalid t)) (by rw [hp]; simp)
      (by rw [hp]; simp [Pc.rank])
    simp only [State.spent]
    omega
  | spawn hc hl hp hr ht =>
    rename_i k r m a
    have := key (k := k) (p := .running m a) (by rw [hp]; simp) (by rw [hp]; simp [Pc.rank])
    simp only [State.spent, hl, Loop.rank]
    omega
  | finish hc hp hr =>
    rename_i k m a v err
    have := key (k := k) (p := .want (returned v err)) (by rw [hp]; simp) (by rw [hp]; simp [Pc.rank])
    simp only [State.spent]
    omega
  | panic hc hp hr => simp [State.spent, hc]
  | take hc hp hl hk =>
    rename_i k b id
    have := key (k := k) (p := .writing id b) (by rw [hp]; simp) (by rw [hp]; simp [Pc.rank])
    simp only [State.spent]
    omega
  | stray hc hp hl hk =>
    rename_i k b
    have := key (k := k) (p := .done) (by rw [hp]; simp) (by rw [hp]; simp [Pc.rank])
    simp only [State.spent, rank_after]
    omega
  | write hc hp =>
    rename_i k id b
    have := key (k := k) (p := .done) (by rw [hp]; simp) (by rw [hp]; simp [Pc.rank])
    simp only [State.spent, rank_after]
    omega
  | break_ hc hb => simp [State.spent, hc, hb]
  | eof hc hl ht =>
    simp only [State.spent, hl, Loop.rank]
    omega
  | close hc hl hd =>
    simp only [State.spent, hl, Loop.rank]
    omega

include calls in
/-- A session ends: there are at most five steps for every request and four more. -/
theorem c59_ends {reqs : List (Request Id P)} {n : Nat} {s : State Id P A V M}
    (h : Steps w (start reqs) n s) : n ≤ 5 * reqs.length + 4 := by
  have h1 : n ≤ s.spent := by
    generalize hs : (start reqs : State Id P A V M) = s0 at h
    induction h with
    | refl => omega
    | step hst hstep ih =>
      subst hs
      have := hstep.spent hst.inv
      omega
  have hi := h.inv
  have h2 := total_le s.pc s.seq
  have h3 : s.seq ≤ reqs.length := by
    rw [hi.seq, ← hi.all]
    simp
  have h4 : s.loop.rank ≤ 2 := by cases s.loop <;> simp [Loop.rank]
  have h5 : (if s.broken then 1 else 0) ≤ 1 := by split <;> omega
  have h6 : (if s.crashed then 1 else 0) ≤ 1 := by split <;> omega
  unfold State.spent at h1
  omega

/-! ### A session with replies out of order -/

/-- A world where all methods add one to their argument. -/
def exWorld : World Nat Nat Nat where
  unmarshal := fun _ p => .ok p
  returns := fun _ a v err => v = a + 1 ∧ err = none
  panics := fun _ _ => False
  invalid := 0
  encodes := fun _ => true

def exReqs : List (Request Nat Nat) :=
  [⟨some 7, "burl.urlMentions".toList, some 1⟩, ⟨some 8, "burl.nothing".toList, some 2⟩,
   ⟨some 9, "hello".toList, some 3⟩]

example : (exReqs.map (·.id)).Nodup := by decide

theorem example_session {r1 r2 r3 : Request Id P} {m1 m3 : M} {a1 a3 : A} {t : Str} {v1 v3 : V}
    (p1 : prepare w r1 = .ok (m1, a1)) (p2 : prepare w r2 = .error t)
    (p3 : prepare w r3 = .ok (m3, a3)) (q1 : w.returns m1 a1 v1 none)
    (q3 : w.returns m3 a3 v3 none) (e1 : (returned v1 none).encodes w = true)
    (e2 : (respond w.invalid t).encodes w = true) (e3 : (returned v3 none).encodes w = true) :
    ∃ n s, Steps w (start [r1, r2, r3]) n s ∧ s.loop = .closed ∧ s.broken = false ∧
      s.out = [⟨r2.id, respond w.invalid t⟩, ⟨r3.id, returned v3 none⟩, ⟨r1.id, returned v1 none⟩] := by
  have h : Steps w (start [r1, r2, r3]) 0 (start [r1, r2, r3]) := .refl
  have h : Steps w (start [r1, r2, r3]) 1
      ⟨[r2, r3], 1, [(1, r1.id)], (set (fun _ => .idle) 1 (.got)), (.busy 1), none, [], false, false, [r1], []⟩ :=
    h.step (.read rfl rfl rfl)
  have h : Steps w (start [r1, r2, r3]) 2
      ⟨[r2, r3], 1, [(1, r1.id)], (set (set (fun _ => .idle) 1 (.got)) 1 (.running m1 a1)), .ready, none, [], false, false, [r1], []⟩ :=
    h.step (.spawn (k := 1) rfl rfl rfl rfl p1)
  have h : Steps w (start [r1, r2, r3]) 3
      ⟨[r3], 2, [(2, r2.id), (1, r1.id)], (set (set (set (fun _ => .idle) 1 (.got)) 1 (.running m1 a1)) 2 (.got)), (.busy 2), none, [], false, false, [r1, r2], []⟩ :=
    h.step (.read rfl rfl rfl)
  have h : Steps w (start [r1, r2, r3]) 4
      ⟨[r3], 2, [(2, r2.id), (1, r1.id)], (set (set (set (set (fun _ => .idle) 1 (.got)) 1 (.running m1 a1)) 2 (.got)) 2 (.want (respond w.invalid t))), (.busy 2), none, [], false, false, [r1, r2], []⟩ :=
    h.step (.refuse (k := 2) rfl rfl rfl rfl p2)
  have h : Steps w (start [r1, r2, r3]) 5
      ⟨[r3], 2, [(1, r1.id)], (set (set (set (set (set (fun _ => .idle) 1 (.got)) 1 (.running m1 a1)) 2 (.got)) 2 (.want (respond w.invalid t))) 2 (.writing r2.id (respond w.invalid t))), (.busy 2), (some 2), [], false, false, [r1, r2], []⟩ :=
    h.step (.take (k := 2) rfl rfl rfl rfl)
  have h : Steps w (start [r1, r2, r3]) 6
      ⟨[r3], 2, [(1, r1.id)], (set (set (set (set (set (set (fun _ => .idle) 1 (.got)) 1 (.running m1 a1)) 2 (.got)) 2 (.want (respond w.invalid t))) 2 (.writing r2.id (respond w.invalid t))) 2 (.done)), .ready, none, [⟨r2.id, respond w.invalid t⟩], false, false, [r1, r2], [(2, ⟨r2.id, respond w.invalid t⟩, true)]⟩ := by
    have h' := h.step (.write (k := 2) rfl rfl)
    simpa only [e2, Loop.after, Bool.not_false, Bool.and_self, if_true, List.nil_append, List.cons_append] using h'
  have h : Steps w (start [r1, r2, r3]) 7
      ⟨[], 3, [(3, r3.id), (1, r1.id)], (set (set (set (set (set (set (set (fun _ => .idle) 1 (.got)) 1 (.running m1 a1)) 2 (.got)) 2 (.want (respond w.invalid t))) 2 (.writing r2.id (respond w.invalid t))) 2 (.done)) 3 (.got)), (.busy 3), none, [⟨r2.id, respond w.invalid t⟩], false, false, [r1, r2, r3], [(2, ⟨r2.id, respond w.invalid t⟩, true)]⟩ :=
    h.step (.read rfl rfl rfl)
  have h : Steps w (start [r1, r2, r3]) 8
      ⟨[], 3, [(3, r3.id), (1, r1.id)], (set (set (set (set (set (set (set (set (fun _ => .idle) 1 (.got)) 1 (.running m1 a1)) 2 (.got)) 2 (.want (respond w.invalid t))) 2 (.writing r2.id (respond w.invalid t))) 2 (.done)) 3 (.got)) 3 (.running m3 a3)), .ready, none, [⟨r2.id, respond w.invalid t⟩], false, false, [r1, r2, r3], [(2, ⟨r2.id, respond w.invalid t⟩, true)]⟩ :=
    h.step (.spawn (k := 3) rfl rfl rfl rfl p3)
  have h : Steps w (start [r1, r2, r3]) 9
      ⟨[], 3, [(3, r3.id), (1, r1.id)], (set (set (set (set (set (set (set (set (set (fun _ => .idle) 1 (.got)) 1 (.running m1 a1)) 2 (.got)) 2 (.want (respond w.invalid t))) 2 (.writing r2.id (respond w.invalid t))) 2 (.done)) 3 (.got)) 3 (.running m3 a3)) 3 (.want (returned v3 none))), .ready, none, [⟨r2.id, respond w.invalid t⟩], false, false, [r1, r2, r3], [(2, ⟨r2.id, respond w.invalid t⟩, true)]⟩ :=
    h.step (.finish (k := 3) rfl rfl q3)
  have h : Steps w (start [r1, r2, r3]) 10
      ⟨[], 3, [(1, r1.id)], (set (set (set (set (set (set (set (set (set (set (fun _ => .idle) 1 (.got)) 1 (.running m1 a1)) 2 (.got)) 2 (.want (respond w.invalid t))) 2 (.writing r2.id (respond w.invalid t))) 2 (.done)) 3 (.got)) 3 (.running m3 a3)) 3 (.want (returned v3 none))) 3 (.writing r3.id (returned v3 none))), .ready, (some 3), [⟨r2.id, respond w.invalid t⟩], false, false, [r1, r2, r3], [(2, ⟨r2.id, respond w.invalid t⟩, true)]⟩ :=
    h.step (.take (k := 3) rfl rfl rfl rfl)
  have h : Steps w (start [r1, r2, r3]) 11
      ⟨[], 3, [(1, r1.id)], (set (set (set (set (set (set (set (set (set (set (set (fun _ => .idle) 1 (.got)) 1 (.running m1 a1)) 2 (.got)) 2 (.want (respond w.invalid t))) 2 (.writing r2.id (respond w.invalid t))) 2 (.done)) 3 (.got)) 3 (.running m3 a3)) 3 (.want (returned v3 none))) 3 (.writing r3.id (returned v3 none))) 1 (.want (returned v1 none))), .ready, (some 3), [⟨r2.id, respond w.invalid t⟩], false, false, [r1, r2, r3], [(2, ⟨r2.id, respond w.invalid t⟩, true)]⟩ :=
    h.step (.finish (k := 1) rfl rfl q1)
  have h : Steps w (start [r1, r2, r3]) 12
      ⟨[], 3, [(1, r1.id)], (set (set (set (set (set (set (set (set (set (set (set (set (fun _ => .idle) 1 (.got)) 1 (.running m1 a1)) 2 (.got)) 2 (.want (respond w.invalid t))) 2 (.writing r2.id (respond w.invalid t))) 2 (.done)) 3 (.got)) 3 (.running m3 a3)) 3 (.want (returned v3 none))) 3 (.writing r3.id (returned v3 none))) 1 (.want (returned v1 none))) 3 (.done)), .ready, none, [⟨r2.id, respond w.invalid t⟩, ⟨r3.id, returned v3 none⟩], false, false, [r1, r2, r3], [(2, ⟨r2.id, respond w.invalid t⟩, true), (3, ⟨r3.id, returned v3 none⟩, true)]⟩ := by
    have h' := h.step (.write (k := 3) rfl rfl)
    simpa only [e3, Loop.after, Bool.not_false, Bool.and_self, if_true, List.nil_append, List.cons_append] using h'
  have h : Steps w (start [r1, r2, r3]) 13
      ⟨[], 3, [], (set (set (set (set (set (set (set (set (set (set (set (set (set (fun _ => .idle) 1 (.got)) 1 (.running m1 a1)) 2 (.got)) 2 (.want (respond w.invalid t))) 2 (.writing r2.id (respond w.invalid t))) 2 (.done)) 3 (.got)) 3 (.running m3 a3)) 3 (.want (returned v3 none))) 3 (.writing r3.id (returned v3 none))) 1 (.want (returned v1 none))) 3 (.done)) 1 (.writing r1.id (returned v1 none))), .ready, (some 1), [⟨r2.id, respond w.invalid t⟩, ⟨r3.id, returned v3 none⟩], false, false, [r1, r2, r3], [(2, ⟨r2.id, respond w.invalid t⟩, true), (3, ⟨r3.id, returned v3 none⟩, true)]⟩ :=
    h.step (.take (k := 1) rfl rfl rfl rfl)
  have h : Steps w (start [r1, r2, r3]) 14
      ⟨[], 3, [], (set (set (set (set (set (set (set (set (set (set (set (set (set (fun _ => .idle) 1 (.got)) 1 (.running m1 a1)) 2 (.got)) 2 (.want (respond w.invalid t))) 2 (.writing r2.id (respond w.invalid t))) 2 (.done)) 3 (.got)) 3 (.running m3 a3)) 3 (.want (returned v3 none))) 3 (.writing r3.id (returned v3 none))) 1 (.want (returned v1 none))) 3 (.done)) 1 (.writing r1.id (returned v1 none))), .waiting, (some 1), [⟨r2.id, respond w.invalid t⟩, ⟨r3.id, returned v3 none⟩], false, false, [r1, r2, r3], [(2, ⟨r2.id, respond w.invalid t⟩, true), (3, ⟨r3.id, returned v3 none⟩, true)]⟩ :=
    h.step (.eof rfl rfl rfl)
  have h : Steps w (start [r1, r2, r3]) 15
      ⟨[], 3, [], (set (set (set (set (set (set (set (set (set (set (set (set (set (set (fun _ => .idle) 1 (.got)) 1 (.running m1 a1)) 2 (.got)) 2 (.want (respond w.invalid t))) 2 (.writing r2.id (respond w.invalid t))) 2 (.done)) 3 (.got)) 3 (.running m3 a3)) 3 (.want (returned v3 none))) 3 (.writing r3.id (returned v3 none))) 1 (.want (returned v1 none))) 3 (.done)) 1 (.writing r1.id (returned v1 none))) 1 (.done)), .waiting, none, [⟨r2.id, respond w.invalid t⟩, ⟨r3.id, returned v3 none⟩, ⟨r1.id, returned v1 none⟩], false, false, [r1, r2, r3], [(2, ⟨r2.id, respond w.invalid t⟩, true), (3, ⟨r3.id, returned v3 none⟩, true), (1, ⟨r1.id, returned v1 none⟩, true)]⟩ := by
    have h' := h.step (.write (k := 1) rfl rfl)
    simpa only [e1, Loop.after, Bool.not_false, Bool.and_self, if_true, List.nil_append, List.cons_append] using h'
  have h : Steps w (start [r1, r2, r3]) 16
      ⟨[], 3, [], (set (set (set (set (set (set (set (set (set (set (set (set (set (set (fun _ => .idle) 1 (.got)) 1 (.running m1 a1)) 2 (.got)) 2 (.want (respond w.invalid t))) 2 (.writing r2.id (respond w.invalid t))) 2 (.done)) 3 (.got)) 3 (.running m3 a3)) 3 (.want (returned v3 none))) 3 (.writing r3.id (returned v3 none))) 1 (.want (returned v1 none))) 3 (.done)) 1 (.writing r1.id (returned v1 none))) 1 (.done)), .closed, none, [⟨r2.id, respond w.invalid t⟩, ⟨r3.id, returned v3 none⟩, ⟨r1.id, returned v1 none⟩], false, false, [r1, r2, r3], [(2, ⟨r2.id, respond w.invalid t⟩, true), (3, ⟨r3.id, returned v3 none⟩, true), (1, ⟨r1.id, returned v1 none⟩, true)]⟩ :=
    h.step (Step.close rfl rfl (by
      intro k h1 h2
      have h2 : k ≤ 3 := h2
      have : k = 1 ∨ k = 2 ∨ k = 3 := by omega
      rcases this with rfl | rfl | rfl <;> rfl))
  exact ⟨_, _, h, rfl, rfl, rfl⟩

example : ∃ n s, Steps exWorld (start exReqs) n s ∧ s.loop = .closed ∧ s.broken = false ∧
    s.out = [⟨some 8, .error "rpc: can't find service unknown.burl.nothing".toList⟩,
      ⟨some 9, .result 4⟩, ⟨some 7, .result 2⟩] := by
  have d1 : dispatch "burl.urlMentions".toList = .ok .urlMentions := by rfl
  have d2 : dispatch "burl.nothing".toList = .error .noService := by rfl
  have d3 : dispatch "hello".toList = .ok .hello := by rfl
  have d4 : dispatchText .noService "burl.nothing".toList =
      "rpc: can't find service unknown.burl.nothing".toList := by decide +kernel
  obtain ⟨n, s, h1, h2, h3, h4⟩ := example_session (w := exWorld)
    (r1 := ⟨some 7, "burl.urlMentions".toList, some 1⟩) (r2 := ⟨some 8, "burl.nothing".toList, some 2⟩)
    (r3 := ⟨some 9, "hello".toList, some 3⟩) (m1 := .urlMentions) (m3 := .hello) (a1 := 1) (a3 := 3)
    (t := "rpc: can't find service unknown.burl.nothing".toList) (v1 := 2) (v3 := 4)
    (by simp only [prepare, Methods.find, d1, exWorld]) (by simp only [prepare, Methods.find, d2, d4])
    (by simp only [prepare, Methods.find, d3, exWorld]) ⟨rfl, rfl⟩ ⟨rfl, rfl⟩ rfl
    (by unfold respond; split <;> rfl) rfl
  refine ⟨n, s, h1, h2, h3, ?_⟩
  rw [h4, respond, if_pos (by simp)]
  rfl

end Burl.Rpc.Server
