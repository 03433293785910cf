import Verif.Addon.Props
/-! The client of the example add-on given messages of any contents, by a backend that may be broken or hostile
(C81). -/
namespace Burl.Addon
open Burl
open Burl.Json (Json)
open Spec

namespace Spec

/-- The value of a member of an object, the last one of several. -/
def Last (name : String) (v x : Json) : Prop :=
  ∃ before after, v = .obj (before ++ (name.toList, x) :: after) ∧ ∀ m ∈ after, m.1 ≠ name.toList

/-- Values that `if` takes as absent. -/
def Hollow (x : Json) : Prop := x = .null ∨ x = .bool false ∨ x = .num 0 ∨ x = .str []

/-- A member that counts. -/
def Has (name : String) (v x : Json) : Prop := Last name v x ∧ ¬ Hollow x

/-- What a message tells to the caller. -/
inductive Tells (v : Json) : Js.Outcome → Prop where
  | result {x} : Has "result" v x → Tells v (.resolved (value x))
  | error {x} : (∀ y, ¬ Has "result" v y) → Has "error" v x → Tells v (.rejected (.backend (value x)))
  | nothing : (∀ y, ¬ Has "result" v y) → (∀ y, ¬ Has "error" v y) → Tells v (.rejected .invalid)

/-- An event that ends waiting for the answer with the number, and what it tells. -/
inductive Ends (id : Nat) : Event → Js.Outcome → Prop where
  | message {port v o} : Last "id" v (.num id) → Tells v o → Ends id (.arrive port v) o
  | lost {port} : Ends id (.disconnected port) (.rejected (.disconnected port))

/-- The first event that ends waiting. -/
def First (id : Nat) (events : List Event) (o : Js.Outcome) : Prop :=
  ∃ before e after, events = before ++ e :: after ∧ (∀ x ∈ before, ∀ o, ¬ Ends id x o) ∧ Ends id e o

end Spec

theorem last_unique {name : String} {v x y : Json} (hx : Last name v x) (hy : Last name v y) : x = y := by
  obtain ⟨a, b, rfl, hb⟩ := hx
  obtain ⟨c, d, h, hd⟩ := hy
  have h := Json.obj.inj h
  rcases List.append_eq_append_iff.mp h with ⟨l, h1, h2⟩ | ⟨l, h1, h2⟩
  · cases l with
    | nil => cases h2; rfl
    | cons m l =>
      cases h2
      exact absurd rfl (hb (name.toList, y) (by simp))
  · cases l with
    | nil => cases h2; rfl
    | cons m l =>
      cases h2
      exact absurd rfl (hd (name.toList, x) (by simp))

theorem field_last (name : String) (v : Json) :
    (field name v = .undefined ∧ ∀ x, ¬ Last name v x) ∨ ∃ x, Last name v x ∧ field name v = value x := by
  cases v with
  | obj ms =>
    cases h : ms.reverse.find? (fun m => m.1 == name.toList) with
    | none =>
      refine .inl ⟨by simp only [field, h], ?_⟩
      rintro x ⟨a, b, he, -⟩
      cases he
      have := List.find?_eq_none.mp h (name.toList, x) (by simp)
      simp at this
    | some m =>
      obtain ⟨h1, a, b, h2, h3⟩ := List.find?_eq_some_iff_append.mp h
      obtain ⟨k, x⟩ := m
      obtain rfl : k = name.toList := by simpa using h1
      refine .inr ⟨x, ⟨b.reverse, a.reverse, ?_, ?_⟩, by simp only [field, h]⟩
      · have := congrArg List.reverse h2
        simp only [List.reverse_reverse, List.reverse_append, List.reverse_cons] at this
        rw [this]
        simp
      · intro m hm
        have := h3 m (List.mem_reverse.mp hm)
        simpa using this
  | _ => exact .inl ⟨rfl, by rintro x ⟨a, b, he, -⟩; cases he⟩

theorem value_falsy (x : Json) : value x ∈ Js.Spec.falsy ↔ Hollow x := by
  cases x <;> simp [value, Js.Spec.falsy, Hollow]

theorem value_num {x : Json} {n : Int} (h : value x = .num n) : x = .num n := by
  cases x <;> simp [value] at h ⊢
  exact h

/-- A field that counts. -/
theorem field_has (name : String) (v : Json) :
    (field name v ∈ Js.Spec.falsy ∧ ∀ x, ¬ Has name v x) ∨
    ∃ x, Has name v x ∧ field name v = value x ∧ field name v ∉ Js.Spec.falsy := by
  rcases field_last name v with ⟨h1, h2⟩ | ⟨x, h1, h2⟩
  · exact .inl ⟨by rw [h1]; simp [Js.Spec.falsy], fun x h => h2 x h.1⟩
  · by_cases he : Hollow x
    · exact .inl ⟨by rw [h2, value_falsy]; exact he, fun y h => h.2 (last_unique h1 h.1 ▸ he)⟩
    · exact .inr ⟨x, ⟨h1, he⟩, h2, by rw [h2, value_falsy]; exact he⟩

theorem field_id (v : Json) (id : Nat) : field "id" v = .num id ↔ Last "id" v (.num id) := by
  rcases field_last "id" v with ⟨h1, h2⟩ | ⟨x, h1, h2⟩
  · rw [h1]
    exact ⟨fun h => (by cases h), fun h => absurd h (h2 _)⟩
  · rw [h2]
    constructor
    · intro h
      rw [← value_num h]
      exact h1
    · intro h
      rw [last_unique h1 h]
      rfl

theorem tells_iff (v : Json) (o : Js.Outcome) :
    Tells v o ↔ o = Js.Spec.verdict ⟨field "id" v, field "result" v, field "error" v⟩ := by
  simp only [Js.Spec.verdict]
  rcases field_has "result" v with ⟨h1, h2⟩ | ⟨x, h1, h2, h3⟩
  · rw [if_neg (by simpa using h1)]
    rcases field_has "error" v with ⟨h4, h5⟩ | ⟨y, h4, h5, h6⟩
    · rw [if_neg (by simpa using h4)]
      constructor
      · intro h
        cases h with
        | result h => exact absurd h (h2 _)
        | error _ h => exact absurd h (h5 _)
        | nothing => rfl
      · rintro rfl
        exact .nothing h2 h5
    · rw [if_pos h6, h5]
      constructor
      · intro h
        cases h with
        | result h => exact absurd h (h2 _)
        | error _ h => rw [last_unique h.1 h4.1]
        | nothing _ h => exact absurd h4 (h _)
      · rintro rfl
        exact .error h2 h4
  · rw [if_pos h3, h2]
    constructor
    · intro h
      cases h with
      | result h => rw [last_unique h.1 h1.1]
      | error h => exact absurd h1 (h _)
      | nothing h => exact absurd h1 (h _)
    · rintro rfl
      exact .result h1

theorem response_last {v : Json} {name : String} {x : Json} (h : Last name v x) :
    response v = some ⟨field "id" v, field "result" v, field "error" v⟩ := by
  obtain ⟨a, b, rfl, -⟩ := h
  rfl

theorem first_nil (id : Nat) (o : Js.Outcome) : ¬ First id [] o := by
  rintro ⟨a, e, b, h, -⟩
  cases a <;> cases h

theorem first_cons_neg {id : Nat} {e : Event} (h : ∀ o, ¬ Ends id e o) (es : List Event) (o : Js.Outcome) :
    First id (e :: es) o ↔ First id es o := by
  constructor
  · rintro ⟨a, x, b, h1, h2, h3⟩
    cases a with
    | nil => cases h1; exact absurd h3 (h o)
    | cons y a =>
      cases h1
      exact ⟨a, x, b, rfl, fun z hz => h2 z (List.mem_cons_of_mem _ hz), h3⟩
  · rintro ⟨a, x, b, rfl, h2, h3⟩
    refine ⟨e :: a, x, b, rfl, ?_, h3⟩
    intro z hz
    rcases List.mem_cons.mp hz with rfl | hz
    · exact h
    · exact h2 z hz

theorem first_cons_pos {id : Nat} {e : Event} {o' : Js.Outcome} (h : Ends id e o') (es : List Event)
    (o : Js.Outcome) : First id (e :: es) o ↔ Ends id e o := by
  constructor
  · rintro ⟨a, x, b, h1, h2, h3⟩
    cases a with
    | nil => cases h1; exact h3
    | cons y a =>
      cases h1
      exact absurd h (h2 _ (by simp) _)
  · intro h
    exact ⟨[], e, es, rfl, by simp, h⟩

theorem answer_first (id : Nat) (o : Js.Outcome) : ∀ es : List Event,
    Js.Spec.answer Js.Spec.verdict id (es.map (·.js)) = some o ↔ First id es o
  | [] => by
    simp only [List.map_nil, Js.Spec.answer]
    exact ⟨fun h => (by cases h), fun h => absurd h (first_nil _ _)⟩
  | .call m a skip pe cn po :: es => by
    rw [first_cons_neg (by rintro o h; cases h), ← answer_first id o es]
    simp only [List.map_cons, Event.js, Js.Spec.answer]
  | .disconnected p :: es => by
    rw [first_cons_pos .lost]
    simp only [List.map_cons, Event.js, Js.Spec.answer, Option.some.injEq]
    constructor
    · rintro rfl; exact .lost
    · intro h; cases h; rfl
  | .arrive p v :: es => by
    by_cases hl : Last "id" v (.num id)
    · rw [first_cons_pos (.message hl ((tells_iff v _).2 rfl))]
      simp only [List.map_cons, Event.js, response_last hl, Js.Spec.answer]
      rw [if_pos ((field_id v id).2 hl), Option.some.injEq]
      constructor
      · rintro rfl
        exact .message hl ((tells_iff v _).2 rfl)
      · intro h
        cases h with
        | message _ h => exact ((tells_iff v _).1 h).symm
    · rw [first_cons_neg (by rintro o h; cases h; exact hl ‹_›), ← answer_first id o es]
      simp only [List.map_cons, Event.js]
      cases hr : response v with
      | none => simp only [Js.Spec.answer]
      | some r =>
        simp only [Js.Spec.answer]
        rw [if_neg]
        intro h
        refine hl ((field_id v id).1 ?_)
        cases v <;> cases hr <;> exact h

/-- The state of the promise of a call. -/
theorem promise {before after : List Event} {m : Str} {a : Json} {skip : Nat} {pe cn posts : Bool} {p : Post}
    (hp : Posted before (.call m a skip pe cn posts) p) :
    (run (before ++ .call m a skip pe cn posts :: after)).calls[(run before).calls.length]? =
      some (Js.Spec.answer Js.Spec.verdict p.id (after.map (·.js))) := by
  obtain ⟨rfl, -, -⟩ := posted_call hp
  have hpost : (Js.run {} (before.map (·.js) ++ [.call skip pe cn true])).posted =
      (Js.run {} (before.map (·.js))).posted ++ [(p.port, p.id)] := by
    rw [Js.run_append]
    show (Js.step _ (Event.js (.call m a skip pe cn true))).posted = _
    rw [step_posted]
    have : postedBy (Js.run {} (before.map (·.js))) (.call m a skip pe cn true) = [p] := hp
    rw [this]
    rfl
  have hset := (Js.c50_settled (before.map (·.js)) (after.map (·.js)) skip pe cn hpost).1
  have hrun : run (before ++ .call m a skip pe cn true :: after) =
      Js.run {} (before.map (·.js) ++ .call skip pe cn true :: after.map (·.js)) := by
    simp [run, Event.js]
  rw [hrun]
  exact hset

/-- C81: whatever values come as messages, the promise of a call is settled by the first message whose last
member `id` is the number of the request, or by a disconnect before it, and as this event tells. -/
theorem c81_settled {before after : List Event} {m : Str} {a : Json} {skip : Nat} {pe cn posts : Bool} {p : Post}
    (hp : Posted before (.call m a skip pe cn posts) p) (o : Js.Outcome) :
    (run (before ++ .call m a skip pe cn posts :: after)).calls[(run before).calls.length]? = some (some o) ↔
      First p.id after o := by
  rw [promise hp, Option.some.injEq, answer_first]

/-- C81: until such an event the promise is pending. -/
theorem c81_pending {before after : List Event} {m : Str} {a : Json} {skip : Nat} {pe cn posts : Bool} {p : Post}
    (hp : Posted before (.call m a skip pe cn posts) p) :
    (run (before ++ .call m a skip pe cn posts :: after)).calls[(run before).calls.length]? = some none ↔
      ∀ e ∈ after, ∀ o, ¬ Ends p.id e o := by
  rw [promise hp, Option.some.injEq]
  have key : ∀ es : List Event, (∃ o, First p.id es o) ↔ ∃ e ∈ es, ∃ o, Ends p.id e o := by
    intro es
    induction es with
    | nil => exact ⟨fun ⟨o, h⟩ => absurd h (first_nil _ _), fun ⟨e, h, _⟩ => by cases h⟩
    | cons e es ih =>
      by_cases he : ∃ o, Ends p.id e o
      · obtain ⟨o, ho⟩ := he
        exact ⟨fun _ => ⟨e, by simp, o, ho⟩, fun _ => ⟨o, (first_cons_pos ho es o).2 ho⟩⟩
      · have he' : ∀ o, ¬ Ends p.id e o := fun o h => he ⟨o, h⟩
        simp only [first_cons_neg he', ih, List.mem_cons, exists_eq_or_imp]
        exact ⟨.inr, fun h => h.resolve_left he⟩
  constructor
  · intro h e he o ho
    obtain ⟨o', h'⟩ := (key after).2 ⟨e, he, o, ho⟩
    rw [(answer_first _ _ _).2 h'] at h
    cases h
  · intro h
    cases hx : Js.Spec.answer Js.Spec.verdict p.id (after.map (·.js)) with
    | none => rfl
    | some o =>
      obtain ⟨e, he, o, ho⟩ := (key after).1 ⟨o, (answer_first _ _ _).1 hx⟩
      exact absurd ho (h e he o)

/-- C81: every message tells exactly one thing. -/
theorem c81_one (v : Json) : ∃ o, Tells v o ∧ ∀ o', Tells v o' → o' = o :=
  ⟨_, (tells_iff v _).2 rfl, fun _ h => (tells_iff v _).1 h⟩

/-- Only posted requests wait. -/
theorem step_table {s : Js.State} (h : ∀ x ∈ s.table, ∃ q, (q, x.1) ∈ s.posted) (e : Js.Event) :
    ∀ x ∈ (Js.step s e).table, ∃ q, (q, x.1) ∈ (Js.step s e).posted := by
  have hdel : ∀ (t : List (Nat × Nat)) (i : Js.Value), ∀ x ∈ Js.delete t i, x ∈ t := by
    intro t i x hx
    cases i <;> simp only [Js.delete] at hx <;> first | exact hx | exact (List.mem_filter.mp hx).1
  cases e with
  | disconnected p => intro x hx; cases hx
  | message r =>
    cases r with
    | none => exact h
    | some r =>
      simp only [Js.step, Js.messageReceived]
      split
      · exact h
      · split
        · exact h
        · split
          · intro x hx
            exact h x (hdel _ _ x hx)
          · split
            · intro x hx
              exact h x (hdel _ _ x hx)
            · exact h
  | call skip pe cn posts =>
    simp only [Js.step, Js.sendMessage]
    split
    · exact h
    · rename_i s' p hg
      have hs : s'.table = s.table ∧ s'.posted = s.posted := by
        simp only [Js.getPort, Js.getPort.connect] at hg
        split at hg <;> (repeat' split at hg) <;> cases hg <;> exact ⟨rfl, rfl⟩
      rw [← hs.1, ← hs.2] at h
      split
      · intro x hx
        rcases List.mem_append.mp hx with hx | hx
        · obtain ⟨q, hq⟩ := h x hx
          exact ⟨q, List.mem_append_left _ hq⟩
        · obtain rfl := List.mem_singleton.mp hx
          exact ⟨p, by simp⟩
      · intro x hx
        simp only [Js.delete] at hx
        have hm := List.mem_filter.mp hx
        rcases List.mem_append.mp hm.1 with hx | hx
        · exact h x hx
        · obtain rfl := List.mem_singleton.mp hx
          simp at hm

theorem run_table (es : List Js.Event) : ∀ s : Js.State, (∀ x ∈ s.table, ∃ q, (q, x.1) ∈ s.posted) →
    ∀ x ∈ (Js.run s es).table, ∃ q, (q, x.1) ∈ (Js.run s es).posted := by
  induction es with
  | nil => exact fun s h => h
  | cons e es ih => exact fun s h => ih _ (step_table h e)

/-- C81: a message that has no number of a request posted before changes nothing. -/
theorem c81_ignored (history : List Event) (port : Nat) (v : Json)
    (h : ∀ p ∈ posted {} history, ¬ Last "id" v (.num p.id)) :
    run (history ++ [.arrive port v]) = run history := by
  have hr : run (history ++ [.arrive port v]) = Js.step (run history) (.message (response v)) := by
    simp [run, Js.run, Event.js]
  rw [hr]
  apply Js.c50_unknown
  intro r hv i k hi hmem
  have hid : Last "id" v (.num i) := by
    refine (field_id v i).1 ?_
    cases v <;> cases hv <;> exact hi
  obtain ⟨q, hq⟩ := run_table (history.map (·.js)) {} (by simp) _ hmem
  rw [run_posted] at hq
  obtain ⟨p, hp, he⟩ : ∃ p ∈ posted {} history, (p.port, p.id) = (q, i) := by simpa using hq
  cases he
  exact h p hp hid

/-! ### Concrete messages -/

/-- A message with repeated members. -/
def exTwice : Json := .obj [("id".toList, .num 5), ("id".toList, .num 9), ("result".toList, .null),
  ("error".toList, .str "no".toList), ("error".toList, .str "such file".toList)]

/-- A call, messages that are not for it, and one that is. -/
def exAny : List Event :=
  [.arrive 0 .null, .arrive 0 (.arr [.num 9]), .arrive 0 (.obj [("id".toList, .str "9".toList)]),
   .arrive 0 (.obj [("id".toList, .num 9), ("id".toList, .num 5), ("result".toList, .bool true)]), .arrive 0 exTwice,
   .disconnected 0]

/-- Hypotheses are met; the members that count are the last ones. -/
example : Posted [] (.call "burl.visit".toList exArg 9 false true true) ⟨0, 9, "burl.visit".toList, exArg⟩ ∧
    First 9 exAny (.rejected (.backend (.str "such file".toList))) ∧
    (∀ p ∈ posted {} [.call "burl.visit".toList exArg 9 false true true],
      ¬ Last "id" (.obj [("id".toList, .num 9), ("id".toList, .num 5), ("result".toList, .bool true)]) (.num p.id)) ∧
    (run (.call "burl.visit".toList exArg 9 false true true :: exAny.take 4)).calls = [none] := by
  have hp : Posted [] (.call "burl.visit".toList exArg 9 false true true) ⟨0, 9, "burl.visit".toList, exArg⟩ := rfl
  refine ⟨hp, (c81_settled hp _).1 (by decide +kernel), ?_, by decide +kernel⟩
  intro p hm h
  have : p.id = 9 := by
    have : p = ⟨0, 9, "burl.visit".toList, exArg⟩ := by simpa [posted, postedBy, Js.getPort, Js.getPort.connect] using hm
    rw [this]
  rw [this] at h
  have := (field_id _ _).2 h
  revert this
  decide +kernel

end Burl.Addon
