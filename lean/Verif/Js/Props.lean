import Verif.Js.Spec
/-! C50: promises of the client of the example add-on. -/
namespace Burl.Js
open Burl Spec

theorem settle_length (l : List (Option Outcome)) (k : Nat) (o : Outcome) :
    (settle l k o).length = l.length := by
  induction l generalizing k with
  | nil => rfl
  | cons x l ih => cases k with
    | zero => cases x <;> rfl
    | succ n => cases x <;> simp [settle, ih]

theorem settle_ne (l : List (Option Outcome)) (k j : Nat) (o : Outcome) (h : j ≠ k) :
    (settle l k o)[j]? = l[j]? := by
  induction l generalizing k j with
  | nil => rfl
  | cons x l ih => cases k with
    | zero =>
      cases j with
      | zero => exact absurd rfl h
      | succ j => cases x <;> simp [settle]
    | succ n => cases j with
      | zero => cases x <;> simp [settle]
      | succ j => cases x <;> simp [settle] <;> exact ih n j (by omega)

theorem settle_none (l : List (Option Outcome)) (k : Nat) (o : Outcome) (h : l[k]? = some none) :
    (settle l k o)[k]? = some (some o) := by
  induction l generalizing k with
  | nil => simp at h
  | cons x l ih => cases k with
    | zero => simp at h; subst h; rfl
    | succ n => simp at h; cases x <;> simp [settle] <;> exact ih n h

theorem settle_some (l : List (Option Outcome)) (k j : Nat) (o o' : Outcome)
    (h : l[j]? = some (some o')) : (settle l k o)[j]? = some (some o') := by
  induction l generalizing k j with
  | nil => simp at h
  | cons x l ih => cases k with
    | zero => cases j with
      | zero => simp at h; subst h; rfl
      | succ j => simp at h; cases x <;> simpa [settle] using h
    | succ n => cases j with
      | zero => simp at h; subst h; simp [settle]
      | succ j => simp at h; cases x <;> simp [settle] <;> exact ih n j h

theorem fold_some (t : List (Nat × Nat)) (l : List (Option Outcome)) (j : Nat) (o o' : Outcome)
    (h : l[j]? = some (some o')) :
    (t.foldl (fun c e => settle c e.2 o) l)[j]? = some (some o') := by
  induction t generalizing l with
  | nil => exact h
  | cons e t ih => exact ih _ (settle_some l e.2 j o o' h)

theorem fold_none (t : List (Nat × Nat)) (l : List (Option Outcome)) (j : Nat) (o : Outcome)
    (h : l[j]? = some none) (hm : ∃ i, (i, j) ∈ t) :
    (t.foldl (fun c e => settle c e.2 o) l)[j]? = some (some o) := by
  induction t generalizing l with
  | nil => obtain ⟨i, hi⟩ := hm; exact (nomatch hi)
  | cons e t ih =>
    by_cases hj : j = e.2
    · exact fold_some t _ j o o (by subst hj; exact settle_none l e.2 o h)
    · refine ih _ (by rw [settle_ne _ _ _ _ hj]; exact h) ?_
      obtain ⟨i, hi⟩ := hm
      rcases List.mem_cons.1 hi with rfl | hi
      · exact absurd rfl hj
      · exact ⟨i, hi⟩

theorem fold_length (t : List (Nat × Nat)) (l : List (Option Outcome)) (o : Outcome) :
    (t.foldl (fun c e => settle c e.2 o) l).length = l.length := by
  induction t generalizing l with
  | nil => rfl
  | cons e t ih => rw [List.foldl_cons, ih, settle_length]

/-- Identifiers and calls in the table correspond to each other; they are not from the future. -/
structure Good (s : State) : Prop where
  bound : ∀ e ∈ s.table, e.1 < s.nextId ∧ e.2 < s.calls.length
  inj : ∀ e ∈ s.table, ∀ e' ∈ s.table, (e.1 = e'.1 ↔ e.2 = e'.2)
  ids : ∀ e ∈ s.posted, e.2 < s.nextId
  nodup : (s.posted.map (·.2)).Nodup

theorem good_start : Good {} :=
  ⟨fun _ h => (nomatch h), fun _ h => (nomatch h), fun _ h => (nomatch h), .nil⟩

theorem mem_delete {t : List (Nat × Nat)} {v : Value} {e : Nat × Nat} (h : e ∈ delete t v) :
    e ∈ t := by
  unfold delete at h
  split at h
  · exact (List.mem_filter.1 h).1
  · exact h

theorem mem_delete_iff (t : List (Nat × Nat)) (i : Nat) (e : Nat × Nat) :
    e ∈ delete t (.num i) ↔ e ∈ t ∧ e.1 ≠ i := by
  unfold delete
  simp only [List.mem_filter, bne_iff_ne, ne_eq, Int.natCast_inj]

theorem getPort_cases {s s' : State} {e c : Bool} {p : Nat} (h : getPort s e c = some (s', p)) :
    s'.nextId = s.nextId ∧ s'.calls = s.calls ∧ s'.table = s.table ∧ s'.posted = s.posted ∧
      s'.port = some p ∧ (s' = s ∨ (p = s.ports ∧ s'.ports = s.ports + 1)) := by
  unfold getPort getPort.connect at h
  split at h
  · rename_i q hq
    split at h
    · split at h
      · obtain ⟨rfl, rfl⟩ := Prod.mk.inj (Option.some.inj h)
        exact ⟨rfl, rfl, rfl, rfl, rfl, .inr ⟨rfl, rfl⟩⟩
      · cases h
    · obtain ⟨rfl, rfl⟩ := Prod.mk.inj (Option.some.inj h)
      exact ⟨rfl, rfl, rfl, rfl, hq, .inl rfl⟩
  · split at h
    · obtain ⟨rfl, rfl⟩ := Prod.mk.inj (Option.some.inj h)
      exact ⟨rfl, rfl, rfl, rfl, rfl, .inr ⟨rfl, rfl⟩⟩
    · cases h

theorem good_step {s : State} (g : Good s) (e : Event) : Good (step s e) := by
  cases e with
  | call skip pe cn ps =>
    simp only [step, sendMessage]
    split
    · refine ⟨fun e he => ?_, g.inj, g.ids, g.nodup⟩
      have := g.bound e he
      simp only [List.length_append, List.length_singleton]
      omega
    · rename_i s' p hp
      obtain ⟨h1, h2, h3, h4, _, _⟩ := getPort_cases hp
      have hb : ∀ e ∈ s.table ++ [(s.nextId + skip, s.calls.length)],
          e.1 < s.nextId + skip + 1 ∧ e.2 < s.calls.length + 1 := by
        intro e he
        rcases List.mem_append.1 he with he | he
        · have := g.bound e he
          omega
        · rw [List.mem_singleton.1 he]
          exact ⟨Nat.lt_succ_self _, Nat.lt_succ_self _⟩
      have hi : ∀ e ∈ s.table ++ [(s.nextId + skip, s.calls.length)],
          ∀ e' ∈ s.table ++ [(s.nextId + skip, s.calls.length)], (e.1 = e'.1 ↔ e.2 = e'.2) := by
        intro e he e' he'
        rcases List.mem_append.1 he with he | he <;> rcases List.mem_append.1 he' with he' | he'
        · exact g.inj e he e' he'
        · rw [List.mem_singleton.1 he']
          have := g.bound e he
          simp only
          omega
        · rw [List.mem_singleton.1 he]
          have := g.bound e' he'
          simp only
          omega
        · rw [List.mem_singleton.1 he, List.mem_singleton.1 he']
          exact ⟨fun _ => rfl, fun _ => rfl⟩
      split
      · rw [h1, h2, h3, h4]
        refine ⟨?_, hi, ?_, ?_⟩
        · intro e he
          have := hb e he
          simp only [List.length_append, List.length_singleton]
          exact this
        · intro e he
          simp only at he ⊢
          rcases List.mem_append.1 he with he | he
          · have := g.ids e he
            omega
          · rw [List.mem_singleton.1 he]
            exact Nat.lt_succ_self _
        · simp only [List.map_append, List.map_cons, List.map_nil]
          rw [List.nodup_append]
          refine ⟨g.nodup, by simp, ?_⟩
          intro a ha b hb' hab
          obtain ⟨e, he, rfl⟩ := List.mem_map.1 ha
          have := g.ids e he
          rw [List.mem_singleton.1 hb'] at hab
          omega
      · rw [h1, h2, h3, h4]
        refine ⟨?_, ?_, ?_, g.nodup⟩
        · intro e he
          simp only at he
          have := hb e (mem_delete he)
          simp only [List.length_append, List.length_singleton]
          exact this
        · intro e he e' he'
          simp only at he he'
          exact hi e (mem_delete he) e' (mem_delete he')
        · intro e he
          have := g.ids e he
          simp only
          omega
  | message r =>
    cases r with
    | none => exact g
    | some r =>
      simp only [step, messageReceived]
      split
      · exact g
      · split
        · exact g
        · split
          · exact ⟨fun e he => by
              rw [settle_length]; exact g.bound e (mem_delete he),
              fun e he e' he' => g.inj e (mem_delete he) e' (mem_delete he'), g.ids, g.nodup⟩
          · split
            · exact ⟨fun e he => by
                rw [settle_length]; exact g.bound e (mem_delete he),
                fun e he e' he' => g.inj e (mem_delete he) e' (mem_delete he'), g.ids, g.nodup⟩
            · exact ⟨fun e he => by rw [settle_length]; exact g.bound e he, g.inj, g.ids, g.nodup⟩
  | disconnected p =>
    exact ⟨fun _ h => (nomatch h), fun _ h => (nomatch h), g.ids, g.nodup⟩

theorem good_run {s : State} (g : Good s) (es : List Event) : Good (run s es) := by
  induction es generalizing s with
  | nil => exact g
  | cons e es ih => exact ih (good_step g e)

theorem run_cons (s : State) (e : Event) (es : List Event) : run s (e :: es) = run (step s e) es :=
  rfl

theorem run_append (s : State) (a b : List Event) : run s (a ++ b) = run (run s a) b :=
  List.foldl_append

/-- A settled promise stays as it is. -/
theorem settled_step {s : State} {k : Nat} {o : Outcome} (h : s.calls[k]? = some (some o))
    (e : Event) : (step s e).calls[k]? = some (some o) := by
  have happ : ∀ x, (s.calls ++ [x])[k]? = some (some o) := by
    intro x
    have hk : k < s.calls.length := by
      have := (List.getElem?_eq_some_iff.1 h).1
      exact this
    rw [List.getElem?_append_left hk]
    exact h
  cases e with
  | call skip pe cn ps =>
    simp only [step, sendMessage]
    split
    · exact happ _
    · rename_i s' p hp
      obtain ⟨_, h2, _⟩ := getPort_cases hp
      split <;> simp only [h2] <;> exact happ _
  | message r =>
    cases r with
    | none => exact h
    | some r =>
      simp only [step, messageReceived]
      split
      · exact h
      · split
        · exact h
        · split
          · exact settle_some _ _ _ _ _ h
          · split <;> exact settle_some _ _ _ _ _ h
  | disconnected p => exact fold_some _ _ _ _ _ h

theorem settled_run {s : State} {k : Nat} {o : Outcome} (h : s.calls[k]? = some (some o))
    (es : List Event) : (run s es).calls[k]? = some (some o) := by
  induction es generalizing s with
  | nil => exact h
  | cons e es ih => exact ih (settled_step h e)

theorem get_mem {t : List (Nat × Nat)} {v : Value} {k : Nat} (h : get t v = some k) :
    ∃ i : Nat, v = .num i ∧ (i, k) ∈ t := by
  unfold get at h
  split at h
  · rename_i i
    rw [Option.map_eq_some_iff] at h
    obtain ⟨e, he, rfl⟩ := h
    have h1 := List.find?_some he
    simp only [beq_iff_eq] at h1
    exact ⟨e.1, by rw [h1], List.mem_of_find?_eq_some he⟩
  · cases h

theorem get_of_mem {s : State} (g : Good s) {i k : Nat} (h : (i, k) ∈ s.table) :
    get s.table (.num i) = some k := by
  simp only [get]
  cases hf : s.table.find? (fun e => (e.1 : Int) == (i : Int)) with
  | none =>
    have := List.find?_eq_none.1 hf _ h
    simp at this
  | some e =>
    have h1 := List.find?_some hf
    simp only [beq_iff_eq, Int.natCast_inj] at h1
    have h2 := (g.inj e (List.mem_of_find?_eq_some hf) (i, k) h).1 h1
    simp [h2]

theorem truthy_iff (v : Value) : v.truthy = true ↔ v ∉ falsy := by
  cases v with
  | str s => cases s <;> simp [Value.truthy, falsy]
  | _ => simp [Value.truthy, falsy]

theorem message_hit {s : State} (g : Good s) {i k : Nat} (hm : (i, k) ∈ s.table)
    (hp : s.calls[k]? = some none) (r : Response) (hr : r.id = .num i) :
    (messageReceived s (some r)).calls[k]? = some (some (verdict r)) := by
  unfold messageReceived verdict
  simp only [← truthy_iff]
  rw [hr, if_neg (by simp [Value.nullish]), get_of_mem g hm]
  simp only
  split
  · exact settle_none _ _ _ hp
  · split <;> exact settle_none _ _ _ hp

theorem message_miss {s : State} (g : Good s) {i k : Nat} (hm : (i, k) ∈ s.table)
    (hp : s.calls[k]? = some none) (r : Response) (hr : r.id ≠ .num i) :
    (messageReceived s (some r)).calls[k]? = some none ∧
      (i, k) ∈ (messageReceived s (some r)).table := by
  unfold messageReceived
  simp only
  split
  · exact ⟨hp, hm⟩
  · split
    · exact ⟨hp, hm⟩
    · rename_i j hj
      obtain ⟨i', hv, hi'⟩ := get_mem hj
      have hne : i' ≠ i := fun e => hr (by rw [hv, e])
      have hk : k ≠ j := fun e => hne ((g.inj _ hi' _ hm).2 e.symm)
      have hd : (i, k) ∈ delete s.table r.id := by
        rw [hv, mem_delete_iff]
        exact ⟨hm, fun e => hne e.symm⟩
      split
      · exact ⟨by rw [settle_ne _ _ _ _ hk]; exact hp, hd⟩
      · split
        · exact ⟨by rw [settle_ne _ _ _ _ hk]; exact hp, hd⟩
        · exact ⟨by rw [settle_ne _ _ _ _ hk]; exact hp, hm⟩

theorem pending_run {s : State} (g : Good s) {i k : Nat} (hm : (i, k) ∈ s.table)
    (hp : s.calls[k]? = some none) (es : List Event) :
    (run s es).calls[k]? = some (answer verdict i es) ∧
      (answer verdict i es = none → (i, k) ∈ (run s es).table) := by
  induction es generalizing s with
  | nil => exact ⟨hp, fun _ => hm⟩
  | cons e es ih =>
    rw [run_cons]
    cases e with
    | call skip pe cn ps =>
      have hg := good_step g (.call skip pe cn ps)
      have hk : k < s.calls.length := (g.bound _ hm).2
      have hi : i < s.nextId := (g.bound _ hm).1
      simp only [answer]
      refine ih hg ?_ ?_
      · simp only [step, sendMessage]
        split
        · exact hm
        · rename_i s' p hp'
          obtain ⟨h1, h2, h3, _⟩ := getPort_cases hp'
          split
          · simp only [h3]
            exact List.mem_append_left _ hm
          · simp only [h1, h3]
            rw [mem_delete_iff]
            exact ⟨List.mem_append_left _ hm, by simp only; omega⟩
      · have happ : ∀ x, (s.calls ++ [x])[k]? = some none := by
          intro x
          rw [List.getElem?_append_left hk]
          exact hp
        simp only [step, sendMessage]
        split
        · exact happ _
        · rename_i s' p hp'
          obtain ⟨_, h2, _⟩ := getPort_cases hp'
          split <;> simp only [h2] <;> exact happ _
    | message r =>
      cases r with
      | none => simp only [answer]; exact ih (good_step g (.message none)) hm hp
      | some r =>
        simp only [answer]
        split
        · rename_i hr
          exact ⟨settled_run (message_hit g hm hp r hr) es, fun h => (nomatch h)⟩
        · rename_i hr
          obtain ⟨h1, h2⟩ := message_miss g hm hp r hr
          exact ih (good_step g (.message (some r))) h2 h1
    | disconnected p =>
      simp only [answer]
      exact ⟨settled_run (s := disconnected s p) (fold_none _ _ _ _ hp ⟨i, hm⟩) es,
        fun h => (nomatch h)⟩

/-- A call whose request has been sent is waiting under the identifier of the request. -/
theorem call_pending {s : State} (skip : Nat) (pe cn : Bool)
    {p id : Nat} (hpost : (step s (.call skip pe cn true)).posted = s.posted ++ [(p, id)]) :
    (id, s.calls.length) ∈ (step s (.call skip pe cn true)).table ∧
      (step s (.call skip pe cn true)).calls[s.calls.length]? = some none := by
  simp only [step, sendMessage] at hpost ⊢
  split at hpost
  · simp at hpost
  · rename_i s' q hq
    obtain ⟨h1, h2, h3, h4, _⟩ := getPort_cases hq
    rw [if_pos trivial] at hpost ⊢
    simp only [h1, h4, List.append_cancel_left_eq, List.cons.injEq, Prod.mk.injEq, and_true]
      at hpost
    obtain ⟨rfl, rfl⟩ := hpost
    refine ⟨?_, ?_⟩
    · simp only [h1, h2, h3]
      exact List.mem_append_right _ (List.mem_singleton.2 rfl)
    · simp only [h2]
      rw [List.getElem?_append_right (Nat.le_refl _)]
      simp

/-- **C50.** Whatever happens before and after, the promise of a call whose request was sent with
the identifier `id` is settled by the first response that has this identifier or by the first
disconnect, whichever is earlier, and by nothing else; until then it waits in the table. -/
theorem c50_settled (before after : List Event) (skip : Nat) (pe cn : Bool) {p id : Nat}
    (hpost : (run {} (before ++ [.call skip pe cn true])).posted =
      (run {} before).posted ++ [(p, id)]) :
    let s := run {} (before ++ .call skip pe cn true :: after)
    let k := (run {} before).calls.length
    s.calls[k]? = some (answer verdict id after) ∧
      (answer verdict id after = none → get s.table (.num id) = some k) := by
  intro s k
  have g := good_run good_start before
  rw [run_append] at hpost
  obtain ⟨h1, h2⟩ := call_pending skip pe cn hpost
  have e : s = run (step (run {} before) (.call skip pe cn true)) after := by
    show run {} (before ++ _) = _
    rw [run_append]
    rfl
  obtain ⟨h3, h4⟩ := pending_run (good_step g _) h1 h2 after
  rw [e]
  exact ⟨h3, fun h => get_of_mem (good_run (good_step g _) after) (h4 h)⟩

/-- Requests have different identifiers. -/
theorem c50_ids (history : List Event) : ((run {} history).posted.map (·.2)).Nodup :=
  (good_run good_start history).nodup

/-- A promise that is settled does not change, whatever happens. -/
theorem c50_once (before after : List Event) (k : Nat) (o : Outcome)
    (h : (run {} before).calls[k]? = some (some o)) :
    (run {} (before ++ after)).calls[k]? = some (some o) := by
  rw [run_append]
  exact settled_run h after

/-- A call whose request has not been sent is rejected, for ever, and does not wait in the table. -/
theorem c50_unsent (before after : List Event) (skip : Nat) (pe cn posts : Bool)
    (hpost : (run {} (before ++ [.call skip pe cn posts])).posted = (run {} before).posted) :
    (run {} (before ++ .call skip pe cn posts :: after)).calls[(run {} before).calls.length]? =
      some (some (.rejected .thrown)) := by
  have h : (run {} (before ++ [.call skip pe cn posts])).calls[(run {} before).calls.length]? =
      some (some (.rejected .thrown)) := by
    simp only [run, List.foldl_append, List.foldl_cons, List.foldl_nil] at hpost ⊢
    generalize List.foldl step {} before = s at hpost ⊢
    simp only [step, sendMessage, getPort, getPort.connect] at hpost ⊢
    cases hp : s.port <;> cases pe <;> cases cn <;> cases posts <;> simp [hp] at hpost ⊢
  have := c50_once _ after _ _ h
  simpa using this

/-- A request is sent if the browser lets it: when a port is needed it may be opened, and the message may be
posted.  When the message can not be posted nothing is sent. -/
theorem c50_sent (before : List Event) (skip : Nat) (pe cn posts : Bool) :
    (posts = false → (run {} (before ++ [.call skip pe cn posts])).posted = (run {} before).posted) ∧
    (posts = true → cn = true → ∃ p id, (run {} (before ++ [.call skip pe cn posts])).posted =
      (run {} before).posted ++ [(p, id)]) := by
  simp only [run, List.foldl_append, List.foldl_cons, List.foldl_nil]
  generalize List.foldl step {} before = s
  simp only [step, sendMessage, getPort, getPort.connect]
  cases hp : s.port <;> cases pe <;> cases cn <;> cases posts <;> simp

/-- A message without an identifier, or with one under which no call waits, changes nothing. -/
theorem c50_unknown (s : State) (r : Option Response)
    (h : ∀ r', r = some r' → ∀ i k : Nat, r'.id = .num i → (i, k) ∉ s.table) :
    step s (.message r) = s := by
  cases r with
  | none => rfl
  | some r =>
    simp only [step, messageReceived]
    split
    · rfl
    · split
      · rfl
      · rename_i j hj
        obtain ⟨i, hv, hi⟩ := get_mem hj
        exact absurd hi (h r rfl i j hv)

theorem verdict_plain {r : Response} (h : Plain r) : verdict r = intended r := by
  unfold verdict intended
  rcases h with ⟨h1, h2⟩ | ⟨h1, h2⟩
  · rw [if_pos h2, if_pos h1]
  · rw [if_neg (by simp [h2]), if_pos h1, if_neg]
    intro h
    simp only [absent, List.mem_cons, List.not_mem_nil, or_false] at h
    rcases h with h | h <;> simp [h, falsy] at h1

theorem answer_congr (f g : Response → Outcome) (id : Nat) (es : List Event)
    (h : ∀ r, .message (some r) ∈ es → r.id = .num id → f r = g r) :
    answer f id es = answer g id es := by
  induction es with
  | nil => rfl
  | cons e es ih =>
    have ih := ih fun r hr => h r (List.mem_cons_of_mem _ hr)
    cases e with
    | call => exact ih
    | disconnected => rfl
    | message r =>
      cases r with
      | none => exact ih
      | some r =>
        simp only [answer]
        split
        · rename_i hr
          rw [h r (by simp) hr]
        · exact ih

/-- **C50 (part).** The outcome is the one meant by the backend if the responses are plain: no
result is `0`, `false`, an empty string or `null`.  Missing: these results, see the violation. -/
theorem c50_meaning_partial (before after : List Event) (skip : Nat) (pe cn : Bool) {p id : Nat}
    (hpost : (run {} (before ++ [.call skip pe cn true])).posted =
      (run {} before).posted ++ [(p, id)])
    (hplain : ∀ r, .message (some r) ∈ after → r.id = .num id → Plain r) :
    (run {} (before ++ .call skip pe cn true :: after)).calls[(run {} before).calls.length]? =
      some (answer intended id after) := by
  rw [(c50_settled before after skip pe cn hpost).1,
    answer_congr verdict intended id after fun r h1 h2 => verdict_plain (hplain r h1 h2)]

/-- A result other than these is passed to the caller and the call leaves the table. -/
theorem c50_resolved (before : List Event) (i k : Nat) (v e : Value)
    (hm : get (run {} before).table (.num i) = some k)
    (hp : (run {} before).calls[k]? = some none) (hv : v ∉ falsy) :
    let s := run {} (before ++ [.message (some ⟨.num i, v, e⟩)])
    s.calls[k]? = some (some (.resolved v)) ∧ get s.table (.num i) = none := by
  intro s
  have g := good_run good_start before
  obtain ⟨i', h1, h2⟩ := get_mem hm
  cases h1
  have hs : s = messageReceived (run {} before) (some ⟨.num i, v, e⟩) := by
    show run {} (before ++ _) = _
    rw [run_append]
    rfl
  have h3 := message_hit g h2 hp ⟨.num i, v, e⟩ rfl
  rw [hs]
  refine ⟨by simpa [verdict, hv] using h3, ?_⟩
  have h4 : (messageReceived (run {} before) (some ⟨.num i, v, e⟩)).table =
      delete (run {} before).table (.num i) := by
    unfold messageReceived
    simp only
    rw [if_neg (by simp [Value.nullish]), hm]
    simp only
    rw [if_pos ((truthy_iff v).2 hv)]
  rw [h4]
  cases hg : get (delete (run {} before).table (.num i)) (.num i) with
  | none => rfl
  | some j =>
    obtain ⟨i', h5, h6⟩ := get_mem hg
    rw [mem_delete_iff] at h6
    simp only [Value.num.injEq, Int.natCast_inj] at h5
    exact absurd h5.symm h6.2

/-- **C50 fails** for every other result of a successful call, e.g. `example.Sqrt(0)`: the promise
is rejected and, moreover, its entry stays in the table. -/
theorem c50_violation (before : List Event) (i k : Nat) (v : Value)
    (hm : get (run {} before).table (.num i) = some k)
    (hp : (run {} before).calls[k]? = some none) (hv : v ∈ falsy) :
    let s := run {} (before ++ [.message (some ⟨.num i, v, .null⟩)])
    s.calls[k]? = some (some (.rejected .invalid)) ∧ get s.table (.num i) = some k := by
  intro s
  have g := good_run good_start before
  obtain ⟨i', h1, h2⟩ := get_mem hm
  cases h1
  have hs : s = messageReceived (run {} before) (some ⟨.num i, v, .null⟩) := by
    show run {} (before ++ _) = _
    rw [run_append]
    rfl
  have h3 := message_hit g h2 hp ⟨.num i, v, .null⟩ rfl
  rw [hs]
  have hv' : verdict ⟨.num i, v, .null⟩ = .rejected .invalid := by
    unfold verdict
    rw [if_neg (by simp [hv]), if_neg (by simp [falsy])]
  refine ⟨by rw [h3, hv'], ?_⟩
  have h4 : (messageReceived (run {} before) (some ⟨.num i, v, .null⟩)).table =
      (run {} before).table := by
    unfold messageReceived
    simp only
    rw [if_neg (by simp [Value.nullish]), hm]
    simp only
    rw [if_neg (by simp [truthy_iff, hv]), if_neg (by simp [Value.truthy])]
  rw [h4, hm]

theorem lost_append (a b : List Event) : lost (a ++ b) = lost a ++ lost b := by
  simp [lost]

/-- The port in use is open if only ports of the client are reported as lost. -/
theorem port_open (history : List Event)
    (h : ∀ a b p, history = a ++ .disconnected p :: b → p < (run {} a).ports) :
    (∀ p, (run {} history).port = some p → p ∉ lost history) ∧
      (∀ p ∈ lost history, p < (run {} history).ports) ∧
      (∀ p, (run {} history).port = some p → p < (run {} history).ports) := by
  induction hn : history.length generalizing history with
  | zero =>
    rw [List.length_eq_zero_iff] at hn
    subst hn
    exact ⟨fun p hp => (nomatch hp), fun p hp => (nomatch hp), fun p hp => (nomatch hp)⟩
  | succ n ih =>
    have hne : history ≠ [] := by rintro rfl; cases hn
    obtain ⟨es, e, rfl⟩ : ∃ es e, history = es ++ [e] :=
      ⟨_, _, (List.dropLast_concat_getLast hne).symm⟩
    obtain ⟨h1, h2, h3⟩ := ih es
      (fun a b p he => h a (b ++ [e]) p (by rw [he]; simp))
      (by simpa using hn)
    rw [run_append, lost_append]
    cases e with
    | disconnected q =>
      have hq := h es [] q rfl
      refine ⟨fun p hp => (nomatch hp), fun p hp => ?_, fun p hp => (nomatch hp)⟩
      show p < (run {} es).ports
      rcases List.mem_append.1 hp with hp | hp
      · exact h2 p hp
      · simp [lost] at hp
        subst hp
        exact hq
    | message r =>
      have hx : (run (run {} es) [.message r]).port = (run {} es).port ∧
          (run (run {} es) [.message r]).ports = (run {} es).ports := by
        show (messageReceived _ r).port = _ ∧ (messageReceived _ r).ports = _
        unfold messageReceived
        split
        · exact ⟨rfl, rfl⟩
        · split
          · exact ⟨rfl, rfl⟩
          · split
            · exact ⟨rfl, rfl⟩
            · split
              · exact ⟨rfl, rfl⟩
              · split <;> exact ⟨rfl, rfl⟩
      rw [hx.1, hx.2]
      have hl : lost es ++ lost [.message r] = lost es := by simp [lost]
      rw [hl]
      exact ⟨h1, h2, h3⟩
    | call skip pe cn ps =>
      have hl : lost es ++ lost [.call skip pe cn ps] = lost es := by simp [lost]
      rw [hl]
      show (∀ p, (sendMessage _ skip pe cn ps).port = some p → _) ∧
        (∀ p ∈ lost es, p < (sendMessage _ skip pe cn ps).ports) ∧
        (∀ p, (sendMessage _ skip pe cn ps).port = some p → p < (sendMessage _ skip pe cn ps).ports)
      unfold sendMessage
      split
      · exact ⟨h1, h2, h3⟩
      · rename_i s' q hq
        obtain ⟨_, _, _, _, h5, h6⟩ := getPort_cases hq
        have key : (∀ p, s'.port = some p → p ∉ lost es) ∧ (∀ p ∈ lost es, p < s'.ports) ∧
            (∀ p, s'.port = some p → p < s'.ports) := by
          rcases h6 with rfl | ⟨rfl, h7⟩
          · exact ⟨h1, h2, h3⟩
          · refine ⟨fun p hp hl => ?_, fun p hp => ?_, fun p hp => ?_⟩
            · have := h2 p hl
              rw [h5] at hp
              cases hp
              omega
            · have := h2 p hp
              omega
            · rw [h5] at hp
              cases hp
              omega
        split <;> exact key

/-- No request is sent to a port that is known to be disconnected. -/
theorem c50_live (before : List Event) (skip : Nat) (pe cn : Bool) {p id : Nat}
    (h : ∀ a b p, before = a ++ .disconnected p :: b → p < (run {} a).ports)
    (hpost : (run {} (before ++ [.call skip pe cn true])).posted =
      (run {} before).posted ++ [(p, id)]) : p ∉ lost before := by
  obtain ⟨h1, h2, _⟩ := port_open before h
  rw [run_append] at hpost
  change (sendMessage _ skip pe cn true).posted = _ at hpost
  unfold sendMessage at hpost
  split at hpost
  · simp at hpost
  · rename_i s' q hq
    obtain ⟨_, _, _, h4, h5, h6⟩ := getPort_cases hq
    rw [if_pos rfl] at hpost
    simp only [h4, List.append_cancel_left_eq, List.cons.injEq, Prod.mk.injEq, and_true] at hpost
    obtain ⟨rfl, _⟩ := hpost
    rcases h6 with rfl | ⟨rfl, _⟩
    · exact h1 q h5
    · intro hl
      exact absurd (h2 _ hl) (Nat.lt_irrefl _)

/-- A history for examples: two calls, answers in the reverse order, an unknown answer, a lost
connection, a call that connects again. -/
def exBefore : List Event :=
  [.call 0 false true true, .call 2 false true true, .message (some ⟨.num 3, .other (.arr [.num 7]), .null⟩)]

def exAfter : List Event :=
  [.message none, .message (some ⟨.str ['4'], .other (.arr []), .null⟩),
    .message (some ⟨.num 0, .null, .str ['e']⟩), .disconnected 0, .call 0 false true true]

example : (run {} (exBefore ++ [.call 0 false true true])).posted =
    (run {} exBefore).posted ++ [(0, 4)] := by decide +kernel

example : (run {} (exBefore ++ .call 0 false true true :: exAfter)).calls =
    [some (.rejected (.backend (.str ['e']))), some (.resolved (.other (.arr [.num 7]))),
      some (.rejected (.disconnected 0)), none] := by decide +kernel

example : ∀ r, .message (some r) ∈ exAfter → r.id = .num 4 → Plain r := by
  intro r hr
  simp only [exAfter, List.mem_cons, Event.message.injEq, Option.some.injEq, reduceCtorEq,
    false_or, or_false, List.not_mem_nil] at hr
  rcases hr with rfl | rfl <;> intro h <;> cases h

example : get (run {} exBefore).table (.num 0) = some 0 ∧
    (run {} exBefore).calls[0]? = some none := by decide +kernel

/-- `example.Sqrt(0)` answers `0`. -/
example : (run {} (exBefore ++ [.message (some ⟨.num 0, .num 0, .null⟩)])).calls =
    [some (.rejected .invalid), some (.resolved (.other (.arr [.num 7])))] := by decide +kernel

/-- C50 about lost ports on the history with a lost connection. -/
example : 1 ∉ lost (exBefore ++ exAfter) ∧
    (run {} (exBefore ++ exAfter ++ [.call 0 false true true])).posted =
      (run {} (exBefore ++ exAfter)).posted ++ [(1, 5)] := by decide +kernel

end Burl.Js
