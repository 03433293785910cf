import Verif.Example.Menu
import Verif.Example.Props
import Verif.Addon.Props
/-! The menu of the example add-on, its client and the example backend (C79). -/
namespace Burl.Example
open Burl
open Burl.Json (Json)
open Burl.Rpc.Server (Body Answers)
open Burl.Addon (sentTo arrived value)
open Burl.Addon.Spec (Linked Runs Posted)
open Burl.Example.Spec

namespace Spec

/-- What is expected to be reported for an item of the menu. -/
inductive Expected (f : Floats) (two : f.F) : Str → Report → Prop where
  | root : Expected f two "1".toList (.result (value (f.write (f.sqrt two))))
  | negative : Expected f two "2".toList
      (.error (.call (.backend (.str "square root of negative number".toList))))
  | slept : Expected f two "3".toList (.result (.num 1500))
  | unknown {id : Str} : id ≠ "1".toList → id ≠ "2".toList → id ≠ "3".toList →
      Expected f two id (.error (.unknown id))

/-- The connection could not be used or has been lost after a click. -/
inductive Dropped (after : List Event) : Report → Prop where
  | thrown : Dropped after (.error (.call .thrown))
  | disconnected {q} : .disconnected q ∈ after → Dropped after (.error (.call (.disconnected q)))

/-- What is relied on about numbers of the example: 2 and -2 are numbers and the square root of 2 is
not zero. -/
structure Known (f : Floats) (two minus : f.F) : Prop where
  two' : f.read (.num 2) = some two
  minus' : f.read (.num (-2)) = some minus
  positive : f.lt two f.zero = false
  negative : f.lt minus f.zero = true
  root : f.write (f.sqrt two) ≠ .num 0

end Spec

/-! ### Events -/

theorem step_more (p : Page) (e : Event) : ∃ x y, (p.step e).client = p.client ++ x ∧
    (p.step e).clicks = p.clicks ++ y ∧ ∀ q, .disconnected q ∈ x → e = .disconnected q := by
  cases e with
  | installed => exact ⟨[], [], by simp [Page.step], by simp [Page.step], by simp⟩
  | click id skip pe cn posts =>
    simp only [Page.step]
    split
    · split
      · exact ⟨[], _, by simp, rfl, by simp⟩
      · exact ⟨_, _, rfl, rfl, by simp⟩
    · exact ⟨[], [], by simp, by simp, by simp⟩
  | arrive port v => exact ⟨_, [], rfl, by simp [Page.step], by simp⟩
  | disconnected port => exact ⟨_, [], rfl, by simp [Page.step], by simp⟩

theorem fold_more : ∀ (es : List Event) (p : Page), ∃ x y, (es.foldl Page.step p).client = p.client ++ x ∧
    (es.foldl Page.step p).clicks = p.clicks ++ y ∧ ∀ q, .disconnected q ∈ x → .disconnected q ∈ es
  | [], p => ⟨[], [], by simp, by simp, by simp⟩
  | e :: es, p => by
    obtain ⟨x, y, h1, h2, h3⟩ := step_more p e
    obtain ⟨x', y', h4, h5, h6⟩ := fold_more es (p.step e)
    refine ⟨x ++ x', y ++ y', ?_, ?_, ?_⟩
    · rw [List.foldl_cons, h4, h1, List.append_assoc]
    · rw [List.foldl_cons, h5, h2, List.append_assoc]
    · intro q hq
      rcases List.mem_append.mp hq with h | h
      · rw [h3 q h]; simp
      · exact List.mem_cons_of_mem _ (h6 q h)

theorem fold_listening : ∀ (es : List Event) (p : Page), (es.foldl Page.step p).listening = true ↔
    p.listening = true ∨ .installed ∈ es
  | [], p => by simp
  | e :: es, p => by
    rw [List.foldl_cons, fold_listening es]
    cases e with
    | installed => simp [Page.step]
    | click id skip pe cn posts =>
      have : (p.step (.click id skip pe cn posts)).listening = p.listening := by
        simp only [Page.step]
        split
        · split <;> rfl
        · rfl
      rw [this]; simp
    | arrive => simp [Page.step]
    | disconnected => simp [Page.step]

/-- The add-on after a click that calls a method. -/
theorem page_click {before after : List Event} {id : Str} {skip : Nat} {pe cn posts : Bool}
    (hi : .installed ∈ before) {m : Str} {a : Json} (hm : item id = some (m, a)) :
    ∃ x, (page (before ++ .click id skip pe cn posts :: after)).client =
        (page before).client ++ .call m a skip pe cn posts :: x ∧
      (page (before ++ .click id skip pe cn posts :: after)).clicks[(page before).clicks.length]? =
        some (.call (Addon.run (page before).client).calls.length) ∧
      ∀ q, .disconnected q ∈ x → .disconnected q ∈ after := by
  have hl : (page before).listening = true := (fold_listening before {}).mpr (.inr hi)
  have hs : (page before).step (.click id skip pe cn posts) =
      { (page before) with client := (page before).client ++ [.call m a skip pe cn posts]
                           clicks := (page before).clicks ++ [.call (Addon.run (page before).client).calls.length] } := by
    simp only [Page.step, hl, hm, if_true]
  obtain ⟨x, y, h1, h2, h3⟩ := fold_more after ((page before).step (.click id skip pe cn posts))
  have hp : page (before ++ .click id skip pe cn posts :: after) =
      after.foldl Page.step ((page before).step (.click id skip pe cn posts)) := by
    simp [page]
  refine ⟨x, ?_, ?_, h3⟩
  · rw [hp, h1, hs]; simp
  · rw [hp, h2, hs]; simp

theorem page_unknown {before after : List Event} {id : Str} {skip : Nat} {pe cn posts : Bool}
    (hi : .installed ∈ before) (hm : item id = none) :
    (page (before ++ .click id skip pe cn posts :: after)).report (page before).clicks.length =
      some (.error (.unknown id)) := by
  have hl : (page before).listening = true := (fold_listening before {}).mpr (.inr hi)
  have hs : (page before).step (.click id skip pe cn posts) =
      { (page before) with clicks := (page before).clicks ++ [.unknown id] } := by
    simp only [Page.step, hl, hm, if_true]
  obtain ⟨x, y, h1, h2, h3⟩ := fold_more after ((page before).step (.click id skip pe cn posts))
  have hp : page (before ++ .click id skip pe cn posts :: after) =
      after.foldl Page.step ((page before).step (.click id skip pe cn posts)) := by
    simp [page]
  have : (page (before ++ .click id skip pe cn posts :: after)).clicks[(page before).clicks.length]? =
      some (.unknown id) := by
    rw [hp, h2, hs]; simp
  simp only [Page.report, this]

theorem item_cases (id : Str) : (id = "1".toList ∧ item id = some ("example.Sqrt".toList, .num 2)) ∨
    (id = "2".toList ∧ item id = some ("example.Sqrt".toList, .num (-2))) ∨
    (id = "3".toList ∧ item id = some ("example.Sleep".toList, .num 1500)) ∨
    (id ≠ "1".toList ∧ id ≠ "2".toList ∧ id ≠ "3".toList ∧ item id = none) := by
  by_cases h1 : id = "1".toList
  · exact .inl ⟨h1, by simp only [item, if_pos h1]⟩
  by_cases h2 : id = "2".toList
  · exact .inr (.inl ⟨h2, by simp only [item, if_neg h1, if_pos h2]⟩)
  by_cases h3 : id = "3".toList
  · exact .inr (.inr (.inl ⟨h3, by simp only [item, if_neg h1, if_neg h2, if_pos h3]⟩))
  · exact .inr (.inr (.inr ⟨h1, h2, h3, by simp only [item, if_neg h1, if_neg h2, if_neg h3]⟩))

/-! ### Replies -/

theorem writable {f : Floats} (hf : Lawful f) : Addon.Writable (world f) :=
  ⟨whole_result hf, fun _ => rfl⟩

/-- A request has the answer that it asks for. -/
theorem says_only {Id : Type} {f : Floats} (hf : Lawful f) {r : Rpc.Server.Request Id Json}
    {b c : Body Json} (hb : Says f r b) (hc : Says f r c) (hw : ¬Wrong f r) : b = c := by
  rcases c77_unique hf hb hc with h | ⟨h, -⟩
  · exact h
  · exact absurd h hw

theorem right_root {Id : Type} {f : Floats} {r : Rpc.Server.Request Id Json} {p : Json} {x : f.F}
    (hm : r.method = "example.Sqrt".toList) (hp : r.params = some p) (hx : Number f p x) :
    ¬Wrong f r := by
  intro h
  cases h with
  | method h _ => exact h hm
  | none h => rw [h] at hp; cases hp
  | sqrt _ h h' => rw [h] at hp; cases hp; exact h' _ hx
  | sleep h _ _ => rw [hm] at h; exact absurd h (by decide)

theorem right_sleep {Id : Type} {f : Floats} {r : Rpc.Server.Request Id Json} {p : Json} {t : Int}
    (hm : r.method = "example.Sleep".toList) (hp : r.params = some p) (ht : Time p t) :
    ¬Wrong f r := by
  intro h
  cases h with
  | method _ h => exact h hm
  | none h => rw [h] at hp; cases hp
  | sqrt h _ _ => rw [hm] at h; exact absurd h (by decide)
  | sleep _ h h' => rw [h] at hp; cases hp; exact h' _ ht

theorem verdict_result {f : Floats} (hf : Lawful f) (id : Option Json) (x : f.F)
    (h : f.write x ≠ .num 0) {y : Js.Response}
    (hy : Addon.response (JsonText.Spec.replyValue id (.result (f.write x))) = some y) :
    Js.Spec.verdict y = .resolved (value (f.write x)) := by
  rw [Addon.response_reply] at hy
  cases hy
  have : value (f.write x) ∉ Js.Spec.falsy := by
    rcases hf.write x with ⟨n, hn⟩ | ⟨n, -, hn⟩
    · rw [hn] at h ⊢
      have : n ≠ 0 := fun e => h (by rw [e])
      simp [value, Js.Spec.falsy, this]
    · rw [← hn] at h ⊢
      unfold JsonText.Spec.numValue at h ⊢
      split at h
      · rename_i hc
        rw [if_pos hc]
        simp only [value, Js.Spec.falsy]
        simpa using h
      · rename_i hc
        rw [if_neg hc]
        simp [value, Js.Spec.falsy]
  unfold Js.Spec.verdict
  rw [if_pos this]

theorem report_call {p : Page} {k n : Nat} (h : p.clicks[k]? = some (.call n)) {r : Report}
    (hr : p.report k = some r) : ∃ o, (Addon.run p.client).calls[n]? = some (some o) ∧
      r = match (o : Js.Outcome) with
        | .resolved v => .result v
        | .rejected e => .error (.call e) := by
  simp only [Page.report, h] at hr
  split at hr
  · rename_i v hv; cases hr; exact ⟨_, hv, rfl⟩
  · rename_i v hv; cases hr; exact ⟨_, hv, rfl⟩
  · cases hr

/-- A call is sent or it is rejected at once. -/
theorem sent_or_not (before after : List Addon.Event) (m : Str) (a : Json) (skip : Nat)
    (pe cn posts : Bool) : (∃ p, Posted before (.call m a skip pe cn posts) p) ∨
    (Addon.run (before ++ .call m a skip pe cn posts :: after)).calls[(Addon.run before).calls.length]? =
      some (some (.rejected .thrown)) := by
  have hpo := Addon.step_posted (Addon.run before) (.call m a skip pe cn posts)
  cases hq : Addon.postedBy (Addon.run before) (.call m a skip pe cn posts) with
  | cons p ps =>
    left
    refine ⟨p, ?_⟩
    show Addon.postedBy (Addon.run before) _ = [p]
    rw [hq]
    simp only [Addon.postedBy] at hq
    split at hq
    · cases hq
    · split at hq
      · cases hq; rfl
      · cases hq
  | nil =>
    right
    rw [hq] at hpo
    have := Js.c50_unsent (before.map (·.js)) (after.map (·.js)) skip pe cn posts (by
      rw [Js.run_append]
      rw [List.map_nil, List.append_nil] at hpo
      exact hpo)
    simpa [Addon.run, Addon.Event.js] using this

/-- C79: whatever items are clicked, in whatever order methods end and messages come, what is reported
for a click is what its item stands for, unless the connection fails. -/
theorem c79_report {short : Bool} {f : Floats} (hf : Lawful f) {two minus : f.F} (hk : Known f two minus)
    {before after : List Event} {id : Str} {skip : Nat} {pe cn posts : Bool}
    (hi : .installed ∈ before)
    (hl : Linked short (world f) (page (before ++ .click id skip pe cn posts :: after)).client)
    {r : Report}
    (hr : (page (before ++ .click id skip pe cn posts :: after)).report (page before).clicks.length = some r) :
    Expected f two id r ∨ Dropped after r := by
  have key : ∀ m a, item id = some (m, a) → (∀ (n : Nat) (b : Body Json) (x : Js.Response),
      Says f (Addon.Spec.asked n m a) b →
      Addon.response (JsonText.Spec.replyValue (Addon.Spec.asked n m a).id b) = some x →
      Expected f two id (match Js.Spec.verdict x with
        | .resolved v => .result v
        | .rejected e => .error (.call e))) → Expected f two id r ∨ Dropped after r := by
    intro m a hm hgood
    obtain ⟨x, h1, h2, h3⟩ := page_click (after := after) (skip := skip) (pe := pe) (cn := cn)
      (posts := posts) hi hm
    obtain ⟨o, ho, rfl⟩ := report_call h2 hr
    rw [h1] at ho hl
    rcases sent_or_not (page before).client x m a skip pe cn posts with ⟨p, hp⟩ | ht
    · rcases Addon.settled (writable hf) hp hl ho with ⟨b, y, hans, hy, rfl⟩ | ⟨q, hq, rfl⟩
      · exact .inl (hgood _ b y (c77_reply hf hans) hy)
      · exact .inr (.disconnected (h3 q hq))
    · rw [ht] at ho
      cases ho
      exact .inr .thrown
  rcases item_cases id with ⟨rfl, hm⟩ | ⟨rfl, hm⟩ | ⟨rfl, hm⟩ | ⟨h1, h2, h3, hm⟩
  · refine key _ _ hm fun n b x hs hx => ?_
    have hx2 : Number f (.arr [.num 2]) two := .value hk.two'
    have hb := says_only hf hs (.root rfl rfl hx2 hk.positive) (right_root rfl rfl hx2)
    subst hb
    rw [verdict_result hf _ _ hk.root hx]
    exact .root
  · refine key _ _ hm fun n b x hs hx => ?_
    have hx2 : Number f (.arr [.num (-2)]) minus := .value hk.minus'
    have hb := says_only hf hs (.negative rfl rfl hx2 hk.negative) (right_root rfl rfl hx2)
    subst hb
    rw [Addon.response_reply] at hx
    cases hx
    exact .negative
  · refine key _ _ hm fun n b x hs hx => ?_
    have ht : Time (.arr [.num 1500]) 1500 := .value ⟨rfl, by decide, by decide⟩
    have hb := says_only hf hs (.slept rfl rfl ht) (right_sleep rfl rfl ht)
    subst hb
    rw [Addon.response_reply] at hx
    cases hx
    exact .slept
  · rw [page_unknown hi hm] at hr
    cases hr
    exact .inl (.unknown h1 h2 h3)

/-- C79: what has been reported is not changed later. -/
theorem c79_once (before after : List Event) {k : Nat} {r : Report}
    (h : (page before).report k = some r) : (page (before ++ after)).report k = some r := by
  obtain ⟨x, y, h1, h2, -⟩ := fold_more after (page before)
  have hp : page (before ++ after) = after.foldl Page.step (page before) := by simp [page]
  rw [hp]
  simp only [Page.report] at h ⊢
  have hc : ∀ c, (page before).clicks[k]? = some c →
      (after.foldl Page.step (page before)).clicks[k]? = some c := by
    intro c hc
    rw [h2, List.getElem?_append_left (List.getElem?_eq_some_iff.mp hc).1, hc]
  cases hcl : (page before).clicks[k]? with
  | none => rw [hcl] at h; cases h
  | some c =>
    rw [hc c hcl]
    rw [hcl] at h
    cases c with
    | unknown id => exact h
    | call n =>
      have hs : ∀ o, (Addon.run (page before).client).calls[n]? = some (some o) →
          (Addon.run (after.foldl Page.step (page before)).client).calls[n]? = some (some o) := by
        intro o ho
        rw [h1]
        have := Js.c50_once ((page before).client.map Addon.Event.js) (x.map Addon.Event.js) n o ho
        simpa [Addon.run] using this
      simp only at h ⊢
      split at h
      · rename_i v hv; rw [hs _ hv]; exact h
      · rename_i v hv; rw [hs _ hv]; exact h
      · cases h

/-- C79: when the backend that the request of a click has been sent to has answered all its requests and
its messages have come, the click has been reported. -/
theorem c79_reported {short : Bool} {f : Floats} (hf : Lawful f) {before after : List Event} {id : Str}
    {skip : Nat} {pe cn posts : Bool} (hi : .installed ∈ before)
    (hl : Linked short (world f) (page (before ++ .click id skip pe cn posts :: after)).client)
    (hd : ∀ m a p, Posted (page before).client (.call m a skip pe cn posts) p → ∃ s, Runs short (world f)
      (sentTo p.port (page (before ++ .click id skip pe cn posts :: after)).client) s
      (arrived p.port (page (before ++ .click id skip pe cn posts :: after)).client) ∧
      s.loop = .closed ∧ s.broken = false) :
    ∃ r, (page (before ++ .click id skip pe cn posts :: after)).report (page before).clicks.length = some r := by
  cases hm : item id with
  | none => exact ⟨_, page_unknown hi hm⟩
  | some c =>
    obtain ⟨m, a⟩ := c
    obtain ⟨x, h1, h2, -⟩ := page_click (after := after) (skip := skip) (pe := pe) (cn := cn)
      (posts := posts) hi hm
    have : ∃ o, (Addon.run (page (before ++ .click id skip pe cn posts :: after)).client).calls[
        (Addon.run (page before).client).calls.length]? = some (some o) := by
      rw [h1] at hl hd ⊢
      rcases sent_or_not (page before).client x m a skip pe cn posts with ⟨p, hp⟩ | ht
      · obtain ⟨s, hs, hc, hb⟩ := hd _ _ p hp
        exact Addon.answered (writable hf) hp hl hs hc hb
      · exact ⟨_, ht⟩
    obtain ⟨o, ho⟩ := this
    simp only [Page.report, h2, ho]
    cases o <;> exact ⟨_, rfl⟩

/-- C79 does not hold if the add-on has not been told that it has been installed, for example after a
restart of the browser: clicks are not heard. -/
theorem c79_violation_restart {history : List Event} (h : .installed ∉ history) :
    (page history).clicks = [] ∧ Addon.posted {} (page history).client = [] := by
  have hstep : ∀ (es : List Event) (p : Page), .installed ∉ es → p.listening = false →
      (es.foldl Page.step p).clicks = p.clicks ∧ Addon.posted {} (es.foldl Page.step p).client = Addon.posted {} p.client := by
    intro es
    induction es with
    | nil => intro p _ _; exact ⟨rfl, rfl⟩
    | cons e es ih =>
      intro p hn hl
      rw [List.foldl_cons]
      simp only [List.mem_cons, not_or] at hn
      cases e with
      | installed => exact absurd rfl hn.1
      | click id skip pe cn posts =>
        have : p.step (.click id skip pe cn posts) = p := by simp [Page.step, hl]
        rw [this]; exact ih p hn.2 hl
      | arrive port v =>
        obtain ⟨h1, h2⟩ := ih (p.step (.arrive port v)) hn.2 hl
        refine ⟨h1, h2.trans ?_⟩
        simp [Page.step, Addon.posted_append, Addon.posted, Addon.postedBy]
      | disconnected port =>
        obtain ⟨h1, h2⟩ := ih (p.step (.disconnected port)) hn.2 hl
        refine ⟨h1, h2.trans ?_⟩
        simp [Page.step, Addon.posted_append, Addon.posted, Addon.postedBy]
  exact hstep history {} h rfl

/-- Zero is not a result for the client of the add-on: a call of `backend.sleep(0)` is never resolved. -/
theorem c79_violation_zero {short : Bool} {f : Floats} (hf : Lawful f) {before after : List Addon.Event}
    {skip : Nat} {pe cn posts : Bool} {p : Addon.Post}
    (hp : Posted before (.call "example.Sleep".toList (.num 0) skip pe cn posts) p)
    (hl : Linked short (world f) (before ++ .call "example.Sleep".toList (.num 0) skip pe cn posts :: after))
    {o : Js.Outcome}
    (ho : (Addon.run (before ++ .call "example.Sleep".toList (.num 0) skip pe cn posts :: after)).calls[
      (Addon.run before).calls.length]? = some (some o)) :
    o = .rejected .invalid ∨ ∃ q, o = .rejected (.disconnected q) := by
  rcases Addon.settled (writable hf) hp hl ho with ⟨b, x, hans, hx, rfl⟩ | ⟨q, -, rfl⟩
  · left
    have ht : Time (.arr [.num 0]) 0 := .value ⟨rfl, by decide, by decide⟩
    have hb := says_only hf (c77_reply hf hans) (.slept rfl rfl ht) (right_sleep rfl rfl ht)
    subst hb
    rw [Addon.response_reply] at hx
    cases hx
    rfl
  · exact .inr ⟨q, rfl⟩

/-! ### An example -/

example : Known exFloats (Num.int 2) (Num.int (-2)) := ⟨rfl, rfl, rfl, rfl, by simp [exFloats]⟩

/-- A click whose request has been posted and whose backend has gone. -/
example : (page [.installed, .click "1".toList 0 false true true, .click "4".toList 0 false true true,
    .disconnected 0]).report 0 = some (.error (.call (.disconnected 0))) := rfl

example : (page [.installed, .click "1".toList 0 false true true, .arrive 0 (JsonText.Spec.replyValue
    (some (.num 0)) (.result (.num 7)))]).report 0 = some (.result (.num 7)) := rfl

open Burl.JsonText in
/-- A request, its text and the run of the backend. -/
theorem example_menu : ∃ s, Runs true (world exFloats) [exRoot 0 2] s [JsonText.Spec.replyValue
      (some (.num 0)) (.result (.real "1.4142135623730951".toList))] ∧
    s.loop = .closed ∧ s.broken = false := by
  let text : Bytes := enc true (JsonText.Spec.object (.num 0) (.arr [.num 2]) "example.Sqrt".toList)
  have ht : enc true (JsonText.Spec.object (.num 0) (.arr [.num 2]) "example.Sqrt".toList) ++ [] = text := by simp [text]
  have h2 := c69_sendable true (id := .num 0) (params := .arr [.num 2]) (w := [])
    (method := "example.Sqrt".toList) (by simp [JsonText.Spec.Plain, JsonText.Spec.AllPlain])
    (by simp [JsonText.Spec.Plain]) (by simp) (by simp) Rpc.blank_nil (by rw [ht]; decide +kernel)
  rw [ht] at h2
  have hq : requests ⟨Frame.Spec.stream [text], [], .eof⟩ = [⟨some [48], "example.Sqrt".toList,
      some ("[2]".toList.flatMap putRune)⟩] := by
    have hx : (requests ⟨Frame.Spec.stream [text], [], .eof⟩).map (fun r => (r.id, r.method, r.params)) =
        [(some [48], "example.Sqrt".toList, some ("[2]".toList.flatMap putRune))] := by decide +kernel
    generalize requests ⟨Frame.Spec.stream [text], [], .eof⟩ = q at hx
    match q, hx with
    | [⟨id, m, p⟩], hx => simpa using hx
  have hu : unmarshal ("[2]".toList.flatMap putRune) = some (.arr [.num 2]) := by
    have hx : enc true (.arr [.num 2]) = "[2]".toList.flatMap putRune := by decide +kernel
    rw [← hx]
    exact c68_roundtrip true (by simp [JsonText.Spec.Plain, JsonText.Spec.AllPlain])
  have d3 : Rpc.lookup services "example.Sqrt".toList = .ok Method.sqrt := rfl
  have d5 : argument exFloats .sqrt (.arr [.num 2]) = some (.sqrt (Num.int 2)) := rfl
  obtain ⟨n, s, h3, h4, h5, h6⟩ := one_request (w := textOf (world exFloats))
    (r := ⟨some [48], "example.Sqrt".toList, some ("[2]".toList.flatMap putRune)⟩)
    (m := .sqrt) (a := .sqrt (Num.int 2)) (v := .real "1.4142135623730951".toList)
    (by simp only [Rpc.Server.prepare, Rpc.Server.Methods.find, d3, textOf, hu, world, d5])
    (.sqrt (f := exFloats) (x := Num.int 2)) rfl
  have hwhole : Whole (.real "1.4142135623730951".toList) := ⟨0, by
    rw [JsonText.Spec.Plain]
    rcases exFloats_lawful.write .root2 with ⟨n, h⟩ | h
    · cases h
    · exact h⟩
  obtain ⟨u, d, e1, e2, e3⟩ := reply_means true
    (p := ⟨some [48], .result (.real "1.4142135623730951".toList)⟩)
    (id := some (.num 0)) ⟨.num ⟨false, [48], [], none, false⟩, by decide +kernel, by
      rw [JsonText.Spec.Means]; simp [JsonText.Spec.numValue, JsonText.Spec.decimal],
      by rw [Rpc.Spec.Json.Writes]; decide +kernel⟩
    (by rintro v h; cases h; exact hwhole)
  have hl : (replyText true ⟨some [48], .result (.real "1.4142135623730951".toList)⟩).length < 2 ^ 32 := by
    decide +kernel
  have h6 : s.out = [⟨some [48], .result (.real "1.4142135623730951".toList)⟩] := h6
  refine ⟨s, ⟨⟨_, _, _, _, h2, by rw [hq]; exact h3⟩, ?_, [u], ?_, ?_⟩, h4, h5⟩
  · rw [h6]
    intro p hp
    obtain rfl := List.mem_singleton.mp hp
    exact hl
  · rw [h6, written, Frame.c01_wire]
    · rw [List.map_singleton, e1]; simp
    · intro m hm
      obtain rfl : m = _ := by simpa using hm
      exact hl
  · refine .cons ⟨⟨d, e2⟩, ?_, e3⟩ .nil
    rw [e1] at hl
    simpa using hl

/-- Hypotheses are met: a click on the first item and its report. -/
def exClicks : List Event := [.installed, .click "1".toList 0 false true true,
  .arrive 0 (JsonText.Spec.replyValue (some (.num 0)) (.result (.real "1.4142135623730951".toList)))]

example : Linked true (world exFloats) (page exClicks).client ∧
    (page exClicks).report 0 = some (.result (.other (.real "1.4142135623730951".toList))) := by
  refine ⟨?_, rfl⟩
  obtain ⟨s, h1, -⟩ := example_menu
  have hc : (page exClicks).client = [.call "example.Sqrt".toList (.num 2) 0 false true true,
      .arrive 0 (JsonText.Spec.replyValue (some (.num 0)) (.result (.real "1.4142135623730951".toList)))] := rfl
  rw [hc]
  intro before port v after h
  cases before with
  | nil => cases h
  | cons x before =>
    cases before with
    | nil =>
      cases h
      exact ⟨s, _, h1, List.prefix_refl _⟩
    | cons y before => simp at h

end Burl.Example
