import Verif.Addon.Model
import Verif.Js.Props
import Verif.JsonText.SessionProps
import Verif.Backend.SaysProps
/-! The add-on and its backends together (C70). -/
namespace Burl.Addon
open Burl
open Burl.Json (Json)
open Burl.Rpc.Spec (Piece)
open Burl.Rpc.Server (Request Reply Body State Answers World Methods Calls)
open Burl.Frame.Spec (stream)
open Burl.Extract (All₂)
open Burl.JsonText
open Burl.JsonText.Spec

namespace Spec

/-- A text is read as a value. -/
def Reads (u : Text) (v : Json) : Prop := (∃ d, u.ok d = true) ∧ u.text.length + 1 < 2 ^ 32 ∧ Means u v

/-- A run of a backend that is sent some requests: the state and values of the texts in its output. -/
structure Runs {A M C : Type} [Methods M] [Calls M C] (short : Bool) (w : World Json A Json M)
    (rs : List (Request Json Json)) (s : State Bytes Bytes A Json M) (vs : List Json) : Prop where
  run : ∃ texts sched fin n, Sent texts rs ∧
    Rpc.Server.Steps (textOf w) (Rpc.Server.start (requests ⟨stream texts, sched, fin⟩)) n s
  fits : ∀ p ∈ s.out, (replyText short p).length < 2 ^ 32
  output : ∃ us, written short s.out = stream (us.map fun u => u.text ++ [10]) ∧ All₂ Reads us vs

/-- Every message comes from a backend that has been sent the requests posted before to its port;
messages come in the order they have been written. -/
def Linked {A M C : Type} [Methods M] [Calls M C] (short : Bool) (w : World Json A Json M)
    (history : List Event) : Prop :=
  ∀ before port v after, history = before ++ .arrive port v :: after →
    ∃ s vs, Runs short w (sentTo port before) s vs ∧ arrived port before ++ [v] <+: vs

end Spec
open Spec

/-! ### Backends -/

theorem le32_inj {a b : Nat} (ha : a < 2 ^ 32) (hb : b < 2 ^ 32)
    (h : Frame.Spec.le32 a = Frame.Spec.le32 b) : a = b := by
  have key : ∀ x y : Nat, UInt8.ofNat (x % 256) = UInt8.ofNat (y % 256) → x % 256 = y % 256 := by
    intro x y h
    have := congrArg UInt8.toNat h
    simp only [UInt8.toNat_ofNat'] at this
    omega
  unfold Frame.Spec.le32 at h
  simp only [List.cons.injEq, and_true] at h
  obtain ⟨h1, h2, h3, h4⟩ := h
  have h1 := key _ _ h1
  have h2 := key _ _ h2
  have h3 := key _ _ h3
  have h4 := key _ _ h4
  omega

theorem stream_inj : ∀ {as bs : List Bytes}, (∀ m ∈ as, m.length < 2 ^ 32) →
    (∀ m ∈ bs, m.length < 2 ^ 32) → stream as = stream bs → as = bs
  | [], [], _, _, _ => rfl
  | [], b :: bs, _, _, h => by simp [stream, Frame.Spec.frame, Frame.Spec.le32] at h
  | a :: as, [], _, _, h => by simp [stream, Frame.Spec.frame, Frame.Spec.le32] at h
  | a :: as, b :: bs, ha, hb, h => by
    have e : ∀ (m : Bytes) (ms : List Bytes), stream (m :: ms) = Frame.Spec.le32 m.length ++ (m ++ stream ms) := by
      intro m ms
      simp [stream, Frame.Spec.frame]
    rw [e, e] at h
    obtain ⟨h1, h2⟩ := List.append_inj h rfl
    have hl := le32_inj (ha a (by simp)) (hb b (by simp)) h1
    obtain ⟨rfl, h3⟩ := List.append_inj h2 hl
    rw [stream_inj (fun m hm => ha m (List.mem_cons_of_mem _ hm))
      (fun m hm => hb m (List.mem_cons_of_mem _ hm)) h3]

theorem all₂_left {α β : Type} {R : α → β → Prop} {as : List α} {bs : List β} (h : All₂ R as bs)
    {k : Nat} {b : β} (hb : bs[k]? = some b) : ∃ a, as[k]? = some a ∧ R a b := by
  induction h generalizing k with
  | nil => simp at hb
  | cons hr _ ih =>
    cases k with
    | zero => simp at hb; subst hb; exact ⟨_, by simp, hr⟩
    | succ k => simp at hb ⊢; exact ih hb

/-- Results of methods can be written. -/
structure Writable {A M C : Type} [Methods M] [Calls M C] (w : World Json A Json M) : Prop where
  whole : ∀ {r : Request Json Json} {v : Json}, Answers w r (.result v) → Whole v
  encodes : ∀ v, w.encodes v = true

theorem writable (e : Backend.Env) : Writable (Backend.world e) := ⟨whole_answers, fun _ => rfl⟩

/-- Values in the output of a backend are replies to its requests. -/
theorem runs_replies {short : Bool} {A M C : Type} [Methods M] [Calls M C]
    {w : World Json A Json M} (hw : Writable w) {rs : List (Request Json Json)}
    {s : State Bytes Bytes A Json M} {vs : List Json} (h : Runs short w rs s vs) :
    ∃ ks : List Nat, ks.length = vs.length ∧ ks.Nodup ∧
      (∀ (i k : Nat) (v : Json), ks[i]? = some k → vs[i]? = some v → ∃ r b, rs[k]? = some r ∧
        Answers w r b ∧ v = replyValue r.id b) ∧
      (s.loop = .closed → s.broken = false → ∀ k, k < rs.length → k ∈ ks) := by
  obtain ⟨texts, sched, fin, n, ht, hs⟩ := h.run
  obtain ⟨us, hw', hv⟩ := h.output
  have hsame := c69_requests ht sched fin
  have key : ∃ ks, Rpc.Server.Matched (textOf w) (requests ⟨stream texts, sched, fin⟩) s.out ks ∧
      (s.loop = .closed → s.broken = false → ∀ k, k < rs.length → k ∈ ks) := by
    by_cases hc : s.loop = .closed ∧ s.broken = false
    · obtain ⟨ks, h1, h2⟩ := Rpc.Server.c59_complete hs hc.1 hc.2
      refine ⟨ks, h1, fun _ _ k hk => ?_⟩
      have hk' : k < (requests ⟨stream texts, sched, fin⟩).length := by rw [all₂_length hsame]; exact hk
      rcases h2 k _ (List.getElem?_eq_getElem hk') with h | ⟨v, -, h⟩
      · exact h
      · rw [show (textOf w).encodes v = w.encodes v from rfl, hw.encodes] at h; cases h
    · obtain ⟨ks, h1⟩ := Rpc.Server.c59_replies hs
      exact ⟨ks, h1, fun a b => absurd ⟨a, b⟩ hc⟩
  obtain ⟨ks, hmatch, h3⟩ := key
  obtain ⟨us', h0, h2⟩ := reply_texts short hw.whole hsame hmatch
  have hfit : ∀ m ∈ s.out.map (replyText short), m.length < 2 ^ 32 := by
    intro m hm
    obtain ⟨p, hp, rfl⟩ := List.mem_map.mp hm
    exact h.fits p hp
  have h1 : written short s.out = stream (us'.map fun u => u.text ++ [10]) := by
    rw [written, Frame.c01_wire _ _ hfit, h0]
    simp
  rw [h0] at hfit
  have heq : us'.map (fun u : Text => u.text ++ [10]) = us.map (fun u : Text => u.text ++ [10]) := by
    refine stream_inj hfit ?_ (h1.symm.trans hw')
    intro m hm
    obtain ⟨u, hu, rfl⟩ := List.mem_map.mp hm
    obtain ⟨k, hk⟩ := List.getElem?_of_mem hu
    obtain ⟨v, -, -, hl, -⟩ := all₂_get hv hk
    simpa using hl
  have hlen : us'.length = us.length := by simpa using congrArg List.length heq
  refine ⟨ks, ?_, h2.once, ?_, h3⟩
  · rw [h2.length, hlen, all₂_length hv]
  intro i k v hk hvi
  obtain ⟨u, hu, ⟨d, hd⟩, -, hm⟩ := all₂_left hv hvi
  have : (us'.map (fun u : Text => u.text ++ [10]))[i]? = some (u.text ++ [10]) := by
    rw [heq]; simp [hu]
  rw [List.getElem?_map, Option.map_eq_some_iff] at this
  obtain ⟨u', hu', he⟩ := this
  obtain ⟨he, -⟩ := List.append_inj' he rfl
  obtain ⟨⟨d', hd'⟩, r, b, hr, hans, hm'⟩ := h2.answers i k u' hk hu'
  refine ⟨r, b, hr, hans, ?_⟩
  have p1 := parse_of ⟨u, hd, hm, Rpc.writes_text u⟩
  have p2 := parse_of ⟨u', hd', hm', Rpc.writes_text u'⟩
  rw [he, p1] at p2
  exact Option.some.inj p2

/-! ### Requests -/

theorem step_posted (s : Js.State) (e : Event) :
    (Js.step s e.js).posted = s.posted ++ (postedBy s e).map fun p => (p.port, p.id) := by
  cases e with
  | call m a skip pe cn posts =>
    simp only [Event.js, Js.step, Js.sendMessage, postedBy]
    cases hg : Js.getPort s pe cn with
    | none => simp
    | some x =>
      obtain ⟨s', p⟩ := x
      have hp : s'.posted = s.posted := by
        obtain ⟨-, -, -, h, -⟩ := Js.getPort_cases hg
        exact h
      cases posts <;> simp [hp]
  | arrive p v =>
    simp only [Event.js, Js.step, Js.messageReceived, postedBy, List.map_nil, List.append_nil]
    repeat' split
    all_goals rfl
  | disconnected p => simp [Event.js, Js.step, Js.disconnected, postedBy]

theorem run_posted (s : Js.State) (es : List Event) :
    (Js.run s (es.map (·.js))).posted = s.posted ++ (posted s es).map fun p => (p.port, p.id) := by
  induction es generalizing s with
  | nil => simp [Js.run, posted]
  | cons e es ih =>
    rw [List.map_cons, Js.run_cons, ih, step_posted, posted, List.map_append, List.append_assoc]

theorem posted_append (s : Js.State) (a b : List Event) :
    posted s (a ++ b) = posted s a ++ posted (Js.run s (a.map (·.js))) b := by
  induction a generalizing s with
  | nil => simp [posted, Js.run]
  | cons e a ih =>
    rw [List.cons_append, posted, ih, posted, List.append_assoc, List.map_cons, Js.run_cons]

/-- Requests differ in their identifiers. -/
theorem posted_unique {history : List Event} {p q : Post} (hp : p ∈ posted {} history)
    (hq : q ∈ posted {} history) (h : p.id = q.id) : p = q := by
  have hn := Js.c50_ids (history.map (·.js))
  rw [run_posted] at hn
  simp only [List.nil_append, List.map_map] at hn
  generalize posted {} history = l at *
  induction l with
  | nil => cases hp
  | cons x l ih =>
    simp only [List.map_cons, List.nodup_cons, Function.comp] at hn
    rcases List.mem_cons.mp hp with rfl | hp'
    · rcases List.mem_cons.mp hq with rfl | hq'
      · rfl
      · exact absurd (List.mem_map.mpr ⟨q, hq', h.symm⟩) hn.1
    · rcases List.mem_cons.mp hq with rfl | hq'
      · exact absurd (List.mem_map.mpr ⟨p, hp', h⟩) hn.1
      · exact ih hp' hq' hn.2

/-! ### Answers -/

theorem answer_cases (verdict : Js.Response → Js.Outcome) (id : Nat) : ∀ (es : List Js.Event)
    (o : Js.Outcome), Js.Spec.answer verdict id es = some o →
    (∃ a b r, es = a ++ .message (some r) :: b ∧ r.id = .num id ∧ o = verdict r) ∨
    ∃ p, .disconnected p ∈ es ∧ o = .rejected (.disconnected p)
  | [], o, h => by simp [Js.Spec.answer] at h
  | e :: es, o, h => by
    have next : Js.Spec.answer verdict id es = some o →
        (∃ a b r, e :: es = a ++ .message (some r) :: b ∧ r.id = .num id ∧ o = verdict r) ∨
        ∃ p, .disconnected p ∈ e :: es ∧ o = .rejected (.disconnected p) := by
      intro h
      rcases answer_cases verdict id es o h with ⟨a, b, r, rfl, h1, h2⟩ | ⟨p, h1, h2⟩
      · exact .inl ⟨e :: a, b, r, rfl, h1, h2⟩
      · exact .inr ⟨p, List.mem_cons_of_mem _ h1, h2⟩
    cases e with
    | call => rw [Js.Spec.answer] at h; exact next h
    | disconnected p =>
      rw [Js.Spec.answer] at h
      exact .inr ⟨p, by simp, (Option.some.inj h).symm⟩
    | message r =>
      cases r with
      | none => rw [Js.Spec.answer] at h; exact next h
      | some r =>
        rw [Js.Spec.answer] at h
        split at h
        · rename_i hr
          exact .inl ⟨[], es, r, rfl, hr, (Option.some.inj h).symm⟩
        · exact next h

theorem response_reply (id : Option Json) (b : Body Json) :
    response (replyValue id b) = some (match b with
      | .result v => ⟨value (id.getD .null), value v, .null⟩
      | .error t => ⟨value (id.getD .null), .null, .str t⟩) := by
  cases b <;> rfl

theorem marshal_obj {h : Tree.Heap} {v : Json} : ∀ {a : Tree.Addr} {r : Res Empty Json},
    Json.Marshal h a r → r = .ok v → ∃ ms, v = .obj ms
  | _, _, .child _ hm, e => marshal_obj hm e
  | _, _, .fields (r := r) _ _ _, e => by
    cases r with
    | ok o => cases e; exact ⟨_, rfl⟩
    | err x => exact x.elim
    | panic => cases e
  | _, _, .panic _ _, e => by cases e

theorem returns_shape {e : Backend.Env} {m : Rpc.Method} {a : Backend.Arg} {v : Json}
    {t : Option Str} (h : Backend.Returns e m a v t) :
    (t = none ∧ ((∃ ms, v = .obj ms) ∨ v = .bool true)) ∨ ∃ x, t = some x ∧ x ≠ [] := by
  cases h with
  | hello _ => exact .inl ⟨rfl, .inl ⟨_, rfl⟩⟩
  | tooOld _ => exact .inr ⟨_, rfl, by simp⟩
  | capture _ => exact .inl ⟨rfl, .inl ⟨_, rfl⟩⟩
  | captureErr _ h => exact .inr ⟨_, rfl, h⟩
  | mentions _ _ _ h => exact .inl ⟨rfl, .inl (marshal_obj h rfl)⟩
  | noUrls _ => exact .inr ⟨_, rfl, by simp⟩
  | @mentionsErr _ _ err _ t _ _ h =>
    refine .inr ⟨_, rfl, ?_⟩
    cases err with
    | noFiles => rw [Backend.initText] at h; rw [h]; simp
    | noLinks => rw [Backend.initText] at h; rw [h]; simp
    | file _ => exact h
  | visit hrun =>
    obtain ⟨rfl, -, -⟩ := Emacs.c34_success _ _ _ _ _ _ _ hrun
    exact .inl ⟨rfl, .inr rfl⟩
  | visitErr _ h => exact .inr ⟨_, rfl, h⟩
  | linkSet _ _ => exact .inl ⟨rfl, .inl ⟨_, rfl⟩⟩
  | linkSetErr _ _ h => exact .inr ⟨_, rfl, h⟩

/-- Results of methods are objects or `true`. -/
theorem result_shape {Id : Type} {e : Backend.Env} {r : Request Id Json} {v : Json}
    (h : Answers (Backend.world e) r (.result v)) : (∃ ms, v = .obj ms) ∨ v = .bool true := by
  cases h with
  | badParamsSilent => exact .inl ⟨_, rfl⟩
  | result _ _ _ h =>
    rcases returns_shape h with ⟨-, h⟩ | ⟨x, h, -⟩
    · exact h
    · cases h
  | failedSilent _ _ _ h =>
    rcases returns_shape h with ⟨h, -⟩ | ⟨x, h, hx⟩
    · cases h
    · cases h; exact absurd rfl hx

theorem error_shape {Id : Type} {e : Backend.Env} {r : Request Id Json} {t : Str}
    (h : Answers (Backend.world e) r (.error t)) : t ≠ [] := by
  cases h with
  | unknown _ h => exact h
  | noParams _ h => exact h
  | badParams _ _ _ h => exact h
  | failed _ _ _ _ h => exact h

theorem verdict_reply {e : Backend.Env} {r : Request Json Json} {b : Body Json}
    (h : Answers (Backend.world e) r b) {x : Js.Response}
    (hx : response (replyValue r.id b) = some x) :
    Js.Spec.verdict x = match b with
      | .result v => .resolved (value v)
      | .error t => .rejected (.backend (.str t)) := by
  rw [response_reply] at hx
  cases b with
  | result v =>
    cases hx
    rcases result_shape h with ⟨ms, rfl⟩ | rfl <;> rfl
  | error t =>
    cases hx
    have ht := error_shape h
    cases t with
    | nil => exact absurd rfl ht
    | cons c t => rfl

/-! ### Theorems -/

namespace Spec

/-- The request of a call has been posted. -/
def Posted (before : List Event) (c : Event) (p : Post) : Prop := postedBy (run before) c = [p]

/-- The request that is expected for a call with a number of its own. -/
def asked (n : Nat) (method : Str) (arg : Json) : Request Json Json :=
  ⟨some (.num n), method, some (.arr [arg])⟩

/-- What the promise of a call may become; the request is the one described above. -/
inductive Fair (e : Backend.Env) (r : Request Json Json) (after : List Event) : Js.Outcome → Prop where
  /-- The result of the method for the argument of the call. -/
  | result {v} : Answers (Backend.world e) r (.result v) →
      Backend.Spec.RightFor e r v → Fair e r after (.resolved (value v))
  /-- The error of the method. -/
  | error {t} : Answers (Backend.world e) r (.error t) → t ≠ [] →
      Fair e r after (.rejected (.backend (.str t)))
  /-- The connection has been lost after the call. -/
  | lost {q} : .disconnected q ∈ after → Fair e r after (.rejected (.disconnected q))

end Spec

theorem right_of {e : Backend.Env} {r : Request Json Json} {v : Json}
    (hans : Answers (Backend.world e) r (.result v)) : Backend.Spec.RightFor e r v :=
  Backend.c62_says hans

theorem posted_call {before : List Event} {m : Str} {a : Json} {skip : Nat} {pe cn posts : Bool}
    {p : Post} (h : Posted before (.call m a skip pe cn posts) p) :
    posts = true ∧ p.method = m ∧ p.arg = a := by
  simp only [Posted, postedBy] at h
  split at h
  · cases h
  · split at h
    · cases h; exact ⟨by assumption, rfl, rfl⟩
    · cases h

/-- A message that comes from a backend is a reply to a request posted before. -/
theorem linked_mem {short : Bool} {A M C : Type} [Methods M] [Calls M C]
    {w : World Json A Json M} (hw : Writable w) {before after : List Event} {port : Nat} {v : Json}
    (hl : Linked short w (before ++ .arrive port v :: after)) :
    ∃ p b, p ∈ posted {} before ∧ p.port = port ∧ Answers w p.request b ∧
      v = replyValue p.request.id b := by
  obtain ⟨s, vs, hr, hpre⟩ := hl before port v after rfl
  obtain ⟨ks, hks, -, hall, -⟩ := runs_replies hw hr
  obtain ⟨i, hi⟩ := List.getElem?_of_mem (hpre.subset (show v ∈ _ by simp))
  have hil : i < ks.length := by
    rw [hks]
    exact (List.getElem?_eq_some_iff.mp hi).1
  obtain ⟨req, b, hreq, hans, rfl⟩ := hall i _ v (List.getElem?_eq_getElem hil) hi
  have hmem := List.mem_of_getElem? hreq
  simp only [sentTo, List.mem_map, List.mem_filter, beq_iff_eq] at hmem
  obtain ⟨p', ⟨hp', hport⟩, rfl⟩ := hmem
  exact ⟨p', b, hp', hport, hans, rfl⟩

/-- How the promise of a call is settled, for any program. -/
theorem settled {short : Bool} {A M C : Type} [Methods M] [Calls M C] {w : World Json A Json M}
    (hw : Writable w) {before after : List Event} {m : Str} {a : Json}
    {skip : Nat} {pe cn posts : Bool} {p : Post}
    (hp : Posted before (.call m a skip pe cn posts) p)
    (hl : Linked short w (before ++ .call m a skip pe cn posts :: after)) {o : Js.Outcome}
    (ho : (run (before ++ .call m a skip pe cn posts :: after)).calls[(run before).calls.length]? =
      some (some o)) :
    (∃ b x, Answers w (asked p.id m a) b ∧ response (replyValue (asked p.id m a).id b) = some x ∧
      o = Js.Spec.verdict x) ∨
    ∃ q, .disconnected q ∈ after ∧ o = .rejected (.disconnected q) := by
  obtain ⟨rfl, hm, ha⟩ := posted_call hp
  rw [show asked p.id m a = p.request by rw [← hm, ← ha]; rfl]
  have hpost : (Js.run {} (before.map (·.js) ++ [.call skip pe cn true])).posted =
      (Js.run {} (before.map (·.js))).posted ++ [(p.port, p.id)] := by
    rw [Js.run_append]
    show (Js.step _ (Event.js (.call m a skip pe cn true))).posted = _
    rw [step_posted]
    have : postedBy (Js.run {} (before.map (·.js))) (.call m a skip pe cn true) = [p] := hp
    rw [this]
    rfl
  have hset := (Js.c50_settled (before.map (·.js)) (after.map (·.js)) skip pe cn hpost).1
  have hrun : run (before ++ .call m a skip pe cn true :: after) =
      Js.run {} (before.map (·.js) ++ .call skip pe cn true :: after.map (·.js)) := by
    simp [run, Event.js]
  rw [hrun] at ho
  have hset : (Js.run {} (before.map (·.js) ++ .call skip pe cn true :: after.map (·.js))).calls[(run before).calls.length]? = _ := hset
  rw [hset] at ho
  have ho := Option.some.inj ho
  rcases answer_cases _ _ _ _ ho with ⟨x, y, r, he, hid, rfl⟩ | ⟨q, hq, rfl⟩
  · obtain ⟨after1, rest, rfl, rfl, h2⟩ := List.map_eq_append_iff.mp he
    obtain ⟨ev, after2, rfl, h3, rfl⟩ := List.map_eq_cons_iff.mp h2
    cases ev with
    | call => cases h3
    | disconnected => cases h3
    | arrive port v =>
      simp only [Event.js, Js.Event.message.injEq] at h3
      obtain ⟨p', b, hp', -, hans, rfl⟩ := linked_mem hw (after := after2)
        (before := before ++ .call m a skip pe cn true :: after1) (port := port) (v := v)
        (by simpa using hl)
      have hr' := h3
      rw [response_reply] at hr'
      have hid' : p'.id = p.id := by
        have : r.id = .num (p'.id : Int) := by
          cases b <;> cases hr' <;> rfl
        rw [this] at hid
        simpa using hid
      have hin : p ∈ posted {} (before ++ .call m a skip pe cn true :: after1) := by
        rw [posted_append]
        refine List.mem_append_right _ ?_
        rw [posted]
        refine List.mem_append_left _ ?_
        have : postedBy (Js.run {} (before.map (·.js))) (.call m a skip pe cn true) = [p] := hp
        rw [this]
        simp
      obtain rfl := posted_unique hp' hin hid'
      exact .inl ⟨b, r, hans, h3, rfl⟩
  · obtain ⟨ev, hev, hj⟩ := List.mem_map.mp hq
    cases ev with
    | call => cases hj
    | arrive => cases hj
    | disconnected q' => cases hj; exact .inr ⟨_, hev, rfl⟩

/-- C70: whatever the add-on calls, in whatever order methods end and messages come, the promise of a
call is never settled by something that is not meant for it: it is resolved with a right result of
the method for the argument of this call, rejected with the error of the method, or rejected
because the connection has been lost. -/
theorem c70_fair {short : Bool} {e : Backend.Env} {before after : List Event} {m : Str} {a : Json}
    {skip : Nat} {pe cn posts : Bool} {p : Post}
    (hp : Posted before (.call m a skip pe cn posts) p)
    (hl : Linked short (Backend.world e) (before ++ .call m a skip pe cn posts :: after)) {o : Js.Outcome}
    (ho : (run (before ++ .call m a skip pe cn posts :: after)).calls[(run before).calls.length]? =
      some (some o)) : Fair e (asked p.id m a) after o := by
  rcases settled (writable e) hp hl ho with ⟨b, x, hans, hx, rfl⟩ | ⟨q, hq, rfl⟩
  · rw [verdict_reply hans hx]
    cases b with
    | result v => exact .result hans (right_of hans)
    | error t => exact .error hans (error_shape hans)
  · exact .lost hq

theorem answer_some (verdict : Js.Response → Js.Outcome) (id : Nat) {r : Js.Response}
    (hr : r.id = .num id) : ∀ {es : List Js.Event}, .message (some r) ∈ es →
    ∃ o, Js.Spec.answer verdict id es = some o
  | [], h => by cases h
  | e :: es, h => by
    cases e with
    | call =>
      rw [Js.Spec.answer]
      exact answer_some verdict id hr (by simpa using h)
    | disconnected p => exact ⟨_, by rw [Js.Spec.answer]⟩
    | message x =>
      cases x with
      | none =>
        rw [Js.Spec.answer]
        exact answer_some verdict id hr (by simpa using h)
      | some x =>
        rw [Js.Spec.answer]
        by_cases hx : x.id = .num id
        · exact ⟨_, by rw [if_pos hx]⟩
        · rw [if_neg hx]
          rcases List.mem_cons.mp h with h | h
          · cases h; exact absurd hr hx
          · exact answer_some verdict id hr h

theorem mem_arrived {port : Nat} {history : List Event} {v : Json} (h : v ∈ arrived port history) :
    .arrive port v ∈ history := by
  simp only [arrived, List.mem_filterMap] at h
  obtain ⟨ev, hev, h⟩ := h
  cases ev with
  | arrive p w =>
    simp only [Option.ite_none_right_eq_some, Option.some.injEq] at h
    obtain ⟨rfl, rfl⟩ := h
    exact hev
  | call => cases h
  | disconnected => cases h

/-- The promise of a call to any program is settled. -/
theorem answered {short : Bool} {A M C : Type} [Methods M] [Calls M C] {w : World Json A Json M}
    (hw : Writable w) {before after : List Event} {m : Str} {a : Json}
    {skip : Nat} {pe cn posts : Bool} {p : Post}
    (hp : Posted before (.call m a skip pe cn posts) p)
    (hl : Linked short w (before ++ .call m a skip pe cn posts :: after))
    {s : State Bytes Bytes A Json M}
    (hr : Runs short w (sentTo p.port (before ++ .call m a skip pe cn posts :: after)) s
      (arrived p.port (before ++ .call m a skip pe cn posts :: after)))
    (hc : s.loop = .closed) (hb : s.broken = false) :
    ∃ o, (run (before ++ .call m a skip pe cn posts :: after)).calls[(run before).calls.length]? =
      some (some o) := by
  obtain ⟨rfl, -, -⟩ := posted_call hp
  have hpost' : postedBy (Js.run {} (before.map (·.js))) (.call m a skip pe cn true) = [p] := hp
  have hpost : (Js.run {} (before.map (·.js) ++ [.call skip pe cn true])).posted =
      (Js.run {} (before.map (·.js))).posted ++ [(p.port, p.id)] := by
    rw [Js.run_append]
    show (Js.step _ (Event.js (.call m a skip pe cn true))).posted = _
    rw [step_posted, hpost']
    rfl
  have hset := (Js.c50_settled (before.map (·.js)) (after.map (·.js)) skip pe cn hpost).1
  have hrun : run (before ++ .call m a skip pe cn true :: after) =
      Js.run {} (before.map (·.js) ++ .call skip pe cn true :: after.map (·.js)) := by
    simp [run, Event.js]
  have hset : (Js.run {} (before.map (·.js) ++ .call skip pe cn true :: after.map (·.js))).calls[(run before).calls.length]? = _ := hset
  rw [hrun, hset]
  -- the request and its reply
  have hin : p ∈ posted {} (before ++ .call m a skip pe cn true :: after) := by
    rw [posted_append]
    refine List.mem_append_right _ ?_
    rw [posted, hpost']
    simp
  have hmem : p.request ∈ sentTo p.port (before ++ .call m a skip pe cn true :: after) := by
    simp only [sentTo, List.mem_map, List.mem_filter, beq_iff_eq]
    exact ⟨p, ⟨hin, rfl⟩, rfl⟩
  obtain ⟨ks, hks, -, hall, hcomp⟩ := runs_replies hw hr
  obtain ⟨k, hk⟩ := List.getElem?_of_mem hmem
  have hkl := (List.getElem?_eq_some_iff.mp hk).1
  obtain ⟨i, hi⟩ := List.getElem?_of_mem (hcomp hc hb k hkl)
  have hil := (List.getElem?_eq_some_iff.mp hi).1
  rw [hks] at hil
  obtain ⟨r, b, hr', hans, hv⟩ := hall i k _ hi (List.getElem?_eq_getElem hil)
  rw [hk] at hr'
  obtain rfl := Option.some.inj hr'
  have harr := mem_arrived (List.getElem_mem hil)
  rw [hv] at harr
  -- it has come after the call
  have hafter : .arrive p.port (replyValue p.request.id b) ∈ after := by
    rcases List.mem_append.mp harr with h | h
    · obtain ⟨b1, b2, rfl⟩ := List.append_of_mem h
      rw [List.append_assoc] at hl
      obtain ⟨p', b', hp', -, -, he⟩ := linked_mem hw hl
      have hid : p'.id = p.id := by
        have h1 := congrArg response he
        rw [response_reply, response_reply] at h1
        have h2 : (some (Js.Value.num (p.id : Int))) = some (Js.Value.num (p'.id : Int)) := by
          have := congrArg (Option.map Js.Response.id) h1
          cases b <;> cases b' <;> exact this
        simpa using h2.symm
      have hn := Js.c50_ids ((b1 ++ .arrive p.port (replyValue p.request.id b) :: b2).map (·.js) ++
        [.call skip pe cn true])
      rw [hpost, run_posted] at hn
      simp only [List.nil_append, List.map_append, List.map_map, List.map_cons, List.map_nil] at hn
      have hn := (List.nodup_append.mp hn).2.2
      refine absurd ?_ (hn p'.id ?_ p.id (by simp))
      · simpa using hid
      · rw [posted_append, List.map_append]
        refine List.mem_append_left _ ?_
        exact List.mem_map.mpr ⟨p', hp', rfl⟩
    · rcases List.mem_cons.mp h with h | h
      · cases h
      · exact h
  have hjs : ∃ x, x.id = .num (p.id : Int) ∧ .message (some x) ∈ after.map (·.js) := by
    refine ⟨_, ?_, List.mem_map.mpr ⟨_, hafter, by rw [Event.js, response_reply]⟩⟩
    cases b <;> rfl
  obtain ⟨x, hx, hxm⟩ := hjs
  obtain ⟨o, ho⟩ := answer_some Js.Spec.verdict p.id hx hxm
  exact ⟨o, by rw [ho]⟩

/-- C70: when the backend of the port has answered all requests and its messages have come, the
promise has been settled. -/
theorem c70_answered {short : Bool} {e : Backend.Env} {before after : List Event} {m : Str} {a : Json}
    {skip : Nat} {pe cn posts : Bool} {p : Post}
    (hp : Posted before (.call m a skip pe cn posts) p)
    (hl : Linked short (Backend.world e) (before ++ .call m a skip pe cn posts :: after))
    {s : State Bytes Bytes Backend.Arg Json}
    (hr : Runs short (Backend.world e) (sentTo p.port (before ++ .call m a skip pe cn posts :: after)) s
      (arrived p.port (before ++ .call m a skip pe cn posts :: after)))
    (hc : s.loop = .closed) (hb : s.broken = false) :
    ∃ o, (run (before ++ .call m a skip pe cn posts :: after)).calls[(run before).calls.length]? =
      some (some o) :=
  answered (writable e) hp hl hr hc hb

/-! ### A concrete history -/

def exArg : Json := .obj [("file".toList, .str "b.txt".toList), ("lineNo".toList, .num 1)]

/-- A call and its reply. -/
def exHistory : List Event :=
  [.call "burl.visit".toList exArg 9 false true true,
   .arrive 0 (.obj [("id".toList, .num 9), ("result".toList, .bool true), ("error".toList, .null)])]

theorem example_runs : ∃ s, Runs true (Backend.world Backend.exTwo)
    [⟨some (.num 9), "burl.visit".toList, some (.arr [exArg])⟩] s
    [.obj [("id".toList, .num 9), ("result".toList, .bool true), ("error".toList, .null)]] ∧
    s.loop = .closed ∧ s.broken = false := by
  obtain ⟨n, s, h2, h3, h4, h5, h6, h7⟩ := example_visit
  obtain ⟨u, d, e1, e2, e3⟩ := reply_means true (p := ⟨some [57], .result (.bool true)⟩)
    (id := some (.num 9)) ⟨.num ⟨false, [57], [], none, false⟩, by decide +kernel, by
      rw [Means]; simp [numValue, decimal], by rw [Rpc.Spec.Json.Writes]; decide +kernel⟩
    (by rintro v h; cases h; exact whole_bool true)
  have hl : (replyText true ⟨some [57], .result (.bool true)⟩).length < 2 ^ 32 := by decide +kernel
  refine ⟨s, ⟨⟨_, _, _, _, h2, h3⟩, ?_, [u], ?_, ?_⟩, h4, h5⟩
  · rw [h6]
    intro p hp
    obtain rfl := List.mem_singleton.mp hp
    exact hl
  · rw [h6, written, Frame.c01_wire]
    · simp [e1]
    · intro m hm
      obtain rfl : m = _ := by simpa using hm
      exact hl
  · refine .cons ⟨⟨d, e2⟩, ?_, e3⟩ .nil
    rw [e1] at hl
    simpa using hl

/-- Hypotheses are met. -/
example : Posted [] (.call "burl.visit".toList exArg 9 false true true)
      ⟨0, 9, "burl.visit".toList, exArg⟩ ∧
    Linked true (Backend.world Backend.exTwo) exHistory ∧
    (∃ s, Runs true (Backend.world Backend.exTwo) (sentTo 0 exHistory) s (arrived 0 exHistory) ∧
      s.loop = .closed ∧ s.broken = false) ∧
    (run exHistory).calls = [some (.resolved (.bool true))] := by
  obtain ⟨s, h1, h2, h3⟩ := example_runs
  refine ⟨rfl, ?_, ⟨s, h1, h2, h3⟩, by decide +kernel⟩
  intro before port v after h
  cases before with
  | nil => cases h
  | cons x before =>
    cases before with
    | nil =>
      cases h
      exact ⟨s, _, h1, List.prefix_refl _⟩
    | cons y before =>
      simp [exHistory] at h

end Burl.Addon
