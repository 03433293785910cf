import Verif.JsonText.ClientCodecLemmas
import Verif.Rpc.ClientProps
import Verif.Rpc.EdgeProps
/-! A client in Go and a backend, from calls to their ends through bytes (C72). -/
namespace Burl.JsonText
open Burl
open Burl.Json (Json)
open Burl.Rpc.Spec (Blank Padded)
open Burl.Rpc.Server (Request Reply Body Answers Matched World Methods Calls)
open Burl.Rpc.Client (Message ErrField Outcome Numbered Tells)
open Burl.Frame.Spec (stream)
open Burl.Extract (All₂)
open Burl.JsonText.Spec

namespace Spec

/-- The request of a call as a value. -/
def asked (n : Nat) (c : Rpc.Client.Call Json Bytes) : Request Json Json :=
  ⟨some (.num n), c.method, some c.param⟩

/-- A client and a backend it is connected to by two pipes.  The backend has got a beginning of the
bytes written by the client, the client has got a beginning of the bytes written by the backend. -/
structure Joined {A M C : Type} [Methods M] [Calls M C] (short short' : Bool) (w : World Json A Json M)
    (s : Rpc.Client.State Json Bytes) (t : Rpc.Server.State Bytes Bytes A Json M) : Prop where
  client : Rpc.Client.Steps Rpc.Client.start s
  backend : ∃ data sched fin n, data <+: stream (s.sent.map (requestText short)) ∧
    Rpc.Server.Steps (textOf w) (Rpc.Server.start (requests ⟨data, sched, fin⟩)) n t
  replies : ∃ data sched fin, data <+: written short' t.out ∧ s.received <+: responses ⟨data, sched, fin⟩

/-- Limits: values are not nested too deep, requests and replies fit into frames, numbers of calls
fit into 64 bits. -/
structure Usual {A M : Type} (short short' : Bool) (s : Rpc.Client.State Json Bytes)
    (t : Rpc.Server.State Bytes Bytes A Json M) : Prop where
  calls : ∀ c ∈ s.calls, Plain 9999 c.param ∧ c.param ≠ .null
  numbers : s.seq ≤ 2 ^ 64
  requests : ∀ q ∈ s.sent, (requestText short q).length < 2 ^ 32
  results : ∀ p ∈ t.out, ∀ v, p.body = .result v → Plain 9999 v
  replies : ∀ p ∈ t.out, (replyText short' p).length < 2 ^ 32

end Spec

theorem sameRequest (short : Bool) {n : Nat} {c : Rpc.Client.Call Json Bytes} (h1 : Plain 9999 c.param)
    (h2 : c.param ≠ .null) : SameRequest (asRead short (c.request n)) (asked n c) := by
  refine ⟨rfl, ?_, ?_⟩
  · simp only [asRead, Rpc.Client.Call.request, Option.getD_some, asked]
    rw [rawField_some (c68_encode short h1) h2]
    exact c68_encode short h1
  · exact encNat_for n 9999

/-- Replies in the output with numbers of their calls. -/
theorem out_numbers {short short' : Bool}
    {A M C : Type} [Methods M] [Calls M C] {w : World Json A Json M} {s : Rpc.Client.State Json Bytes}
    {t : Rpc.Server.State Bytes Bytes A Json M} (h : Rpc.Client.Steps Rpc.Client.start s)
    {reqs : List (Request Bytes Bytes)} (hreq : reqs <+: s.sent.map (asRead short)) {n : Nat}
    (hs : Rpc.Server.Steps (textOf w) (Rpc.Server.start reqs) n t)
    (hu : Usual short short' s t) :
    ∃ out : List (Nat × Reply Bytes Json), out.map (·.2) = t.out ∧
      ∀ o ∈ out, ∃ i c, Numbered s i o.1 ∧ s.calls[i]? = some c ∧ o.2.id = some (encNat o.1) ∧
        Answers w (asked o.1 c) o.2.body := by
  obtain ⟨ks, hm⟩ := Rpc.Server.c59_replies hs
  have hone : ∀ p ∈ t.out, ∃ n i c, Numbered s i n ∧ s.calls[i]? = some c ∧ p.id = some (encNat n) ∧
      Answers w (asked n c) p.body := by
    intro p hp
    obtain ⟨j, hj⟩ := List.getElem?_of_mem hp
    have hjl := (List.getElem?_eq_some_iff.1 hj).1
    rw [← hm.length] at hjl
    obtain ⟨r, hr, hid, ha⟩ := hm.answers j _ p (List.getElem?_eq_getElem hjl) hj
    obtain ⟨q, hq, rfl⟩ := List.mem_map.1 (hreq.subset (List.mem_of_getElem? hr))
    obtain ⟨i, n, c, h1, h2, rfl⟩ := h.wire.sent q hq
    obtain ⟨h3, h4⟩ := hu.calls c (List.mem_of_getElem? h2)
    exact ⟨n, i, c, h1, h2, hid, answers_text (sameRequest short h3 h4) ha⟩
  clear hm hreq hs hu
  generalize t.out = out at hone
  induction out with
  | nil => exact ⟨[], rfl, fun o ho => by simp at ho⟩
  | cons p out ih =>
    obtain ⟨ps, h1, h2⟩ := ih fun p hp => hone p (List.mem_cons_of_mem _ hp)
    obtain ⟨n, i, c, h3⟩ := hone p (by simp)
    refine ⟨(n, p) :: ps, by simp [h1], fun o ho => ?_⟩
    rcases List.mem_cons.1 ho with rfl | ho
    · exact ⟨i, c, h3⟩
    · exact h2 o ho

theorem joined_out {short short' : Bool}
    {A M C : Type} [Methods M] [Calls M C] {w : World Json A Json M} {s : Rpc.Client.State Json Bytes}
    {t : Rpc.Server.State Bytes Bytes A Json M} (h : Joined short short' w s t)
    (hu : Usual short short' s t) :
    ∃ out : List (Nat × Reply Bytes Json), out.map (·.2) = t.out ∧
      ∀ o ∈ out, ∃ i c, Numbered s i o.1 ∧ s.calls[i]? = some c ∧ o.2.id = some (encNat o.1) ∧
        Answers w (asked o.1 c) o.2.body := by
  obtain ⟨data, sched, fin, n, hd, hs⟩ := h.backend
  exact out_numbers h.client (requests_beginning short (qs := s.sent) (fun q hq => by
    obtain ⟨i, n, c, -, h2, rfl⟩ := h.client.wire.sent q hq
    exact ⟨(hu.calls c (List.mem_of_getElem? h2)).1, hu.requests _ hq⟩) hd sched fin) hs hu

theorem written_eq (short : Bool) {out : List (Reply Bytes Json)}
    (h : ∀ p ∈ out, (replyText short p).length < 2 ^ 32) :
    written short out = stream (out.map (replyText short)) := by
  rw [written, Frame.c01_wire _ _ (by
    intro m hm
    obtain ⟨p, hp, rfl⟩ := List.mem_map.mp hm
    exact h p hp)]
  simp

theorem numbered_lt {s : Rpc.Client.State Json Bytes} (h : Rpc.Client.Steps Rpc.Client.start s) {i n : Nat}
    (hn : Numbered s i n) : n < s.seq := by
  have := (List.getElem?_eq_some_iff.1 hn).1
  rwa [h.inv.seq] at this

/-- What has been read with the number of a call is the answer to its request. -/
theorem joined_heard {short short' : Bool}
    {A M C : Type} [Methods M] [Calls M C] {w : World Json A Json M} {s : Rpc.Client.State Json Bytes}
    {t : Rpc.Server.State Bytes Bytes A Json M} (h : Joined short short' w s t)
    (hu : Usual short short' s t) {i n : Nat} {c : Rpc.Client.Call Json Bytes} {m : Message Bytes}
    (hc : s.calls[i]? = some c) (hn : Numbered s i n) (hm : m ∈ s.received) (hid : m.id = n) :
    ∃ b, m = Spec.heard short' n b ∧ Answers w (asked n c) b ∧
      ∀ v, b = .result v → Plain 9999 v := by
  obtain ⟨out, h1, h2⟩ := joined_out h hu
  obtain ⟨data, sched, fin, hd, hr⟩ := h.replies
  rw [written_eq short' hu.replies, ← h1, List.map_map] at hd
  have hb := responses_beginning short' (out := out) (fun o ho => by
    obtain ⟨i, c, h3, -, h4, -⟩ := h2 o ho
    have ho' : o.2 ∈ t.out := by rw [← h1]; exact List.mem_map.2 ⟨o, ho, rfl⟩
    exact ⟨Nat.lt_of_lt_of_le (numbered_lt h.client h3) hu.numbers, h4, hu.results _ ho',
      hu.replies _ ho'⟩) hd sched fin
  obtain ⟨o, ho, rfl⟩ := List.mem_map.1 (hb.subset (hr.subset hm))
  obtain ⟨i', c', h3, h4, -, h5⟩ := h2 o ho
  have hid' : o.1 = n := by
    rw [← hid]
    cases o.2.body <;> rfl
  rw [hid'] at h3 h5 ⊢
  have : i' = i := (Rpc.Client.c60_numbers h.client h3 hn).2 rfl
  subst this
  rw [hc] at h4
  injection h4 with h4
  subst h4
  exact ⟨_, rfl, h5, hu.results _ (by rw [← h1]; exact List.mem_map.2 ⟨o, ho, rfl⟩)⟩

theorem heard_mem {s : Rpc.Client.State Json Bytes} {n : Nat} {m : Message Bytes}
    (h : Rpc.Client.heard s n = some m) : m ∈ s.received ∧ m.id = n := by
  unfold Rpc.Client.heard at h
  rw [Option.bind_eq_some_iff] at h
  obtain ⟨d, -, hd⟩ := h
  exact ⟨List.mem_of_mem_drop (List.mem_of_find?_eq_some hd), by simpa using List.find?_some hd⟩

theorem joined_reply {short short' : Bool}
    {A M C : Type} [Methods M] [Calls M C] {w : World Json A Json M} {s : Rpc.Client.State Json Bytes}
    {t : Rpc.Server.State Bytes Bytes A Json M} (h : Joined short short' w s t)
    (hu : Usual short short' s t) {i : Nat} {c : Rpc.Client.Call Json Bytes} (hc : s.calls[i]? = some c)
    {x : Bytes} (ho : (i, .reply x) ∈ s.log) :
    ∃ n v, unmarshal x = some v ∧ Answers w (asked n c) (.result v) ∧ Plain 9999 v := by
  cases Rpc.Client.c60_outcome h.client ho with
  | told a b d k =>
    rename_i n c' m
    obtain ⟨hm, hid⟩ := heard_mem d
    obtain ⟨body, rfl, hans, hplain⟩ := joined_heard h hu hc a hm hid
    cases k with
    | result e1 e2 e3 =>
      cases body with
      | error msg => simp [Spec.heard] at e1
      | result v =>
        have hp := hplain v rfl
        refine ⟨n, v, ?_, hans, hp⟩
        cases v <;> simp only [Spec.heard, Spec.resultText, Option.some.injEq, reduceCtorEq] at e2 <;>
          (subst e2; exact c68_roundtrip short' (plain_mono _ _ _ (by omega) hp))

/-- C72: the result of a call is a text of what its own method returns for its own parameter, whatever
other calls are made, in whatever portions bytes go through the pipes, wherever they have been cut. -/
theorem c72_reply {short short' : Bool} {e : Backend.Env} {s : Rpc.Client.State Json Bytes}
    {t : Rpc.Server.State Bytes Bytes Backend.Arg Json} (h : Joined short short' (Backend.world e) s t)
    (hu : Usual short short' s t) {i : Nat} {c : Rpc.Client.Call Json Bytes} (hc : s.calls[i]? = some c)
    {x : Bytes} (ho : (i, .reply x) ∈ s.log) :
    ∃ n v, unmarshal x = some v ∧ Answers (Backend.world e) (asked n c) (.result v) ∧
      Backend.Spec.Right e (asked n c) v := by
  obtain ⟨n, v, h1, h2, -⟩ := joined_reply h hu hc ho
  exact ⟨n, v, h1, h2, Backend.right_of h2⟩

/-- The error of a call to any program. -/
theorem joined_error {short short' : Bool}
    {A M C : Type} [Methods M] [Calls M C] {w : World Json A Json M} {s : Rpc.Client.State Json Bytes}
    {t : Rpc.Server.State Bytes Bytes A Json M} (h : Joined short short' w s t)
    (hu : Usual short short' s t) {i : Nat} {c : Rpc.Client.Call Json Bytes} (hc : s.calls[i]? = some c)
    {msg : Str} (ho : (i, .server msg) ∈ s.log) :
    ∃ n, Answers w (asked n c) (.error msg) := by
  cases Rpc.Client.c60_outcome h.client ho with
  | told a b d k =>
    rename_i n c' m
    obtain ⟨hm, hid⟩ := heard_mem d
    obtain ⟨body, rfl, hans, -⟩ := joined_heard h hu hc a hm hid
    refine ⟨n, ?_⟩
    cases k with
    | error e1 e2 =>
      cases body with
      | result v => simp [Spec.heard] at e1
      | error msg' =>
        simp only [Spec.heard, ErrField.text.injEq] at e1
        subst e1
        exact hans
    | unspecified e1 =>
      cases body with
      | result v => simp [Spec.heard] at e1
      | error msg' =>
        simp only [Spec.heard, ErrField.text.injEq] at e1
        subst e1
        cases hans <;> contradiction

/-- C72: the error of a call is that of its own request. -/
theorem c72_error {short short' : Bool} {e : Backend.Env} {s : Rpc.Client.State Json Bytes}
    {t : Rpc.Server.State Bytes Bytes Backend.Arg Json} (h : Joined short short' (Backend.world e) s t)
    (hu : Usual short short' s t) {i : Nat} {c : Rpc.Client.Call Json Bytes} (hc : s.calls[i]? = some c)
    {msg : Str} (ho : (i, .server msg) ∈ s.log) :
    ∃ n, Answers (Backend.world e) (asked n c) (.error msg) :=
  joined_error h hu hc ho

/-! ### Answers arrive -/

theorem requests_one (short : Bool) {q : Request Nat Json} (hp : Plain 9999 (q.params.getD .null))
    (hl : (requestText short q).length ≤ 2 ^ 30) (sched : List Nat) (fin : Frame.SrcErr) :
    requests ⟨stream [requestText short q], sched, fin⟩ = [asRead short q] := by
  rw [requestText_eq, List.length_append] at hl
  have h := request_exact short hp Rpc.blank_nil
  rw [List.nil_append] at h
  have := Rpc.c08_last_partial Rpc.json (fun s => (request s).isSome) fin [] (requestBody short q) [10] sched
    (by simp) (request_completes short hp) (by simp [h]) hl
  rw [List.nil_append, List.nil_append, ← requestText_eq] at this
  rw [requests, this]
  simp [h]

theorem responses_one (short : Bool) {n : Nat} (hn : n < 2 ^ 64) {p : Reply Bytes Json}
    (hid : p.id = some (encNat n)) (hp : ∀ v, p.body = .result v → Plain 9999 v)
    (hl : (replyText short p).length ≤ 2 ^ 30) (sched : List Nat) (fin : Frame.SrcErr) :
    responses ⟨stream [replyText short p], sched, fin⟩ = [Spec.heard short n p.body] := by
  rw [replyText_eq, List.length_append] at hl
  have h := response_exact short hn hid hp Rpc.blank_nil
  rw [List.nil_append] at h
  have := Rpc.c08_last_partial Rpc.json (fun s => (response s).isSome) fin [] (replyBody short p) [10] sched
    (by simp) (reply_completes short hid hp) (by simp [h]) hl
  rw [List.nil_append, List.nil_append, ← replyText_eq] at this
  rw [responses, this]
  simp [h]

/-- C72: a client that makes a single call, as `burl_client` does, gets its answer whatever its size is
and in whatever portions bytes go through the pipes, provided that the backend has finished its work. -/
theorem c72_single (short short' : Bool) {e : Backend.Env} {c : Rpc.Client.Call Json Bytes} {n : Nat}
    (hp : Plain 9999 c.param) (hc : c.param ≠ .null) (hn : n < 2 ^ 64)
    (hl : (requestText short (c.request n)).length ≤ 2 ^ 30) {sched : List Nat} {fin : Frame.SrcErr} {k : Nat}
    {t : Rpc.Server.State Bytes Bytes Backend.Arg Json}
    (hs : Rpc.Server.Steps (textWorld e)
      (Rpc.Server.start (requests ⟨stream [requestText short (c.request n)], sched, fin⟩)) k t)
    (hend : t.loop = .closed) (hb : t.broken = false)
    (hout : ∀ p ∈ t.out, (replyText short' p).length ≤ 2 ^ 30 ∧ ∀ v, p.body = .result v → Plain 9999 v)
    (sched' : List Nat) (fin' : Frame.SrcErr) :
    ∃ b, Answers (Backend.world e) (asked n c) b ∧
      responses ⟨written short' t.out, sched', fin'⟩ = [Spec.heard short' n b] := by
  rw [requests_one short (q := c.request n) hp hl] at hs
  obtain ⟨ks, hm, hall⟩ := Rpc.Server.c59_complete hs hend hb
  have h0 : 0 ∈ ks := by
    rcases hall 0 _ rfl with h | ⟨v, -, h⟩
    · exact h
    · cases h
  have hz : ∀ k ∈ ks, k = 0 := by
    intro k hk
    obtain ⟨i, hi⟩ := List.getElem?_of_mem hk
    have hil := (List.getElem?_eq_some_iff.1 hi).1
    rw [hm.length] at hil
    obtain ⟨r, hr, -⟩ := hm.answers i k _ hi (List.getElem?_eq_getElem hil)
    have := (List.getElem?_eq_some_iff.1 hr).1
    simp only [List.length_singleton] at this
    omega
  have hks : ks = [0] := by
    match ks, h0, hz, hm.once with
    | [a], _, hz, _ => rw [hz a (by simp)]
    | a :: b :: ks, _, hz, ho =>
      have h1 := hz a (by simp)
      have h2 := hz b (by simp)
      subst h1 h2
      simp at ho
  have hlen := hm.length
  rw [hks] at hlen
  match hto : t.out, hlen with
  | [p], _ =>
    obtain ⟨r, hr, hid, hans⟩ := hm.answers 0 0 p (by rw [hks]; rfl) (by rw [hto]; rfl)
    simp only [List.getElem?_cons_zero, Option.some.injEq] at hr
    subst hr
    obtain ⟨h1, h2⟩ := hout p (by rw [hto]; simp)
    refine ⟨p.body, answers_text (sameRequest short hp hc) hans, ?_⟩
    rw [written_eq short' (out := [p]) (fun q hq => by
      simp only [List.mem_singleton] at hq; subst hq; omega)]
    exact responses_one short' hn hid h2 h1 sched' fin'

theorem small_map {α β : Type} (body : α → Bytes) (f : Bytes → Option β) (g : α → β) (qs : List α)
    (h : ∀ q ∈ qs, ∀ w, Blank w → f (w ++ body q) = some (g q))
    (hc : ∀ q ∈ qs, Rpc.Completes Rpc.json Rpc.json.start (body q) ∧ (body q).length + 1 ≤ 512)
    (fin : Frame.SrcErr) :
    (Rpc.session Rpc.json (fun s => (f s).isSome) ⟨stream (qs.map fun q => body q ++ [10]), [], fin⟩).1.filterMap f =
      qs.map g := by
  have he : (qs.map fun q => body q ++ [10]) = (qs.map fun q => (body q, ([10] : Bytes))).map
      fun m => m.1 ++ m.2 := by
    rw [List.map_map]; rfl
  rw [he, Rpc.c08_newline_small_partial _ fin _ (fun m hm => ?_)]
  · exact withLead_map body f g blank_newline qs h Rpc.blank_nil
  · obtain ⟨q, hq, rfl⟩ := List.mem_map.1 hm
    refine ⟨(hc q hq).1, by simp [Rpc.isSpace], fun w hw => ?_, by simpa using (hc q hq).2⟩
    rw [h q hq w (by
      intro b hb
      have := List.all_eq_true.1 hw b hb
      simp only [Rpc.isSpace, Bool.or_eq_true, beq_iff_eq] at this
      rcases this with ((h | h) | h) | h <;> simp [h])]
    rfl

theorem clear_map {α β : Type} (body : α → Bytes) (f : Bytes → Option β) (g : α → β) (qs : List α)
    (h : ∀ q ∈ qs, ∀ w, Blank w → f (w ++ body q) = some (g q))
    (hc : ∀ q ∈ qs, Rpc.Completes Rpc.json Rpc.json.start (body q) ∧ (body q).length + 1 ≤ 2 ^ 30 ∧
      ¬Rpc.Spec.Edge (body q).length ∧ ¬Rpc.Spec.Edge ((body q).length + 1))
    (fin : Frame.SrcErr) :
    (Rpc.session Rpc.json (fun s => (f s).isSome) ⟨stream (qs.map fun q => body q ++ [10]), [], fin⟩).1.filterMap f =
      qs.map g := by
  have he : (qs.map fun q => body q ++ [10]) = (qs.map fun q => (body q, ([10] : Bytes))).map
      fun m => m.1 ++ m.2 := by
    rw [List.map_map]; rfl
  rw [he, Rpc.c08_clear_partial _ fin _ (fun m hm => ?_) (Rpc.clear_newline (by omega) fun m hm => ?_)]
  · exact withLead_map body f g blank_newline qs h Rpc.blank_nil
  · obtain ⟨q, hq, rfl⟩ := List.mem_map.1 hm
    refine ⟨(hc q hq).1, by simp [Rpc.isSpace], fun w hw => ?_, by simpa using (hc q hq).2.1⟩
    rw [h q hq w (by
      intro b hb
      have := List.all_eq_true.1 hw b hb
      simp only [Rpc.isSpace, Bool.or_eq_true, beq_iff_eq] at this
      rcases this with ((h | h) | h) | h <;> simp [h])]
    rfl
  · obtain ⟨q, hq, rfl⟩ := List.mem_map.1 hm
    exact ⟨rfl, (hc q hq).2.2⟩

/-- Messages with such texts and newlines after them are read if a pipe does not split frames. -/
def Reads (P : Bytes → Prop) : Prop :=
  ∀ (α β : Type) (body : α → Bytes) (f : Bytes → Option β) (g : α → β) (qs : List α),
    (∀ q ∈ qs, ∀ w, Blank w → f (w ++ body q) = some (g q)) →
    (∀ q ∈ qs, Rpc.Completes Rpc.json Rpc.json.start (body q) ∧ P (body q)) → ∀ fin : Frame.SrcErr,
    (Rpc.session Rpc.json (fun s => (f s).isSome) ⟨stream (qs.map fun q => body q ++ [10]), [], fin⟩).1.filterMap f =
      qs.map g

theorem heard_all {P : Bytes → Prop} (hP : Reads P) (short short' : Bool)
    {A M C : Type} [Methods M] [Calls M C] {w : World Json A Json M}
    (henc : ∀ v, w.encodes v = true) {s : Rpc.Client.State Json Bytes}
    (h : Rpc.Client.Steps Rpc.Client.start s) {fin fin' : Frame.SrcErr} {k : Nat}
    {t : Rpc.Server.State Bytes Bytes A Json M}
    (hs : Rpc.Server.Steps (textOf w)
      (Rpc.Server.start (requests ⟨stream (s.sent.map (requestText short)), [], fin⟩)) k t)
    (hu : Usual short short' s t) (hend : t.loop = .closed) (hb : t.broken = false)
    (hreq : ∀ q ∈ s.sent, P (requestBody short q))
    (hrep : ∀ p ∈ t.out, P (replyBody short' p)) :
    ∀ i n c, Numbered s i n → s.calls[i]? = some c → s.pc i = .sent → i ∉ s.bad →
      ∃ b, Answers w (asked n c) b ∧
        Spec.heard short' n b ∈ responses ⟨written short' t.out, [], fin'⟩ := by
  intro i n c hn hc hpc hbad
  have hsent := (Rpc.Client.c60_requests h).2.2 i n c hn hc hpc hbad
  have hreqs : requests ⟨stream (s.sent.map (requestText short)), [], fin⟩ = s.sent.map (asRead short) := by
    have := hP _ _ (requestBody short) request (asRead short) s.sent
      (fun q hq w hw => by
        obtain ⟨i, n, c, -, h2, rfl⟩ := h.wire.sent q hq
        exact request_exact short (q := c.request n) (hu.calls c (List.mem_of_getElem? h2)).1 hw)
      (fun q hq => by
        have hl := hreq q hq
        obtain ⟨i, n, c, -, h2, rfl⟩ := h.wire.sent q hq
        exact ⟨request_completes short (q := c.request n) (hu.calls c (List.mem_of_getElem? h2)).1, hl⟩) fin
    rw [requests, List.map_congr_left (g := fun q => requestBody short q ++ [10])
      (fun q _ => requestText_eq short q)]
    exact this
  rw [hreqs] at hs
  obtain ⟨out, h1, h2⟩ := out_numbers h (List.prefix_refl _) hs hu
  have hmem : ∀ o ∈ out, o.2 ∈ t.out := fun o ho => by rw [← h1]; exact List.mem_map.2 ⟨o, ho, rfl⟩
  have hres : responses ⟨written short' t.out, [], fin'⟩ = out.map fun o => Spec.heard short' o.1 o.2.body := by
    have := hP _ _ (fun o : Nat × Reply Bytes Json => replyBody short' o.2) response
      (fun o => Spec.heard short' o.1 o.2.body) out
      (fun o ho w hw => by
        obtain ⟨i, c, h3, -, h4, -⟩ := h2 o ho
        exact response_exact short' (Nat.lt_of_lt_of_le (numbered_lt h h3) hu.numbers) h4
          (hu.results _ (hmem o ho)) hw)
      (fun o ho => by
        have hl := hrep _ (hmem o ho)
        obtain ⟨i, c, h3, -, h4, -⟩ := h2 o ho
        exact ⟨reply_completes short' h4 (hu.results _ (hmem o ho)), hl⟩) fin'
    have he : t.out.map (replyText short') = out.map fun o => replyBody short' o.2 ++ [10] := by
      rw [← h1, List.map_map]
      exact List.map_congr_left fun o _ => replyText_eq short' o.2
    rw [responses, written_eq short' hu.replies, he]
    exact this
  obtain ⟨ks, hm, hall⟩ := Rpc.Server.c59_complete hs hend hb
  obtain ⟨j, hj⟩ := List.getElem?_of_mem hsent
  have hj' : (s.sent.map (asRead short))[j]? = some (asRead short (c.request n)) := by
    rw [List.getElem?_map, hj]; rfl
  have hjk : j ∈ ks := by
    rcases hall j _ hj' with h | ⟨v, -, h⟩
    · exact h
    · rw [show (textOf w).encodes v = w.encodes v from rfl, henc] at h; cases h
  obtain ⟨l, hl⟩ := List.getElem?_of_mem hjk
  have hll := (List.getElem?_eq_some_iff.1 hl).1
  rw [hm.length] at hll
  obtain ⟨r, hr, hid, hans⟩ := hm.answers l j _ hl (List.getElem?_eq_getElem hll)
  rw [hj'] at hr
  injection hr with hr
  subst hr
  obtain ⟨h3, h4⟩ := hu.calls c (List.mem_of_getElem? hc)
  refine ⟨_, answers_text (sameRequest short h3 h4) hans, ?_⟩
  have hp := List.getElem_mem hll
  generalize t.out[l] = p at hp hid
  rw [← h1] at hp
  obtain ⟨o, ho, rfl⟩ := List.mem_map.1 hp
  rw [hres]
  refine List.mem_map.2 ⟨o, ho, ?_⟩
  obtain ⟨i', c', -, -, h5, -⟩ := h2 o ho
  rw [hid] at h5
  have : encNat n = encNat o.1 := by simpa [asRead, Rpc.Client.Call.request] using h5
  rw [← decimal_encNat o.1, ← this, decimal_encNat]

/-- C72, for requests and replies that do not exceed 512 bytes with their newlines, if pipes do not
split frames: every request is answered and all answers are read. -/
theorem c72_small_partial (short short' : Bool) {e : Backend.Env} {s : Rpc.Client.State Json Bytes}
    (h : Rpc.Client.Steps Rpc.Client.start s) {fin fin' : Frame.SrcErr} {k : Nat}
    {t : Rpc.Server.State Bytes Bytes Backend.Arg Json}
    (hs : Rpc.Server.Steps (textWorld e)
      (Rpc.Server.start (requests ⟨stream (s.sent.map (requestText short)), [], fin⟩)) k t)
    (hu : Usual short short' s t) (hend : t.loop = .closed) (hb : t.broken = false)
    (hreq : ∀ q ∈ s.sent, (requestText short q).length ≤ 512)
    (hrep : ∀ p ∈ t.out, (replyText short' p).length ≤ 512) :
    ∀ i n c, Numbered s i n → s.calls[i]? = some c → s.pc i = .sent → i ∉ s.bad →
      ∃ b, Answers (Backend.world e) (asked n c) b ∧
        Spec.heard short' n b ∈ responses ⟨written short' t.out, [], fin'⟩ :=
  heard_all (P := fun x => x.length + 1 ≤ 512) (fun _ _ body f g qs h hc fin => small_map body f g qs h hc fin) short short' (fun _ => rfl) h hs hu hend hb
    (fun q hq => by have := hreq q hq; rw [requestText_eq, List.length_append] at this; exact this)
    (fun p hp => by have := hrep p hp; rw [replyText_eq, List.length_append] at this; exact this)

/-- Lengths of texts with newlines that never end a session: neither the text nor the value in it has
a size of the buffer of the decoder. -/
def Spec.Fits (n : Nat) : Prop := n ≤ 2 ^ 30 ∧ ¬Rpc.Spec.Edge n ∧ ¬Rpc.Spec.Edge (n - 1)

/-- C72, for requests and replies of other lengths, if pipes do not split frames: every request is
answered and all answers are read.  Missing: lengths that are sizes of the buffer, see `c72_violation`,
and frames that arrive in parts. -/
theorem c72_clear_partial (short short' : Bool) {e : Backend.Env} {s : Rpc.Client.State Json Bytes}
    (h : Rpc.Client.Steps Rpc.Client.start s) {fin fin' : Frame.SrcErr} {k : Nat}
    {t : Rpc.Server.State Bytes Bytes Backend.Arg Json}
    (hs : Rpc.Server.Steps (textWorld e)
      (Rpc.Server.start (requests ⟨stream (s.sent.map (requestText short)), [], fin⟩)) k t)
    (hu : Usual short short' s t) (hend : t.loop = .closed) (hb : t.broken = false)
    (hreq : ∀ q ∈ s.sent, Spec.Fits (requestText short q).length)
    (hrep : ∀ p ∈ t.out, Spec.Fits (replyText short' p).length) :
    ∀ i n c, Numbered s i n → s.calls[i]? = some c → s.pc i = .sent → i ∉ s.bad →
      ∃ b, Answers (Backend.world e) (asked n c) b ∧
        Spec.heard short' n b ∈ responses ⟨written short' t.out, [], fin'⟩ :=
  have key : ∀ x : Bytes, Spec.Fits (x ++ [10]).length → x.length + 1 ≤ 2 ^ 30 ∧ ¬Rpc.Spec.Edge x.length ∧
      ¬Rpc.Spec.Edge (x.length + 1) := by
    rintro x ⟨h1, h2, h3⟩
    simp only [List.length_append, List.length_singleton, Nat.add_sub_cancel] at h1 h2 h3
    exact ⟨h1, h3, h2⟩
  heard_all (P := fun x => x.length + 1 ≤ 2 ^ 30 ∧ ¬Rpc.Spec.Edge x.length ∧ ¬Rpc.Spec.Edge (x.length + 1))
    (fun _ _ body f g qs h hc fin => clear_map body f g qs h hc fin) short short' (fun _ => rfl) h hs hu hend hb
    (fun q hq => by have := hreq q hq; rw [requestText_eq] at this; exact key _ this)
    (fun p hp => by have := hrep p hp; rw [replyText_eq] at this; exact key _ this)

/-- C72 does not hold in general: after a reply of 512 bytes its newline is left in the frame, and the
client does not read the next reply. -/
theorem c72_violation (short : Bool) {n : Nat} (hn : n < 2 ^ 64) {p : Reply Bytes Json}
    (hid : p.id = some (encNat n)) (hp : ∀ v, p.body = .result v → Plain 9999 v)
    (hl : (replyText short p).length = 513) (more : List (Reply Bytes Json))
    (hm : ∀ q ∈ more, (replyText short q).length < 2 ^ 32) (fin : Frame.SrcErr) :
    responses ⟨written short (p :: more), [], fin⟩ = [Spec.heard short n p.body] := by
  have h := response_exact short hn hid hp Rpc.blank_nil
  rw [List.nil_append] at h
  have hv := Rpc.c08_violation (fun s => (response s).isSome) fin (replyBody short p) [10]
    (stream (more.map (replyText short))) (reply_completes short hid hp) (by simp [h])
    (by rw [replyText_eq, List.length_append] at hl; simpa using hl) (by simp) (by simp)
  rw [written_eq short (out := p :: more) (by
    intro q hq
    rcases List.mem_cons.1 hq with rfl | hq
    · omega
    · exact hm q hq), responses]
  have : stream ((p :: more).map (replyText short)) =
      Frame.Spec.frame (replyBody short p ++ [10]) ++ stream (more.map (replyText short)) := by
    rw [List.map_cons, replyText_eq]
    simp [stream]
  rw [this, hv]
  simp [h]

/-! ### A concrete run -/

mutual
/-- `Plain` by computation. -/
def plain? : Nat → Json → Bool
  | _, .null => true
  | _, .bool _ => true
  | _, .num _ => true
  | _, .real _ => false
  | _, .str _ => true
  | 0, .arr _ => false
  | 0, .obj _ => false
  | d + 1, .arr vs => allPlain? d vs
  | d + 1, .obj ms => membersPlain? d ms
def allPlain? : Nat → List Json → Bool
  | _, [] => true
  | d, v :: vs => plain? d v && allPlain? d vs
def membersPlain? : Nat → List (Str × Json) → Bool
  | _, [] => true
  | d, m :: ms => plain? d m.2 && membersPlain? d ms
end

mutual
theorem plain_of : ∀ (d : Nat) (v : Json), plain? d v = true → Plain d v
  | _, .null, _ => by simp [Plain]
  | _, .bool _, _ => by simp [Plain]
  | _, .num _, _ => by simp [Plain]
  | _, .str _, _ => by simp [Plain]
  | 0, .arr _, h => by simp [plain?] at h
  | 0, .obj _, h => by simp [plain?] at h
  | _, .real _, h => by simp [plain?] at h
  | d + 1, .arr vs, h => by
    rw [plain?] at h
    rw [Plain]
    exact allPlain_of d vs h
  | d + 1, .obj ms, h => by
    rw [plain?] at h
    rw [Plain]
    exact membersPlain_of d ms h
theorem allPlain_of : ∀ (d : Nat) (vs : List Json), allPlain? d vs = true → AllPlain d vs
  | _, [], _ => by simp [AllPlain]
  | d, v :: vs, h => by
    rw [allPlain?, Bool.and_eq_true] at h
    exact ⟨plain_of d v h.1, allPlain_of d vs h.2⟩
theorem membersPlain_of : ∀ (d : Nat) (ms : List (Str × Json)), membersPlain? d ms = true → MembersPlain d ms
  | _, [], _ => by simp [MembersPlain]
  | d, m :: ms, h => by
    rw [membersPlain?, Bool.and_eq_true] at h
    exact ⟨plain_of d m.2 h.1, membersPlain_of d ms h.2⟩
end

/-- A call that has been answered. -/
theorem one_call {P R : Type} (c : Rpc.Client.Call P R) (x : R) (h : c.accepts x = true) :
    ∃ s : Rpc.Client.State P R, Rpc.Client.Steps Rpc.Client.start s ∧ s.calls = [c] ∧
      s.sent = [c.request 0] ∧ s.received = [⟨0, some x, .absent⟩] ∧ s.log = [(0, .reply x)] ∧ s.seq = 1 ∧
      Numbered s 0 0 ∧ s.pc 0 = .sent ∧ s.bad = [] := by
  have h0 := (Rpc.Client.Steps.refl (s := (Rpc.Client.start : Rpc.Client.State P R))).step (.call c)
  have h0 := h0.step (.lock (i := 0) rfl rfl)
  have h0 := h0.step (.register (i := 0) rfl rfl)
  have h0 := h0.step (.write (i := 0) (n := 0) (c := c) rfl rfl)
  have h0 := h0.step (.unlock (i := 0) rfl)
  have h0 := h0.step (.receive (e := []) ⟨0, some x, .absent⟩ rfl rfl)
  have h0 := h0.step (.reply (i := 0) (v := x) (c := c) rfl rfl h)
  exact ⟨_, h0, rfl, rfl, rfl, rfl, rfl, by unfold Numbered; rfl, rfl, rfl⟩

/-- A call to open a file. -/
def exCall : Rpc.Client.Call Json Bytes :=
  ⟨"burl.visit".toList, exParams, fun _ => true⟩

theorem exCall_plain : Plain 9999 exCall.param := by
  show Plain 9999 exParams
  simp [exParams, Plain, AllPlain, MembersPlain]

theorem exCall_some : exCall.param ≠ .null := by
  show exParams ≠ .null
  simp [exParams]

/-- A call is made, the request goes to the backend in any portions, a method returns, the reply goes to
the client in any portions, the client gets its result. -/
theorem joined_one (short short' : Bool) {e : Backend.Env} {c : Rpc.Client.Call Json Bytes} {meth : Rpc.Method}
    {arg : Backend.Arg} {v : Json} (h1 : Rpc.dispatch c.method = .ok meth)
    (h2 : Backend.argument meth c.param = some arg) (h3 : Backend.Returns e meth arg v none)
    (hp : Plain 9999 c.param) (hn : c.param ≠ .null) (hv : Plain 9999 v) (hvn : v ≠ .null)
    (ha : c.accepts (enc short' v) = true) (hl : (requestText short (c.request 0)).length ≤ 2 ^ 30)
    (hl' : (replyText short' ⟨some (encNat 0), .result v⟩).length ≤ 2 ^ 30) (sched sched' : List Nat) :
    ∃ s t k, Rpc.Client.Steps Rpc.Client.start s ∧
      Rpc.Server.Steps (textWorld e)
        (Rpc.Server.start (requests ⟨stream (s.sent.map (requestText short)), sched, .eof⟩)) k t ∧
      t.loop = .closed ∧ t.broken = false ∧ s.received = responses ⟨written short' t.out, sched', .eof⟩ ∧
      Joined short short' (Backend.world e) s t ∧ Usual short short' s t ∧ s.calls = [c] ∧ s.sent = [c.request 0] ∧
      t.out = [⟨some (encNat 0), .result v⟩] ∧
      Numbered s 0 0 ∧ s.pc 0 = .sent ∧ s.bad = [] ∧ s.log = [(0, .reply (enc short' v))] := by
  obtain ⟨s, hs, s1, s2, s3, s4, s5, s6, s7, s8⟩ := one_call c (enc short' v) ha
  have hq := requests_one short (q := c.request 0) hp hl sched .eof
  have hprep : Rpc.Server.prepare (textWorld e) (asRead short (c.request 0)) = .ok (meth, arg) := by
    have hx : (asRead short (c.request 0)).params = some (enc short c.param) :=
      rawField_some (c68_encode short hp) hn
    have hu := c68_roundtrip short (plain_mono _ _ 10000 (by omega) hp)
    have hm : (asRead short (c.request 0)).method = c.method := rfl
    simp only [Rpc.Server.prepare, Rpc.Server.Methods.find, hm, h1, hx, textWorld, textOf, hu, Backend.world, h2]
  obtain ⟨k, t, g1, g2, g3, g4⟩ := one_request hprep h3 rfl
  have g4 : t.out = [⟨some (encNat 0), .result v⟩] := g4
  have hrl : ∀ p ∈ t.out, (replyText short' p).length ≤ 2 ^ 30 := by
    rw [g4]; intro p hp; simp only [List.mem_singleton] at hp; subst hp; exact hl'
  have hpl : ∀ p ∈ t.out, ∀ v, p.body = .result v → Plain 9999 v := by
    rw [g4]
    intro p hp w hw
    simp only [List.mem_singleton] at hp
    subst hp
    injection hw with hw
    subst hw
    exact hv
  have hr : responses ⟨written short' t.out, sched', .eof⟩ = [⟨0, some (enc short' v), .absent⟩] := by
    rw [written_eq short' (fun p hp => Nat.lt_of_le_of_lt (hrl p hp) (by omega)), g4]
    refine (responses_one short' (n := 0) (p := ⟨some (encNat 0), .result v⟩) (by omega) rfl
      (hpl _ (by rw [g4]; simp)) hl' sched' .eof).trans ?_
    cases v <;> simp_all [Spec.heard, Spec.resultText]
  have hst : Rpc.Server.Steps (textWorld e)
        (Rpc.Server.start (requests ⟨stream (s.sent.map (requestText short)), sched, .eof⟩)) k t := by
    rw [s2, List.map_singleton, hq]; exact g1
  refine ⟨s, t, k, hs, hst, g2, g3, by rw [s3, hr], ?_, ?_, s1, s2, g4, s6, s7, s8, s4⟩
  · refine ⟨hs, ⟨_, sched, .eof, k, List.prefix_refl _, hst⟩, ⟨_, sched', .eof, List.prefix_refl _, ?_⟩⟩
    rw [hr, s3]; exact List.prefix_refl _
  · refine ⟨?_, by rw [s5]; omega, ?_, hpl, fun p hp => Nat.lt_of_le_of_lt (hrl p hp) (by omega)⟩
    · rw [s1]
      intro c' hc
      simp only [List.mem_singleton] at hc
      subst hc
      exact ⟨hp, hn⟩
    · rw [s2]
      intro q hq
      simp only [List.mem_singleton] at hq
      subst hq
      exact Nat.lt_of_le_of_lt hl (by omega)

/-- Hypotheses of theorems are met: a command is run for a line of a file. -/
theorem example_call (sched sched' : List Nat) : ∃ s t k,
    Rpc.Client.Steps Rpc.Client.start s ∧
    Rpc.Server.Steps (textWorld Backend.exTwo)
      (Rpc.Server.start (requests ⟨stream (s.sent.map (requestText true)), sched, .eof⟩)) k t ∧
    t.loop = .closed ∧ t.broken = false ∧ s.received = responses ⟨written true t.out, sched', .eof⟩ ∧
    Joined true true (Backend.world Backend.exTwo) s t ∧ Usual true true s t ∧ s.calls = [exCall] ∧
    Numbered s 0 0 ∧ s.pc 0 = .sent ∧ s.bad = [] ∧
    (∀ q ∈ s.sent, (requestText true q).length ≤ 512) ∧ (∀ p ∈ t.out, (replyText true p).length ≤ 512) ∧
    s.log = [(0, .reply ("true".toList.flatMap putRune))] := by
  have hl : (requestText true (exCall.request 0)).length ≤ 512 := by decide +kernel
  have hl' : (replyText true ⟨some (encNat 0), .result (.bool true)⟩).length ≤ 512 := by decide +kernel
  obtain ⟨s, t, k, h1, h2, h3, h4, h5, h6, h7, h8, h9, h10, h11, h12, h13, h14⟩ :=
    joined_one true true (c := exCall) (meth := .visit) (v := .bool true) (by rfl) (by rfl) Backend.exVisit
      exCall_plain exCall_some (by simp [Plain]) (by simp) rfl (Nat.le_trans hl (by omega))
      (Nat.le_trans hl' (by omega)) sched sched'
  refine ⟨s, t, k, h1, h2, h3, h4, h5, h6, h7, h8, h11, h12, h13, ?_, ?_, h14⟩
  · rw [h9]; intro q hq; simp only [List.mem_singleton] at hq; subst hq; exact hl
  · rw [h10]; intro q hq; simp only [List.mem_singleton] at hq; subst hq; exact hl'

/-- Hypotheses of `c72_violation`. -/
example : ∃ p : Reply Bytes Json, p.id = some (encNat 0) ∧
    (∀ v, p.body = .result v → Plain 9999 v) ∧ (replyText true p).length = 513 := by
  refine ⟨⟨some (encNat 0), .result (.str (List.replicate 479 'a'))⟩, rfl, ?_, by decide +kernel⟩
  intro v hv
  injection hv with hv
  subst hv
  simp [Plain]

end Burl.JsonText
