import Verif.Rpc.SendingLemmas
import Verif.Rpc.JsonLemmas
import Verif.Rpc.Dispatch
import Verif.Frame.Props
/-! Property theorems C07, C08, C09. -/
namespace Burl.Rpc
open Burl.Frame Burl.Frame.Spec Burl.Rpc.Spec

/-! ### C07: concurrent replies -/

/-- C07: in every state reachable under any schedule, while the pipe is intact, the wire holds
the complete frames of the finished calls, in the order in which they obtained the sending
lock, followed by an initial part of the frame of the call holding the lock (nothing if the
lock is free). -/
theorem c07_no_interleaving (msgs : Nat → Option Bytes) (s : State) (h : Reach msgs s)
    (hb : s.broken = false) :
    ∃ finished tail, s.out = wire msgs finished ++ tail ∧
      (∀ i, i ∈ finished ↔ s.pc i = .done) ∧
      (s.lock = none → tail = [] ∧ s.order = finished) ∧
      (∀ i, s.lock = some i → s.order = finished ++ [i] ∧ tail <+: wireOf msgs i) := by
  have hi := h.inv
  cases hl : s.lock with
  | none =>
    refine ⟨s.order, [], by simp [hi.freeWire hl hb], fun i => ((hi.free hl).2.2 i).symm, ?_, ?_⟩
    · intro _; exact ⟨rfl, rfl⟩
    · intro i h; simp at h
  | some i =>
    obtain ⟨l, ho, _, hd⟩ := hi.held i hl
    obtain ⟨tail, h1, h2⟩ := hi.heldWire i l hl hb ho
    refine ⟨l, tail, h1, fun j => (hd j).symm, by simp, ?_⟩
    intro j hj
    simp only [Option.some.injEq] at hj; subst hj
    exact ⟨ho, h2.prefix⟩

/-- C07: even if the pipe breaks at an arbitrary moment, the wire is a prefix of the frames in
locking order, so no reply is ever mixed with another one; no call gets the lock twice. -/
theorem c07_broken_pipe (msgs : Nat → Option Bytes) (s : State) (h : Reach msgs s) :
    s.order.Nodup ∧ s.out <+: wire msgs s.order := by
  have hi := h.inv
  refine ⟨hi.nodup, ?_⟩
  cases hb : s.broken with
  | true => exact hi.brokenWire hb
  | false =>
    obtain ⟨f, t, h1, _, h3, h4⟩ := c07_no_interleaving msgs s h hb
    cases hl : s.lock with
    | none => obtain ⟨e1, e2⟩ := h3 hl; rw [h1, e1, e2]; simp
    | some i =>
      obtain ⟨e1, e2⟩ := h4 i hl
      rw [h1, e1, wire_append, wire_single]
      exact (List.prefix_append_right_inj _).mpr e2

/-- C07: once all calls have finished, the browser decodes exactly their replies. -/
theorem c07_browser_sees (msgs : Nat → Option Bytes) (s : State) (h : Reach msgs s)
    (hb : s.broken = false) (hl : s.lock = none)
    (hsize : ∀ i m, i ∈ s.order → msgs i = some m → m.length ≤ 2 ^ 30)
    (bufs sched : List Nat) :
    recvAll bufs ⟨s.out, sched, .eof⟩ = (s.order.filterMap msgs, .header (.src .eof)) := by
  have ho : s.out = stream (s.order.filterMap msgs) := by
    rw [h.inv.freeWire hl hb]
    generalize s.order = l
    induction l with
    | nil => rfl
    | cons i l ih =>
      have : wire msgs (i :: l) = wireOf msgs i ++ wire msgs l := by simp [wire]
      rw [this, ih, List.filterMap_cons]
      cases hm : msgs i with
      | none => simp [wireOf, replyWire, hm]
      | some m => simp [wireOf, replyWire, hm, stream]
  have hsz : ∀ m ∈ s.order.filterMap msgs, m.length ≤ 2 ^ 30 := by
    intro m hm
    obtain ⟨i, hi, him⟩ := List.mem_filterMap.mp hm
    exact hsize i m hi him
  have := c01_roundtrip (s.order.filterMap msgs) sched bufs
    (fun m hm => by simpa [maxInSize] using hsz m hm)
  rw [c01_wire _ [] (fun m hm => by have := hsz m hm; omega)] at this
  rw [ho]
  simpa using this

/-- Non-vacuity: a schedule in which the second call waits while the first one has only written
part of its header. -/
example : ∃ s, Reach (fun i => some [UInt8.ofNat i, 7]) s ∧ s.lock = some 1 ∧
    s.pc 0 = .waiting ∧ s.out = [2, 0] := by
  have m := fun i : Nat => some [UInt8.ofNat i, 7]
  refine ⟨_, .step (.step (.step (.step .init (.acquire _ 1 rfl rfl)) (.encode _ 1 _ rfl rfl))
    (.enter _ 1 rfl)) (.headerChunk _ 1 _ 2 rfl rfl (by decide)), rfl, rfl, by decide⟩

/-! ### C08: the session goes on -/

theorem serve_exact {σ : Type} (sc : Scanner σ) (accept : Bytes → Bool) (fin : SrcErr)
    (ms : List Bytes) (fuel cap : Nat) (sched : List Nat)
    (hm : ∀ m ∈ ms, Completes sc sc.start m ∧ accept m = true ∧ m.length ≤ maxInSize)
    (hf : ms.length < fuel) :
    serve sc accept fuel ⟨[], cap⟩ ⟨⟨stream ms, sched, fin⟩, 0⟩ = (ms, .header (.src fin)) := by
  induction ms generalizing fuel cap sched with
  | nil =>
    match fuel, hf with
    | fuel + 1, _ =>
    obtain ⟨s', hh⟩ := readHeader_short ⟨⟨stream [], sched, fin⟩, 0⟩ rfl (by simp [stream])
    unfold serve
    simp only [hh]
    simp [stream, shortErr]
  | cons m ms ih =>
    match fuel, hf with
    | fuel + 1, hf =>
    obtain ⟨h1, h2, h3⟩ := hm m (by simp)
    have hstream : stream (m :: ms) = le32 m.length ++ (m ++ stream ms) := by
      simp [stream, frame]
    have hm30 : maxInSize = 1073741824 := by decide
    obtain ⟨s', hh⟩ := readHeader_ok ⟨⟨stream (m :: ms), sched, fin⟩, 0⟩ rfl m.length
      (m ++ stream ms) (by omega) hstream
    rw [if_neg (by omega)] at hh
    obtain ⟨i, sched', cap', i1, i2, i3, _⟩ := readValue_spec sc m [] (stream ms) m.length
      (m.length + 3) sc.start [] m 0 cap s' fin rfl h1 (by simp) (by simp) (by simp)
      (by omega) (by simp)
    have hi : i = 0 := by simpa using i1
    subst hi
    simp at i3
    unfold serve
    simp only [hh]
    rw [i3]
    simp only [h2, if_true]
    rw [ih fuel cap' sched' (fun m' hm' => hm m' (by simp [hm'])) (by simpa using hf)]

/-- C08 (positive part, any decoder): if every frame holds exactly one complete value - nothing
after its last byte - then whatever chunks the pipe delivers and the decoder requests, the
session serves every request, in order, and ends only with the input. -/
theorem c08_session_partial {σ : Type} (sc : Scanner σ) (accept : Bytes → Bool) (fin : SrcErr)
    (ms : List Bytes) (sched : List Nat)
    (hm : ∀ m ∈ ms, Completes sc sc.start m ∧ accept m = true ∧ m.length ≤ 2 ^ 30) :
    session sc accept ⟨stream ms, sched, fin⟩ = (ms, .header (.src fin)) := by
  unfold session
  apply serve_exact
  · intro m h; have := hm m h; exact ⟨this.1, this.2.1, by simpa [maxInSize] using this.2.2⟩
  · have : ms.length ≤ (stream ms).length := by
      clear hm
      induction ms with
      | nil => simp
      | cons m ms ih => simp [stream, frame, le32] at ih ⊢; omega
    simp only; omega

theorem serve_last {σ : Type} (sc : Scanner σ) (accept : Bytes → Bool) (fin : SrcErr)
    (ms : List Bytes) (v t : Bytes) (fuel cap : Nat) (sched : List Nat)
    (hm : ∀ m ∈ ms, Completes sc sc.start m ∧ accept m = true ∧ m.length ≤ maxInSize)
    (hv : Completes sc sc.start v) (ha : accept v = true) (hl : v.length + t.length ≤ maxInSize)
    (hf : ms.length + 1 < fuel) :
    (serve sc accept fuel ⟨[], cap⟩ ⟨⟨stream (ms ++ [v ++ t]), sched, fin⟩, 0⟩).1 = ms ++ [v] := by
  have hm30 : maxInSize = 1073741824 := by decide
  induction ms generalizing fuel cap sched with
  | nil =>
    match fuel, hf with
    | fuel + 2, hf =>
    have hstream : stream ([] ++ [v ++ t]) = le32 (v ++ t).length ++ ((v ++ t) ++ []) := by
      simp [stream, frame]
    have hvt : (v ++ t).length = v.length + t.length := by simp
    obtain ⟨s', hh⟩ := readHeader_ok ⟨⟨stream ([] ++ [v ++ t]), sched, fin⟩, 0⟩ rfl (v ++ t).length
      ((v ++ t) ++ []) (by omega) hstream
    rw [if_neg (by omega)] at hh
    obtain ⟨i, sched', cap', i1, i2, i3, _⟩ := readValue_spec sc v t [] (v ++ t).length
      ((v ++ t).length + 3) sc.start [] v 0 cap s' fin rfl hv (by simp) (by simp) (by simp)
      (by omega) (by simp)
    simp only [List.take_zero, List.drop_zero, Nat.sub_zero, ← hvt, List.length_nil] at i3
    have hlast : ∀ d : Decoder, ∃ e, serve sc accept (fuel + 1) d
        ⟨⟨t.drop i ++ [], sched', fin⟩, t.length - i⟩ = ([], e) := by
      intro d
      by_cases h0 : t.length - i = 0
      · obtain ⟨s'', h1⟩ := readHeader_short ⟨⟨t.drop i ++ [], sched', fin⟩, t.length - i⟩ h0
          (by simp only [List.append_nil, List.length_drop]; omega)
        unfold serve
        simp only [h1]
        exact ⟨_, rfl⟩
      · unfold serve
        rw [c03_unread_refused _ h0]
        exact ⟨_, rfl⟩
    obtain ⟨e, he⟩ := hlast ⟨t.take i, cap'⟩
    unfold serve
    simp only [hh]
    rw [i3]
    simp only [ha, if_true]
    rw [he]
    rfl
  | cons m ms ih =>
    match fuel, hf with
    | fuel + 1, hf =>
    obtain ⟨h1, h2, h3⟩ := hm m (by simp)
    have hstream : stream (m :: ms ++ [v ++ t]) = le32 m.length ++ (m ++ stream (ms ++ [v ++ t])) := by
      simp [stream, frame]
    obtain ⟨s', hh⟩ := readHeader_ok ⟨⟨stream (m :: ms ++ [v ++ t]), sched, fin⟩, 0⟩ rfl m.length
      (m ++ stream (ms ++ [v ++ t])) (by omega) hstream
    rw [if_neg (by omega)] at hh
    obtain ⟨i, sched', cap', i1, i2, i3, _⟩ := readValue_spec sc m [] (stream (ms ++ [v ++ t])) m.length
      (m.length + 3) sc.start [] m 0 cap s' fin rfl h1 (by simp) (by simp) (by simp)
      (by omega) (by simp)
    have hi : i = 0 := by simpa using i1
    subst hi
    simp at i3
    unfold serve
    simp only [hh]
    rw [i3]
    simp only [h2, if_true]
    rw [ih fuel cap' sched' (fun m' hm' => hm m' (by simp [hm'])) (by simpa using hf)]
    rfl

theorem stream_length (ms : List Bytes) : ms.length ≤ (stream ms).length := by
  induction ms with
  | nil => simp
  | cons m ms ih => simp [stream, frame, le32] at ih ⊢; omega

/-- C08 (positive part, any decoder): in whatever chunks the input arrives, every request is served
in order if nothing follows a value in its frame; in the last frame anything may follow it, e.g. a
newline.  So a client with a single request is always served. -/
theorem c08_last_partial {σ : Type} (sc : Scanner σ) (accept : Bytes → Bool) (fin : SrcErr)
    (ms : List Bytes) (v t : Bytes) (sched : List Nat)
    (hm : ∀ m ∈ ms, Completes sc sc.start m ∧ accept m = true ∧ m.length ≤ 2 ^ 30)
    (hv : Completes sc sc.start v) (ha : accept v = true) (hl : v.length + t.length ≤ 2 ^ 30) :
    (session sc accept ⟨stream (ms ++ [v ++ t]), sched, fin⟩).1 = ms ++ [v] := by
  have hl' : v.length + t.length ≤ maxInSize := by simpa [maxInSize] using hl
  unfold session
  apply serve_last sc accept fin ms v t _ _ sched (fun m h => ?_) hv ha hl'
  · have : (ms ++ [v ++ t]).length ≤ (stream (ms ++ [v ++ t])).length := stream_length _
    have h2 : 0 < v.length := hv.pos
    have h3 : (stream (ms ++ [v ++ t])).length = (stream ms).length + 4 + v.length + t.length := by
      simp [stream, frame, le32]; omega
    have := stream_length ms
    simp only; omega
  · have := hm m h; exact ⟨this.1, this.2.1, by simpa [maxInSize] using this.2.2⟩

/-- C08 for the real scanner: every JSON object a browser can send (any members, any nesting the
decoder allows, any white space between tokens), every chunking. -/
theorem c08_json_session_partial (accept : Bytes → Bool) (fin : SrcErr) (reqs : List Bytes)
    (sched : List Nat)
    (hok : ∀ x ∈ reqs, (∃ kvs, (Json.obj kvs).ok 10000 = true ∧ (Json.obj kvs).Writes x) ∧
      accept x = true ∧ x.length ≤ 2 ^ 30) :
    session json accept ⟨stream reqs, sched, fin⟩ = (reqs, .header (.src fin)) := by
  apply c08_session_partial
  intro m hm
  obtain ⟨⟨kvs, h1, h2⟩, h3, h4⟩ := hok m hm
  exact ⟨completes_writes h1 h2, h3, h4⟩

/-- Non-vacuity: `{"method":"hello","id":1}` twice, delivered byte by byte; in the second frame it is
followed by a newline. -/
example :
    let x := bytesOf "{\"method\":\"hello\",\"id\":1}"
    (∃ kvs, (Json.obj kvs).ok 10000 = true ∧ (Json.obj kvs).Writes x) ∧
    (session json (fun _ => true) ⟨stream ([x] ++ [x ++ [10]]), List.replicate 60 1, .eof⟩).1 =
      [x] ++ [x] := by
  intro x
  have h : ∃ kvs, (Json.obj kvs).ok 10000 = true ∧ (Json.obj kvs).Writes x := by
    refine ⟨[((bytesOf "method").map .plain, Json.str ((bytesOf "hello").map .plain)),
      ((bytesOf "id").map .plain, Json.num ⟨false, bytesOf "1", [], none, false⟩)], by decide +kernel, ?_⟩
    have := writes_text (Json.obj [((bytesOf "method").map .plain, Json.str ((bytesOf "hello").map .plain)),
      ((bytesOf "id").map .plain, Json.num ⟨false, bytesOf "1", [], none, false⟩)])
    have e : (Json.obj [((bytesOf "method").map .plain, Json.str ((bytesOf "hello").map .plain)),
      ((bytesOf "id").map .plain, Json.num ⟨false, bytesOf "1", [], none, false⟩)]).text = x := by decide +kernel
    rwa [e] at this
  obtain ⟨kvs, h1, h2⟩ := h
  refine ⟨⟨kvs, h1, h2⟩, c08_last_partial json _ _ [x] x [10] _ (fun m hm => ?_) (completes_writes h1 h2) rfl
    (by decide +kernel)⟩
  rw [List.mem_singleton] at hm
  subst hm
  exact ⟨completes_writes h1 h2, rfl, by decide +kernel⟩

/-- White space between values is skipped by the JSON scanner. -/
theorem json_skip (b : UInt8) (h : isSpace b = true) : json.step json.start b = .more json.start := by
  simp [json, jsonStep, stepBeginValue, h]

theorem completes_lead {v : Bytes} (h : Completes json json.start v) (w : Bytes)
    (hw : w.all isSpace = true) : Completes json json.start (w ++ v) := by
  induction w with
  | nil => exact h
  | cons b w ih =>
    simp at hw
    exact .more (json_skip b hw.1) (ih (by simpa using hw.2))

/-- The requests the decoder sees when bodies have trailing white space: it is left in the
decoder's buffer and precedes the next request. -/
def withLead : Bytes → List (Bytes × Bytes) → List Bytes
  | _, [] => []
  | lead, (v, t) :: rest => (lead ++ v) :: withLead t rest

theorem serve_small (accept : Bytes → Bool) (fin : SrcErr)
    (ms : List (Bytes × Bytes)) (fuel cap : Nat) (lead : Bytes) (hcap : lead.length ≤ cap)
    (hlead : lead.all isSpace = true)
    (hm : ∀ m ∈ ms, Completes json json.start m.1 ∧ m.2.all isSpace = true ∧
      (∀ w : Bytes, w.all isSpace = true → accept (w ++ m.1) = true) ∧
      m.1.length + m.2.length ≤ 512)
    (hf : ms.length < fuel) :
    serve json accept fuel ⟨lead, cap⟩ ⟨⟨stream (ms.map fun m => m.1 ++ m.2), [], fin⟩, 0⟩ =
      (withLead lead ms, .header (.src fin)) := by
  induction ms generalizing fuel cap lead with
  | nil =>
    match fuel, hf with
    | fuel + 1, _ =>
    obtain ⟨s', hh⟩ := readHeader_short ⟨⟨stream [], [], fin⟩, 0⟩ rfl (by simp [stream])
    unfold serve
    simp only [List.map_nil, hh]
    simp [stream, shortErr, withLead]
  | cons m ms ih =>
    obtain ⟨v, t⟩ := m
    match fuel, hf with
    | fuel + 1, hf =>
    obtain ⟨h1, h2, h3, h4⟩ := hm (v, t) (by simp)
    simp only at h1 h2 h3 h4
    have hstream : stream (((v, t) :: ms).map fun m => m.1 ++ m.2) =
        le32 (v ++ t).length ++ ((v ++ t) ++ stream (ms.map fun m => m.1 ++ m.2)) := by
      simp [stream, frame]
    have hvt : (v ++ t).length = v.length + t.length := by simp
    have hm30 : maxInSize = 1073741824 := by decide
    have hsch := readHeader_sched
      ⟨⟨stream (((v, t) :: ms).map fun m => m.1 ++ m.2), [], fin⟩, 0⟩ rfl
    obtain ⟨s', hh⟩ := readHeader_ok
      ⟨⟨stream (((v, t) :: ms).map fun m => m.1 ++ m.2), [], fin⟩, 0⟩ rfl (v ++ t).length
      ((v ++ t) ++ stream (ms.map fun m => m.1 ++ m.2)) (by omega) hstream
    rw [if_neg (by omega)] at hh
    rw [hh] at hsch
    simp only at hsch
    subst hsch
    have hpos := h1.pos
    obtain ⟨i, sched', cap', i1, i2, i3, i4, i5, _⟩ := readValue_spec json (lead ++ v) t
      (stream (ms.map fun m => m.1 ++ m.2)) (v ++ t).length
      ((v ++ t).length + 3) json.start [] (lead ++ v) lead.length cap [] fin rfl
      (completes_lead h1 lead hlead) (by simp) (by simp; omega) (by simp; omega)
      (by omega) hcap
    have hi : i = t.length := i5 rfl (by simp; omega) (.inl (by simp; omega))
    have hs' := i4 rfl
    subst hi hs'
    have e1 : (lead ++ v ++ t).take lead.length = lead := by simp
    have e2 : (lead ++ v ++ t).drop lead.length = v ++ t := by simp
    have e3 : (lead ++ v).length + t.length - lead.length = (v ++ t).length := by simp; omega
    rw [e1, e2, e3] at i3
    simp only [List.take_length, List.drop_length, List.nil_append, Nat.sub_self,
      List.length_nil] at i3
    unfold serve
    simp only [hh]
    rw [i3]
    simp only [h3 lead hlead, if_true]
    rw [ih fuel cap' t i2 h2 (fun m' hm' => hm m' (by simp [hm'])) (by simpa using hf)]
    rfl

/-- C08 (positive part with a trailing newline, as the bundled Go client sends): if no frame
exceeds 512 bytes and the pipe delivers whole frames, every request is served; the newline is
skipped as leading white space of the next request. -/
theorem c08_newline_small_partial (accept : Bytes → Bool) (fin : SrcErr)
    (ms : List (Bytes × Bytes))
    (hm : ∀ m ∈ ms, Completes json json.start m.1 ∧ m.2.all isSpace = true ∧
      (∀ w : Bytes, w.all isSpace = true → accept (w ++ m.1) = true) ∧
      m.1.length + m.2.length ≤ 512) :
    session json accept ⟨stream (ms.map fun m => m.1 ++ m.2), [], fin⟩ =
      (withLead [] ms, .header (.src fin)) := by
  unfold session
  apply serve_small accept fin ms _ 0 [] (by simp) (by simp) hm
  have : ms.length ≤ (stream (ms.map fun m => m.1 ++ m.2)).length := by
    clear hm
    induction ms with
    | nil => simp
    | cons m ms ih => simp [stream, frame, le32] at ih ⊢; omega
  simp only; omega

/-- Non-vacuity: `{}` and a newline, twice. -/
example : Completes json json.start (bytesOf "{}") ∧ ([10] : Bytes).all isSpace = true :=
  ⟨completes_obj [] (by decide), by decide⟩

/-- C08 is violated by the code: if the first request is a complete value of exactly 512 bytes
(the initial size of the decoder's buffer) followed by anything else in its frame - the newline
that the Go client appends - then, without any short read, the session serves this request and
dies: the next `ReadHeader` reports unread data, whatever follows. -/
theorem c08_violation (accept : Bytes → Bool) (fin : SrcErr) (v t rest : Bytes)
    (hv : Completes json json.start v) (hacc : accept v = true) (hlen : v.length = 512)
    (ht : t ≠ []) (htl : t.length ≤ 1024) :
    session json accept ⟨frame (v ++ t) ++ rest, [], fin⟩ = ([v], .header .readBody) := by
  have hvt : (v ++ t).length = v.length + t.length := by simp
  have hm30 : maxInSize = 1073741824 := by decide
  have hsch := readHeader_sched ⟨⟨frame (v ++ t) ++ rest, [], fin⟩, 0⟩ rfl
  obtain ⟨s', hh⟩ := readHeader_ok ⟨⟨frame (v ++ t) ++ rest, [], fin⟩, 0⟩ rfl (v ++ t).length
    ((v ++ t) ++ rest) (by omega) (by simp [frame])
  rw [if_neg (by omega)] at hh
  rw [hh] at hsch
  simp only at hsch
  subst hsch
  obtain ⟨i, sched', cap', i1, i2, i3, i4, i5, i6, i7⟩ := readValue_spec json v t rest
    (v ++ t).length ((v ++ t).length + 3) json.start [] v 0 0 [] fin rfl hv (by simp)
    (by simp) (by simp) (by omega) (by simp)
  have hi : i = 0 := i7 rfl (by omega) (by simpa using hlen)
  subst hi
  simp only [List.take_zero, List.drop_zero, Nat.sub_zero, ← hvt, List.length_nil] at i3
  have hlt : 0 < t.length := List.length_pos_iff.mpr ht
  unfold session
  have hfuel : ∃ f, (frame (v ++ t) ++ rest).length + 1 = f + 2 := by
    refine ⟨(frame (v ++ t) ++ rest).length - 1, ?_⟩
    simp [frame, le32]
  obtain ⟨f, hf⟩ := hfuel
  simp only [hf]
  unfold serve
  simp only [newReader, Decoder.new, hh, i3, hacc, if_true]
  unfold serve
  rw [c03_unread_refused _ (by simp only; omega)]

/-- A JSON request of exactly 512 bytes exists, so the violation is reachable; any JSON request
can be padded to this length. -/
example :
    let v := (Json.obj [((bytesOf "a").map .plain, .str (List.replicate 504 (.plain 120)))]).text
    v.length = 512 ∧ Completes json json.start v := by
  refine ⟨by decide +kernel, completes_obj _ (by decide +kernel)⟩

/-! ### C09: method names -/

/-- The backend method that serves a call. -/
def target : Spec.Call → Method
  | .hello => .hello
  | .capture => .capture
  | .visit => .visit
  | .urlMentions => .urlMentions
  | .linkSet => .linkSet

theorem splitLastDot_none (s : Str) (h : splitLastDot s = none) : '.' ∉ s := by
  induction s with
  | nil => simp
  | cons c cs ih =>
    unfold splitLastDot at h
    cases hs : splitLastDot cs with
    | some p => rw [hs] at h; cases h
    | none =>
      rw [hs] at h
      by_cases hc : c = '.'
      · simp [hc] at h
      · simp only [List.mem_cons, not_or]
        exact ⟨fun e => hc e.symm, ih hs⟩

theorem splitLastDot_spec (s a b : Str) (h : splitLastDot s = some (a, b)) :
    s = a ++ '.' :: b ∧ '.' ∉ b := by
  induction s generalizing a with
  | nil => simp [splitLastDot] at h
  | cons c cs ih =>
    simp only [splitLastDot] at h
    have hn : ∀ cs, splitLastDot cs = none → '.' ∉ cs := by
      intro cs
      induction cs with
      | nil => simp
      | cons c cs ih =>
        intro h
        simp only [splitLastDot] at h
        split at h
        · simp at h
        · rename_i h'
          split at h
          · simp at h
          · rename_i hc
            intro hm
            rcases List.mem_cons.mp hm with hm | hm
            · exact hc hm.symm
            · exact ih h' hm
    cases hs : splitLastDot cs with
    | none =>
      rw [hs] at h
      simp only at h
      split at h
      · rename_i hc
        simp at h
        obtain ⟨rfl, rfl⟩ := h
        exact ⟨by simp [hc], hn cs hs⟩
      · simp at h
    | some p =>
      obtain ⟨a', b'⟩ := p
      rw [hs] at h
      simp at h
      obtain ⟨rfl, rfl⟩ := h
      have := ih a' hs
      exact ⟨by simp [this.1], this.2⟩

theorem lastDot_unique {a b a' b' : Str} (h : a ++ '.' :: b = a' ++ '.' :: b') (hb : '.' ∉ b)
    (hb' : '.' ∉ b') : a = a' ∧ b = b' := by
  rcases List.append_eq_append_iff.mp h with ⟨c, rfl, hc⟩ | ⟨c, rfl, hc⟩
  · cases c with
    | nil => simp at hc; exact ⟨by simp, hc⟩
    | cons x xs =>
      simp at hc
      exact absurd (by rw [hc.2]; simp) hb
  · cases c with
    | nil => simp at hc; exact ⟨by simp, hc.symm⟩
    | cons x xs =>
      simp at hc
      exact absurd (by rw [hc.2]; simp) hb'

/-- C09 for any method map and any set of services: a name that is not mapped never reaches a
service, unless a service whose name starts with "unknown" was registered. -/
theorem c09_unmapped (m : List (Str × Str)) (svcs : List (Str × List (Str × Method)))
    (hs : ∀ p ∈ svcs, ¬ "unknown".toList <+: p.1) (name : Str) (hn : m.lookup name = none) :
    lookup svcs (mapName m name) = .error .noService := by
  unfold mapName lookup
  rw [hn]
  simp only
  cases hsp : splitLastDot ("unknown.".toList ++ name) with
  | none => exact absurd (by simp) (splitLastDot_none _ hsp)
  | some p =>
    obtain ⟨a, b⟩ := p
    simp only
    obtain ⟨h1, h2⟩ := splitLastDot_spec _ _ _ hsp
    have hpre : "unknown".toList <+: a := by
      have e : "unknown.".toList ++ name = "unknown".toList ++ '.' :: name := rfl
      rw [e] at h1
      rcases List.append_eq_append_iff.mp h1 with ⟨c, hc, _⟩ | ⟨c, hc, hc2⟩
      · exact ⟨c, hc.symm⟩
      · cases c with
        | nil => exact ⟨[], by simpa using hc⟩
        | cons x xs =>
          exfalso
          apply h2
          simp at hc2
          rw [hc2.2]; simp
    cases hl : svcs.lookup a with
    | none => rfl
    | some ms =>
      exfalso
      have : ∃ p ∈ svcs, p.1 = a := by
        clear hs
        induction svcs with
        | nil => simp at hl
        | cons q qs ih =>
          obtain ⟨q1, q2⟩ := q
          rw [List.lookup_cons] at hl
          by_cases hq : a = q1
          · exact ⟨(q1, q2), by simp, hq.symm⟩
          · have hq' : (a == q1) = false := by simpa using hq
            rw [hq'] at hl
            obtain ⟨p, hp1, hp2⟩ := ih hl
            exact ⟨p, by simp [hp1], hp2⟩
      obtain ⟨p, hp1, hp2⟩ := this
      exact hs p hp1 (hp2 ▸ hpre)

theorem lookup_none_of (m : List (Str × Str)) (name : Str) (h : ∀ p ∈ m, p.1 ≠ name) :
    m.lookup name = none := by
  induction m with
  | nil => rfl
  | cons q qs ih =>
    obtain ⟨q1, q2⟩ := q
    have h1 : (name == q1) = false := by
      have := h (q1, q2) (by simp)
      simpa using fun e => this e.symm
    rw [List.lookup_cons, h1]
    exact ih (fun p hp => h p (by simp [hp]))

/-- C09: a name reaches a backend method iff it is one of the allowed names of a call, and then
it reaches exactly the method serving that call. -/
theorem c09_exact (name : Str) (meth : Method) :
    dispatch name = .ok meth ↔ ∃ c : Spec.Call, c.Name name ∧ target c = meth := by
  constructor
  · intro h
    by_cases hk : ∃ p ∈ methodMap, p.1 = name
    · obtain ⟨p, hp, rfl⟩ := hk
      simp only [methodMap, List.mem_cons, List.not_mem_nil, or_false] at hp
      rcases hp with h' | h' | h' | h' | h' | h' | h' | h' | h' | h' | h' | h' <;> subst h'
      · exact ⟨.hello, by unfold Call.Name; decide, Except.ok.inj ((show dispatch _ = .ok Method.hello from rfl).symm.trans h)⟩
      · exact ⟨.hello, by unfold Call.Name; decide, Except.ok.inj ((show dispatch _ = .ok Method.hello from rfl).symm.trans h)⟩
      · exact ⟨.hello, by unfold Call.Name; decide, Except.ok.inj ((show dispatch _ = .ok Method.hello from rfl).symm.trans h)⟩
      · exact ⟨.capture, by unfold Call.Name; decide, Except.ok.inj ((show dispatch _ = .ok Method.capture from rfl).symm.trans h)⟩
      · exact ⟨.capture, by unfold Call.Name; decide, Except.ok.inj ((show dispatch _ = .ok Method.capture from rfl).symm.trans h)⟩
      · exact ⟨.capture, by unfold Call.Name; decide, Except.ok.inj ((show dispatch _ = .ok Method.capture from rfl).symm.trans h)⟩
      · exact ⟨.visit, by unfold Call.Name; decide, Except.ok.inj ((show dispatch _ = .ok Method.visit from rfl).symm.trans h)⟩
      · exact ⟨.visit, by unfold Call.Name; decide, Except.ok.inj ((show dispatch _ = .ok Method.visit from rfl).symm.trans h)⟩
      · exact ⟨.urlMentions, by unfold Call.Name; decide, Except.ok.inj ((show dispatch _ = .ok Method.urlMentions from rfl).symm.trans h)⟩
      · exact ⟨.urlMentions, by unfold Call.Name; decide, Except.ok.inj ((show dispatch _ = .ok Method.urlMentions from rfl).symm.trans h)⟩
      · exact ⟨.linkSet, by unfold Call.Name; decide, Except.ok.inj ((show dispatch _ = .ok Method.linkSet from rfl).symm.trans h)⟩
      · exact ⟨.linkSet, by unfold Call.Name; decide, Except.ok.inj ((show dispatch _ = .ok Method.linkSet from rfl).symm.trans h)⟩
    · have hn : methodMap.lookup name = none :=
        lookup_none_of _ _ (fun p hp he => hk ⟨p, hp, he⟩)
      have he := c09_unmapped methodMap services (by
        intro p hp
        simp only [services, List.mem_singleton] at hp
        subst hp
        decide) name hn
      unfold dispatch at h
      rw [he] at h
      simp at h
  · rintro ⟨c, hc, rfl⟩
    rcases hc with h | h | ⟨hc, h⟩
    · subst h; cases c <;> rfl
    · subst h; cases c <;> rfl
    · subst h; rcases hc with hc | hc <;> subst hc <;> rfl

/-- C09: `Search` cannot be reached by any name. -/
theorem c09_search_unreachable (name : Str) : dispatch name ≠ .ok .search := by
  intro h
  obtain ⟨c, _, hc⟩ := (c09_exact name .search).mp h
  cases c <;> simp [target] at hc

/-- Non-vacuity: Go-style names and near misses are refused. -/
example : dispatch "Burl.Search".toList = .error .noService ∧
    dispatch "linkremark.visit".toList = .ok .visit ∧
    dispatch "visit".toList = .error .noService := ⟨rfl, rfl, rfl⟩

end Burl.Rpc
