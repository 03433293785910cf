import Verif.Frame.Lemmas
/-! Property theorems for framing (C01 - C06). -/
namespace Burl.Frame
open Spec

/-! ### C05: WriteFrame -/

/-- The wire bytes that `WriteFrame` attempts to send for a payload: the low 32 bits of the
length, then the payload. -/
def attempt (p : Bytes) : Bytes := le32 (p.length % 4294967296) ++ p

/-- C05: whatever the sink does, what it receives is a prefix of the frame and the writer's
buffer is empty afterwards. -/
theorem c05_prefix_and_reset (w : Writer) :
    (w.writeFrame).1.buf = [] ∧
    ∃ p, p <+: attempt w.buf ∧ (w.writeFrame).1.w.out = w.w.out ++ p := by
  unfold Writer.writeFrame attempt
  obtain ⟨buf, out, plan⟩ := w
  simp only [Sink.write, bufferWriteTo, putU32_eq_le32]
  cases hp : plan.headD none with
  | some me =>
    obtain ⟨m, e⟩ := me
    exact ⟨rfl, _, (List.take_prefix m _).trans (List.prefix_append _ _), rfl⟩
  | none =>
    simp only
    by_cases h0 : buf.length = 0
    · have hb : buf = [] := List.length_eq_zero_iff.mp h0
      subst hb
      simp
    · rw [if_neg h0]
      cases hp2 : plan.tail.headD none with
      | some me =>
        obtain ⟨m, e⟩ := me
        refine ⟨rfl, le32 (buf.length % 4294967296) ++ buf.take m, ?_, by simp⟩
        exact List.prefix_append_right_inj _ |>.mpr (List.take_prefix _ _)
      | none =>
        refine ⟨?_, le32 (buf.length % 4294967296) ++ buf, List.prefix_refl _, ?_⟩ <;>
          (simp only []; split <;> simp)

/-- C05: success means that the complete frame was accepted by the sink, and the header is the
true length. -/
theorem c05_success_complete (w : Writer) (h : (w.writeFrame).2 = none) :
    w.buf.length < 4294967296 ∧ (w.writeFrame).1.w.out = w.w.out ++ frame w.buf := by
  revert h
  unfold Writer.writeFrame
  obtain ⟨buf, out, plan⟩ := w
  simp only [Sink.write, bufferWriteTo, putU32_eq_le32]
  cases hp : plan.headD none with
  | some me => simp
  | none =>
    simp only
    by_cases h0 : buf.length = 0
    · have hb : buf = [] := List.length_eq_zero_iff.mp h0
      subst hb
      simp [frame]
    · rw [if_neg h0]
      cases hp2 : plan.tail.headD none with
      | some me => simp
      | none =>
        simp only
        split
        · simp
        · rename_i h1
          intro _
          refine ⟨by omega, ?_⟩
          simp [frame, show buf.length % 4294967296 = buf.length by omega]

/-- C05: a sink that accepts everything makes `WriteFrame` succeed exactly for payloads shorter
than 4 GiB. -/
theorem c05_accepting_sink (buf out : Bytes) :
    ((Writer.mk buf ⟨out, []⟩).writeFrame).2 = none ↔ buf.length < 4294967296 := by
  constructor
  · intro h; exact (c05_success_complete _ h).1
  · intro h
    unfold Writer.writeFrame
    simp only [Sink.write, bufferWriteTo, List.headD_nil, List.tail_nil]
    by_cases h0 : buf.length = 0
    · simp [h0]
    · rw [if_neg h0]
      simp only
      rw [if_neg (by omega)]

/-- C05: over a whole session, with any pattern of failures, the wire is the concatenation of
one piece per message; each piece is a prefix of that message's own frame, and is the complete
frame whenever the send reported success; nothing stays behind in the buffer. -/
theorem c05_session (w : Writer) (hw : w.buf = []) (ms : List Bytes) :
    (w.sendAll ms).1.buf = [] ∧
    ∃ pieces : List Bytes, pieces.length = ms.length ∧
      (w.sendAll ms).2.length = ms.length ∧
      (w.sendAll ms).1.w.out = w.w.out ++ pieces.flatten ∧
      ∀ (i : Nat) (m p : Bytes), ms[i]? = some m → pieces[i]? = some p →
        p <+: attempt m ∧ ((w.sendAll ms).2[i]? = some none → p = frame m) := by
  induction ms generalizing w with
  | nil => exact ⟨by simpa [Writer.sendAll], [], by simp [Writer.sendAll]⟩
  | cons x xs ih =>
    have hwr : w.write x = { w with buf := x } := by simp [Writer.write, hw]
    have h1 := c05_prefix_and_reset (w.write x)
    have h2 := c05_success_complete (w.write x)
    rw [hwr] at h1 h2
    obtain ⟨hb, p, hp, hout⟩ := h1
    simp only at hb hp hout h2
    have hsend : w.send x = ({ w with buf := x } : Writer).writeFrame := by
      unfold Writer.send; rw [hwr]
    obtain ⟨g1, pieces, g2, g2', g3, g4⟩ := ih (w.send x).1 (by rw [hsend]; exact hb)
    refine ⟨by simpa [Writer.sendAll] using g1, p :: pieces, by simp [g2], ?_, ?_, ?_⟩
    · simp [Writer.sendAll, g2']
    · simp only [Writer.sendAll, List.flatten_cons]
      rw [g3, hsend, hout]; simp
    · intro i m q hm hq
      cases i with
      | zero =>
        simp at hm hq
        subst hm hq
        refine ⟨hp, ?_⟩
        intro he
        simp [Writer.sendAll] at he
        rw [hsend] at he
        have := (h2 he).2
        rw [hout] at this
        exact List.append_cancel_left this
      | succ i =>
        simp at hm hq
        have := g4 i m q hm hq
        simpa [Writer.sendAll] using this

/-- Non-vacuity: a sink that fails in the middle of the first body, then accepts. -/
example :
    let w : Writer := ⟨[], ⟨[], [none, some (1, 7)]⟩⟩
    (w.send [1, 2, 3]).2 = some (.io 7) ∧
    (w.sendAll [[1, 2, 3], [9]]).1.w.out = [3, 0, 0, 0, 1] ++ frame [9] := by decide

/-! ### C01, C02: round trip and truncation -/

/-- Sending messages through an accepting sink puts exactly their frames on the wire. -/
theorem c01_wire (ms : List Bytes) (out : Bytes)
    (h : ∀ m ∈ ms, m.length < 4294967296) :
    (Writer.sendAll ⟨[], ⟨out, []⟩⟩ ms).1 = ⟨[], ⟨out ++ stream ms, []⟩⟩ := by
  induction ms generalizing out with
  | nil => simp [Writer.sendAll, stream]
  | cons m ms ih =>
    have hm := h m (by simp)
    have hs : (Writer.send ⟨[], ⟨out, []⟩⟩ m).1 = ⟨[], ⟨out ++ frame m, []⟩⟩ := by
      have hbuf : ((Writer.mk [] ⟨out, []⟩).write m) = ⟨m, ⟨out, []⟩⟩ := by simp [Writer.write]
      unfold Writer.send
      rw [hbuf]
      have h1 := (c05_accepting_sink m out).mpr hm
      have h2 := (c05_success_complete _ h1).2
      have h3 := (c05_prefix_and_reset (Writer.mk m ⟨out, []⟩)).1
      have h4 : ((Writer.mk m ⟨out, []⟩).writeFrame).1.w.plan = [] := by
        unfold Writer.writeFrame
        simp only [Sink.write, bufferWriteTo, List.headD_nil, List.tail_nil]
        by_cases h0 : m.length = 0
        · simp [h0]
        · rw [if_neg h0]; simp only; split <;> rfl
      generalize ((Writer.mk m ⟨out, []⟩).writeFrame).1 = x at h2 h3 h4
      obtain ⟨b, o, p⟩ := x
      simp_all
    simp only [Writer.sendAll]
    rw [hs, ih _ (fun x hx => h x (by simp [hx]))]
    simp [stream]

/-- C01: whatever messages are sent through the framing writer, and however the pipe splits
the bytes (`sched`) and the consumer sizes its reads (`bufs`), the receiver gets exactly these
messages and then a clean end of file. -/
theorem c01_roundtrip (ms : List Bytes) (sched bufs : List Nat)
    (h : ∀ m ∈ ms, m.length ≤ maxInSize) :
    recvAll bufs ⟨(Writer.sendAll ⟨[], ⟨[], []⟩⟩ ms).1.w.out, sched, .eof⟩ =
      (ms, .header (.src .eof)) := by
  rw [c01_wire ms [] (fun m hm => by have := h m hm; simp [maxInSize] at this; omega)]
  have := recvLoop_cut ms ((stream ms).length + 1) (stream ms).length bufs sched h (by omega)
    (Nat.le_refl _)
  rw [delivered_full, List.take_length] at this
  simpa [recvAll, newReader, stopOf] using this

theorem foldl_write (ps : List Bytes) (w : Writer) :
    ps.foldl Writer.write w = { w with buf := w.buf ++ ps.flatten } := by
  induction ps generalizing w with
  | nil => simp
  | cons p ps ih => rw [List.foldl_cons, ih]; simp [Writer.write]

/-- C05: a message is the concatenation of everything written since the previous frame. -/
theorem c05_pieces (w : Writer) (hw : w.buf = []) (ms : List (List Bytes)) :
    w.sendPieces ms = w.sendAll (ms.map List.flatten) := by
  induction ms generalizing w with
  | nil => rfl
  | cons ps ms ih =>
    have h : ps.foldl Writer.write w = w.write ps.flatten := by rw [foldl_write]; rfl
    simp only [Writer.sendPieces, List.map_cons, Writer.sendAll, h, Writer.send]
    rw [ih _ (c05_prefix_and_reset (w.write ps.flatten)).1]

/-- C01 when each message is written by several calls of `Write`. -/
theorem c01_pieces (ms : List (List Bytes)) (sched bufs : List Nat)
    (h : ∀ ps ∈ ms, ps.flatten.length ≤ maxInSize) :
    recvAll bufs ⟨(Writer.sendPieces ⟨[], ⟨[], []⟩⟩ ms).1.w.out, sched, .eof⟩ =
      (ms.map List.flatten, .header (.src .eof)) := by
  rw [c05_pieces _ rfl]
  refine c01_roundtrip _ sched bufs fun m hm => ?_
  obtain ⟨ps, hp, rfl⟩ := List.mem_map.mp hm
  exact h ps hp

/-- Non-vacuity: three writes, none, one. -/
example : (Writer.sendPieces ⟨[], ⟨[], []⟩⟩ [[[1], [2, 3], [4]], [], [[9]]]).1.w.out =
    frame [1, 2, 3, 4] ++ frame [] ++ frame [9] := by decide

/-- C02: if only the first `k` bytes of the stream arrive before end of file, the receiver
delivers exactly the messages that are complete within those bytes and reports how the stream
ended. -/
theorem c02_truncation (ms : List Bytes) (k : Nat) (sched bufs : List Nat)
    (h : ∀ m ∈ ms, m.length ≤ maxInSize) (hk : k ≤ (stream ms).length) :
    recvAll bufs ⟨(stream ms).take k, sched, .eof⟩ =
      ((delivered k ms).1, stopOf (delivered k ms).2) := by
  have := recvLoop_cut ms (((stream ms).take k).length + 1) k bufs sched h
    (by simp; omega) hk
  simpa [recvAll, newReader] using this

/-- C02: the delivered messages are a prefix of those sent. -/
theorem c02_only_sent (ms : List Bytes) (k : Nat) (sched bufs : List Nat)
    (h : ∀ m ∈ ms, m.length ≤ maxInSize) (hk : k ≤ (stream ms).length) :
    (recvAll bufs ⟨(stream ms).take k, sched, .eof⟩).1 <+: ms := by
  rw [c02_truncation ms k sched bufs h hk]
  simp only
  clear h hk
  induction ms generalizing k with
  | nil => simp [delivered]
  | cons m ms ih =>
    unfold delivered
    split
    · simp
    · split
      · simp
      · split
        · simp
        · simpa using ih _

example : recvAll [1, 1] ⟨(stream [[1, 2], [], [3]]).take 12, [1, 2, 1], .eof⟩ =
    ([[1, 2], []], .header .unexpectedEof) := by decide

/-! ### C03: frame boundaries -/

/-- One call on the reading side and what the caller observes. -/
def Reader.call (r : Reader) : Call → Reader × Event
  | .readHeader =>
    match r.readHeader with
    | (r', none) => (r', .header r'.n)
    | (r', some .readBody) => (r', .unread)
    | (r', some _) => (r', .fatal)
  | .read k =>
    match r.read k with
    | (r', [], _) => (r', .nothing)
    | (r', b :: bs, _) => (r', .data (b :: bs))

/-- A history of calls, up to the first fatal error. -/
def Reader.calls (r : Reader) : List Call → Reader × List Event
  | [] => (r, [])
  | c :: cs =>
    match r.call c with
    | (r', .fatal) => (r', [.fatal])
    | (r', e) => ((r'.calls cs).1, e :: (r'.calls cs).2)

theorem exists_le32 (l : Bytes) (h : 4 ≤ l.length) :
    ∃ n rest, n < 4294967296 ∧ l = le32 n ++ rest := by
  match l, h with
  | a :: b :: c :: d :: rest, _ =>
    refine ⟨a.toNat + 256 * b.toNat + 65536 * c.toNat + 16777216 * d.toNat, rest, ?_, ?_⟩
    · have := a.toNat_lt; have := b.toNat_lt; have := c.toNat_lt; have := d.toNat_lt
      omega
    · have ha := a.toNat_lt; have hb := b.toNat_lt; have hc := c.toNat_lt; have hd := d.toNat_lt
      simp only [le32, List.cons_append, List.nil_append, List.cons.injEq, and_true]
      refine ⟨?_, ?_, ?_, ?_⟩ <;> apply UInt8.toNat_inj.mp <;> simp <;> omega

theorem Reader.call_step (r : Reader) (c : Call) (h : (r.call c).2 ≠ .fatal) :
    r.src.data = consumed [(r.call c).2] ++ (r.call c).1.src.data ∧
    (∀ es, Framed (r.call c).1.n es → Framed r.n ((r.call c).2 :: es)) := by
  cases c with
  | readHeader =>
    by_cases hn : r.n = 0
    · by_cases hl : r.src.data.length < 4
      · obtain ⟨s', hh⟩ := readHeader_short r hn hl
        exfalso
        apply h
        simp only [Reader.call, hh, shortErr]
        by_cases hc : r.src.data.length > 0 ∧ r.src.fin = .eof
        · rw [if_pos hc]
        · rw [if_neg hc]
      · obtain ⟨n, rest, h1, h2⟩ := exists_le32 r.src.data (by omega)
        obtain ⟨s', hh⟩ := readHeader_ok r hn n rest h1 h2
        by_cases hbig : n > maxInSize
        · rw [if_pos hbig] at hh
          exfalso; apply h
          simp only [Reader.call, hh]
        · rw [if_neg hbig] at hh
          simp only [Reader.call, hh, consumed, List.append_nil]
          exact ⟨h2, fun es he => ⟨hn, he⟩⟩
    · have hh : r.readHeader = (r, some .readBody) := by
        unfold Reader.readHeader; rw [if_pos hn]
      simp only [Reader.call, hh, consumed, List.nil_append, true_and]
      exact fun es he => ⟨hn, he⟩
  | read k =>
    by_cases hn : r.n = 0
    · simp only [Reader.call, Reader.read_zero r k hn, consumed, List.nil_append, true_and]
      exact fun es he => he
    · by_cases hk : k = 0
      · have : r.read k = (r, [], none) := by
          unfold Reader.read; rw [if_neg hn, if_pos hk]
        simp only [Reader.call, this, consumed, List.nil_append, true_and]
        exact fun es he => he
      · by_cases hd : r.src.data = []
        · simp only [Reader.call, Reader.read_end r k (by omega) (by omega) hd, consumed,
            List.nil_append, true_and]
          exact fun es he => he
        · obtain ⟨m, s', h1, h2, h3, h4⟩ := Reader.read_pos r k (by omega) (by omega) hd
          have hcall : r.call (.read k) =
              (⟨⟨r.src.data.drop m, s', r.src.fin⟩, r.n - m⟩, .data (r.src.data.take m)) := by
            simp only [Reader.call, h4]
            cases ht : r.src.data.take m with
            | nil =>
              have := congrArg List.length ht
              rw [List.length_take, List.length_nil] at this; omega
            | cons a t => rfl
          rw [hcall]
          have hlen : (r.src.data.take m).length = m := by simp; omega
          refine ⟨by simp [consumed], ?_⟩
          intro es he
          refine ⟨?_, by omega, by rwa [hlen]⟩
          intro h0; rw [h0] at hlen; simp at hlen; omega

/-- C03: over every history of `ReadHeader` and `Read` calls, with any buffer sizes, any short
reads and any input, the calls respect frame boundaries (`Framed`), and the input is exactly
what the calls consumed - headers and returned data in call order - followed by what is still
unread.  (After a fatal header error nothing is claimed; `net/rpc` stops there.) -/
theorem c03_boundaries (s : Src) (cs : List Call) :
    Framed 0 ((newReader s).calls cs).2 ∧
    (.fatal ∉ ((newReader s).calls cs).2 →
      s.data = consumed ((newReader s).calls cs).2 ++ ((newReader s).calls cs).1.src.data) := by
  have key : ∀ (cs : List Call) (r : Reader), Framed r.n (r.calls cs).2 ∧
      (.fatal ∉ (r.calls cs).2 →
        r.src.data = consumed (r.calls cs).2 ++ (r.calls cs).1.src.data) := by
    intro cs
    induction cs with
    | nil => intro r; simp [Reader.calls, Framed, consumed]
    | cons c cs ih =>
      intro r
      by_cases hf : (r.call c).2 = .fatal
      · have : r.calls (c :: cs) = ((r.call c).1, [.fatal]) := by
          unfold Reader.calls
          split
          · rename_i h; simp [h]
          · rename_i h1 h2; exact absurd (by rw [h2] at hf; exact hf) (by intro hh; simp_all)
        rw [this]
        simp [Framed]
      · have heq : r.calls (c :: cs) = (((r.call c).1.calls cs).1,
            (r.call c).2 :: ((r.call c).1.calls cs).2) := by
          conv => lhs; unfold Reader.calls
          split
          · rename_i h; simp [h] at hf
          · rename_i h; rw [h]
        rw [heq]
        obtain ⟨g1, g2⟩ := r.call_step c hf
        obtain ⟨i1, i2⟩ := ih (r.call c).1
        refine ⟨g2 _ i1, ?_⟩
        intro hn
        simp only [List.mem_cons, not_or] at hn
        have e1 : ∀ e es, consumed (e :: es) = consumed [e] ++ consumed es := by
          intro e es; cases e <;> simp [consumed]
        rw [e1, List.append_assoc, ← i2 hn.2]
        exact g1
  exact key cs (newReader s)

/-- Non-vacuity: two frames, unread data is reported, then both bodies are read. -/
example : ((newReader ⟨stream [[1, 2, 3], [4]], [2, 2, 2], .eof⟩).calls
    [.readHeader, .read 2, .readHeader, .read 9, .read 9, .readHeader, .read 9]).2 =
    [.header 3, .data [1, 2], .unread, .data [3], .nothing, .header 1, .data [4]] := by decide

/-- C03: `ErrReadBody` consumes nothing and changes nothing. -/
theorem c03_unread_refused (r : Reader) (h : r.n ≠ 0) : r.readHeader = (r, some .readBody) := by
  unfold Reader.readHeader; rw [if_pos h]

/-! ### C04: size limit -/

/-- C04: for every 32-bit size value, `ReadHeader` at a frame boundary consumes exactly the four
header bytes; it succeeds iff the size is at most 2^30 and then exactly `size` bytes are
readable; otherwise it reports `TooLargeError` and leaves nothing readable. -/
theorem c04_limit (size : Nat) (hs : size < 2 ^ 32) (rest : Bytes) (sched : List Nat)
    (fin : SrcErr) :
    let r := (newReader ⟨le32 size ++ rest, sched, fin⟩).readHeader
    r.1.src.data = rest ∧
    (r.2 = none ↔ size ≤ 2 ^ 30) ∧
    (size ≤ 2 ^ 30 → r.1.n = size) ∧
    (2 ^ 30 < size → r.2 = some .tooLarge ∧ ∀ k, r.1.read k = (r.1, [], some .eof)) := by
  obtain ⟨s', h⟩ := readHeader_ok (newReader ⟨le32 size ++ rest, sched, fin⟩) rfl size rest
    (by simpa using hs) rfl
  simp only [h]
  have hm : maxInSize = 2 ^ 30 := by decide
  rw [hm]
  by_cases hb : size > 2 ^ 30
  · rw [if_pos hb]
    refine ⟨rfl, by simp; omega, by omega, fun _ => ⟨rfl, fun k => Reader.read_zero _ _ rfl⟩⟩
  · rw [if_neg hb]
    refine ⟨rfl, by simp; omega, fun _ => rfl, by omega⟩

/-! ### C06: Close -/

/-- C06: `Close` closes each stream exactly once, reader first, even if closing the reader
fails; the error is chosen by precedence; pending output is discarded. -/
theorem c06_close {ε : Type} (rc wc : Option ε) (w : Writer) :
    (splitClose rc wc w).1 = [.reader, .writer] ∧
    (splitClose rc wc w).2.2.buf = [] ∧ (splitClose rc wc w).2.2.w = w.w ∧
    (∀ e, (splitClose rc wc w).2.1 = some (.reader e) ↔ rc = some e) ∧
    (∀ e, (splitClose rc wc w).2.1 = some (.writer e) ↔ rc = none ∧ wc = some e) ∧
    ((splitClose rc wc w).2.1 = some .outBufferNotEmpty ↔ rc = none ∧ wc = none ∧ w.buf ≠ []) ∧
    ((splitClose rc wc w).2.1 = none ↔ rc = none ∧ wc = none ∧ w.buf = []) := by
  obtain ⟨buf, s⟩ := w
  cases rc <;> cases wc <;> cases buf <;>
    simp [splitClose, Writer.empty, Writer.discard]

end Burl.Frame
