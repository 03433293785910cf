import Verif.Base
/-! Model of `pkg/webextensions/frame.go`, `native_amd64.go` and of the parts of the Go
standard library they use directly (`io.LimitedReader`, `io.ReadFull`, `binary.Read/Write`
for `uint32`, `bytes.Buffer`). -/
namespace Burl.Frame

/-- Errors that a plain `Read` may return: `io.EOF` or any other error of the stream. -/
inductive SrcErr where
  | eof
  | io (code : Nat)
  deriving Repr, DecidableEq

/-- Errors of `ReadHeader` (pkg/webextensions/frame.go:26-30 plus `io` errors). -/
inductive RErr where
  | src (e : SrcErr)
  | unexpectedEof       -- io.ErrUnexpectedEOF
  | readBody            -- ErrReadBody
  | tooLarge            -- TooLargeError
  deriving Repr, DecidableEq

/-- `MaxInSize` (pkg/webextensions/frame.go:33). -/
def maxInSize : Nat := 1024 * 1024 * 1024

/-- The underlying stream (a pipe): the bytes that will ever arrive, the error reported after
them, and an adversarial schedule of read sizes.  Every `Read` with a non-empty buffer returns
between 1 and `len(p)` bytes as the schedule dictates (an exhausted schedule means no further
short reads). -/
structure Src where
  data : Bytes
  sched : List Nat
  fin : SrcErr
  deriving Repr, DecidableEq

/-- `R.Read(p)` of the pipe with `len(p) = k > 0`. -/
def Src.read (s : Src) (k : Nat) : Src × Bytes × Option SrcErr :=
  match s.data with
  | [] => (s, [], some s.fin)
  | _ :: _ =>
    let n := match s.sched with
      | [] => k
      | c :: _ => max 1 (min c k)
    ({ s with data := s.data.drop n, sched := s.sched.tail }, s.data.take n, none)

/-- `FrameLimitedReader` (pkg/webextensions/frame.go:46-48): an `io.LimitedReader`. -/
structure Reader where
  src : Src
  n : Nat
  deriving Repr, DecidableEq

/-- `NewFrameLimitedReader` (pkg/webextensions/frame.go:52-54). -/
def newReader (s : Src) : Reader := ⟨s, 0⟩

/-- `io.LimitedReader.Read(p)` with `len(p) = k` (standard library; embedded at
pkg/webextensions/frame.go:47).  A zero-length buffer reads nothing. -/
def Reader.read (r : Reader) (k : Nat) : Reader × Bytes × Option SrcErr :=
  if r.n = 0 then (r, [], some .eof)
  else if k = 0 then (r, [], none)
  else
    let k := min k r.n
    let (s, b, e) := r.src.read k
    ({ src := s, n := r.n - b.length }, b, e)

/-- `io.ReadFull` (standard library, called by `binary.Read` at pkg/webextensions/frame.go:63):
read until `need` more bytes were obtained; every successful `Read` makes progress, so `need`
is a sufficient amount of fuel. -/
def readFullLoop : Nat → Reader → Nat → Bytes → Reader × Bytes × Option RErr
  | 0, r, _, acc => (r, acc, none)
  | fuel + 1, r, need, acc =>
    if need = 0 then (r, acc, none)
    else
      match r.read need with
      | (r', b, none) => readFullLoop fuel r' (need - b.length) (acc ++ b)
      | (r', b, some e) =>
        if need ≤ b.length then (r', acc ++ b, none)
        else if (acc ++ b).length > 0 ∧ e = .eof then (r', acc ++ b, some .unexpectedEof)
        else (r', acc ++ b, some (.src e))

/-- `io.ReadFull` inside of `binary.Read` (standard library; pkg/webextensions/frame.go:63). -/
def readFull (r : Reader) (need : Nat) : Reader × Bytes × Option RErr :=
  readFullLoop need r need []

/-- `binary.LittleEndian.Uint32` (pkg/webextensions/native_amd64.go:29). -/
def getU32 : Bytes → Nat
  | [a, b, c, d] => a.toNat + 256 * b.toNat + 65536 * c.toNat + 16777216 * d.toNat
  | _ => 0

/-- `binary.LittleEndian.PutUint32` (pkg/webextensions/native_amd64.go:29). -/
def putU32 (n : Nat) : Bytes :=
  [UInt8.ofNat n, UInt8.ofNat (n / 256), UInt8.ofNat (n / 65536), UInt8.ofNat (n / 16777216)]

/-- `FrameLimitedReader.ReadHeader` (pkg/webextensions/frame.go:56-71). -/
def Reader.readHeader (r : Reader) : Reader × Option RErr :=
  if r.n ≠ 0 then (r, some .readBody)
  else
    let r := { r with n := 4 }
    match readFull r 4 with
    | (r, _, some e) => (r, some e)
    | (r, b, none) =>
      let size := getU32 b
      if size > maxInSize then (r, some .tooLarge)
      else ({ r with n := size }, none)

/-- A consumer that reads the body until `Read` reports an error, using arbitrary buffer sizes
(`bufs`, at least one byte each).  Not part of the repository: it stands for any consumer. -/
def drain : Nat → List Nat → Reader → Bytes → Reader × Bytes × List Nat
  | 0, bufs, r, acc => (r, acc, bufs)
  | fuel + 1, bufs, r, acc =>
    match r.read (max 1 (bufs.headD 512)) with
    | (r', b, none) => drain fuel bufs.tail r' (acc ++ b)
    | (r', b, some _) => (r', acc ++ b, bufs.tail)

/-- Why the receiving loop stopped. -/
inductive StopReason where
  | header (e : RErr)
  | shortBody
  deriving Repr, DecidableEq

/-- A receiving loop: `ReadHeader`, read the body to its end, repeat. -/
def recvLoop : Nat → List Nat → Reader → List Bytes × StopReason
  | 0, _, _ => ([], .shortBody)
  | fuel + 1, bufs, r =>
    match r.readHeader with
    | (_, some e) => ([], .header e)
    | (r, none) =>
      let (r, b, bufs) := drain (r.n + 1) bufs r []
      if r.n ≠ 0 then ([], .shortBody)
      else
        let (ms, e) := recvLoop fuel bufs r
        (b :: ms, e)

/-- Receive everything a stream has to offer.  Every successful header consumes four bytes, so
the fuel is sufficient. -/
def recvAll (bufs : List Nat) (s : Src) : List Bytes × StopReason :=
  recvLoop (s.data.length + 1) bufs (newReader s)

/-- Calls on the reading side. -/
inductive Call where
  | readHeader
  | read (bufLen : Nat)
  deriving Repr, DecidableEq

/-! Writing side -/

/-- Errors of the writing side. -/
inductive WErr where
  | io (code : Nat)
  | sizeMismatch        -- SizeMismatchError
  deriving Repr, DecidableEq

/-- The underlying writer.  Each `Write` consults the plan: `none` accepts everything,
`some (m, e)` accepts at most `m` bytes and returns the error `e` (the `io.Writer` contract:
a short write returns an error).  An exhausted plan accepts everything. -/
structure Sink where
  out : Bytes
  plan : List (Option (Nat × Nat))
  deriving Repr, DecidableEq

/-- `Write` of the output stream under the contract of `io.Writer` (pkg/webextensions/frame.go:96,
99). -/
def Sink.write (s : Sink) (p : Bytes) : Sink × Nat × Option WErr :=
  match s.plan.headD none with
  | none => ({ out := s.out ++ p, plan := s.plan.tail }, p.length, none)
  | some (m, e) =>
    ({ out := s.out ++ p.take m, plan := s.plan.tail }, min m p.length, some (.io e))

/-- `FrameBufferedWriter` (pkg/webextensions/frame.go:82-85). -/
structure Writer where
  buf : Bytes
  w : Sink
  deriving Repr, DecidableEq

/-- `bytes.Buffer.Write` promoted by embedding (pkg/webextensions/frame.go:83). -/
def Writer.write (w : Writer) (p : Bytes) : Writer := { w with buf := w.buf ++ p }

/-- `FrameBufferedWriter.Empty` (pkg/webextensions/frame.go:109-111). -/
def Writer.empty (w : Writer) : Bool := w.buf.length == 0

/-- `FrameBufferedWriter.Discard` (pkg/webextensions/frame.go:113-115). -/
def Writer.discard (w : Writer) : Writer := { w with buf := [] }

/-- `bytes.Buffer.WriteTo` (standard library, called at pkg/webextensions/frame.go:99): no
`Write` call for an empty buffer. -/
def bufferWriteTo (buf : Bytes) (s : Sink) : Sink × Nat × Option WErr :=
  if buf.length = 0 then (s, 0, none) else s.write buf

/-- `FrameBufferedWriter.WriteFrame` (pkg/webextensions/frame.go:93-107).  The deferred
`Reset` empties the buffer on every path. -/
def Writer.writeFrame (w : Writer) : Writer × Option WErr :=
  let size := w.buf.length % 4294967296
  match w.w.write (putU32 size) with
  | (s, _, some e) => ({ buf := [], w := s }, some e)
  | (s, _, none) =>
    match bufferWriteTo w.buf s with
    | (s, _, some e) => ({ buf := [], w := s }, some e)
    | (s, outSize, none) =>
      if outSize ≠ size then ({ buf := [], w := s }, some .sizeMismatch)
      else ({ buf := [], w := s }, none)

/-- A codec sends a message: encode into the buffer, then `WriteFrame`
(pkg/webextensions/server.go:44-52, client.go:34-39). -/
def Writer.send (w : Writer) (m : Bytes) : Writer × Option WErr := (w.write m).writeFrame

/-- Send several messages, ignoring errors (`net/rpc` only logs them); the
results of the individual sends are returned. -/
def Writer.sendAll (w : Writer) : List Bytes → Writer × List (Option WErr)
  | [] => (w, [])
  | m :: ms =>
    let (w, e) := w.send m
    let (w, es) := w.sendAll ms
    (w, e :: es)

/-- The same when each message is put into the buffer by any number of calls of `Write`
(`bytes.Buffer.Write`, pkg/webextensions/frame.go:83). -/
def Writer.sendPieces (w : Writer) : List (List Bytes) → Writer × List (Option WErr)
  | [] => (w, [])
  | ps :: ms =>
    let (w, e) := (ps.foldl Writer.write w).writeFrame
    let (w, es) := w.sendPieces ms
    (w, e :: es)

/-! Close -/

/-- Errors of `Close` (pkg/webextensions/frame.go:144-158). -/
inductive CloseErr (ε : Type) where
  | reader (e : ε)
  | writer (e : ε)
  | outBufferNotEmpty
  deriving Repr, DecidableEq

/-- Which stream a close call was made on. -/
inductive Closed where
  | reader
  | writer
  deriving Repr, DecidableEq

/-- `SplitFrameReadWriteCloser.Close` (pkg/webextensions/frame.go:144-158).  `rClose`, `wClose`
are the results of closing the two streams (`none` = nil).  Returns the calls made, the result
and the writer after the deferred `Discard`. -/
def splitClose {ε : Type} (rClose wClose : Option ε) (w : Writer) :
    List Closed × Option (CloseErr ε) × Writer :=
  let calls := [Closed.reader, Closed.writer]
  let result :=
    match rClose with
    | some e => some (CloseErr.reader e)
    | none =>
      match wClose with
      | some e => some (CloseErr.writer e)
      | none => if !w.empty then some CloseErr.outBufferNotEmpty else none
  (calls, result, w.discard)

end Burl.Frame
