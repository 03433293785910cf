import Verif.Frame.Model
/-! Model of concurrent replies: `net/rpc` `(*Server).sendResponse` (standard library: takes the
per-connection `sending` mutex around `codec.WriteResponse`), `serverCodec.WriteResponse`
(pkg/webextensions/server.go:44-52), the JSON encoder writing into the shared `bytes.Buffer`,
and `WriteFrame` (pkg/webextensions/frame.go:93-107) as a sequence of small steps, so that any
two goroutines may be interleaved between any two bytes. -/
namespace Burl.Rpc
open Burl.Frame (putU32)

/-- Program counter of the goroutine that sends one reply. -/
inductive PC where
  /-- has not obtained `sending` yet -/
  | waiting
  /-- holds `sending`, about to encode (server.go:45) -/
  | locked
  /-- reply encoded into the buffer, about to call `WriteFrame` (server.go:48) -/
  | encoded
  /-- inside `binary.Write` of the size: bytes not yet handed to the kernel (frame.go:96) -/
  | header (rest : Bytes)
  /-- inside `Buffer.WriteTo`: `k` bytes of the shared buffer are already out (frame.go:99) -/
  | body (k : Nat)
  /-- after `WriteFrame` returned or encoding failed, about to release `sending` -/
  | unlocking
  | done
  deriving Repr, DecidableEq

/-- State shared by all goroutines of one connection. -/
structure State where
  pc : Nat → PC
  /-- holder of the mutex -/
  lock : Option Nat
  /-- the shared `bytes.Buffer` of `FrameBufferedWriter` -/
  buf : Bytes
  /-- bytes the other side of the pipe can see -/
  out : Bytes
  /-- the other side went away: every further write fails -/
  broken : Bool
  /-- ghost: the order in which goroutines obtained the mutex -/
  order : List Nat

/-- Before any response; nobody holds the mutex `sending` of `net/rpc`. -/
def State.init : State := ⟨fun _ => .waiting, none, [], [], false, []⟩

/-- Assignment to one element. -/
def setPc (f : Nat → PC) (i : Nat) (p : PC) : Nat → PC := fun j => if j = i then p else f j

/-- One step of goroutine `i`.  `msgs i` is the encoded reply, or `none` if encoding fails
(the JSON encoder then writes nothing). -/
inductive Step (msgs : Nat → Option Bytes) : State → State → Prop where
  /-- `sending.Lock()` -/
  | acquire (s : State) (i : Nat) : s.pc i = .waiting → s.lock = none →
      Step msgs s { s with pc := setPc s.pc i .locked, lock := some i, order := s.order ++ [i] }
  /-- encoder `Write` appends to the shared buffer -/
  | encode (s : State) (i : Nat) (m : Bytes) : s.pc i = .locked → msgs i = some m →
      Step msgs s { s with pc := setPc s.pc i .encoded, buf := s.buf ++ m }
  /-- encoding error, `WriteFrame` is not called (server.go:45-47) -/
  | encodeFail (s : State) (i : Nat) : s.pc i = .locked → msgs i = none →
      Step msgs s { s with pc := setPc s.pc i .unlocking }
  /-- size is computed from the shared buffer (frame.go:95) -/
  | enter (s : State) (i : Nat) : s.pc i = .encoded →
      Step msgs s { s with pc := setPc s.pc i (.header (putU32 (s.buf.length % 4294967296))) }
  /-- the kernel accepts `c` more bytes of the header -/
  | headerChunk (s : State) (i : Nat) (rest : Bytes) (c : Nat) : s.pc i = .header rest →
      s.broken = false → c ≤ rest.length →
      Step msgs s { s with pc := setPc s.pc i (.header (rest.drop c)), out := s.out ++ rest.take c }
  | headerDone (s : State) (i : Nat) : s.pc i = .header [] →
      Step msgs s { s with pc := setPc s.pc i (.body 0) }
  /-- the kernel accepts `c` more bytes of the shared buffer -/
  | bodyChunk (s : State) (i : Nat) (k c : Nat) : s.pc i = .body k → s.broken = false →
      k + c ≤ s.buf.length →
      Step msgs s { s with pc := setPc s.pc i (.body (k + c)),
                           out := s.out ++ (s.buf.drop k).take c }
  /-- deferred `Reset` (frame.go:94) -/
  | bodyDone (s : State) (i : Nat) (k : Nat) : s.pc i = .body k → k = s.buf.length →
      Step msgs s { s with pc := setPc s.pc i .unlocking, buf := [] }
  /-- the pipe breaks at any moment -/
  | break_ (s : State) : Step msgs s { s with broken := true }
  /-- a write on the broken pipe fails; the deferred `Reset` runs (frame.go:94-102) -/
  | headerFail (s : State) (i : Nat) (rest : Bytes) : s.pc i = .header rest → s.broken = true →
      Step msgs s { s with pc := setPc s.pc i .unlocking, buf := [] }
  | bodyFail (s : State) (i : Nat) (k : Nat) : s.pc i = .body k → s.broken = true →
      Step msgs s { s with pc := setPc s.pc i .unlocking, buf := [] }
  /-- `sending.Unlock()` -/
  | release (s : State) (i : Nat) : s.pc i = .unlocking →
      Step msgs s { s with pc := setPc s.pc i .done, lock := none }

/-- States reachable under some schedule. -/
inductive Reach (msgs : Nat → Option Bytes) : State → Prop where
  | init : Reach msgs State.init
  | step {s t : State} : Reach msgs s → Step msgs s t → Reach msgs t

end Burl.Rpc
