import Verif.Rpc.Server
/-! Model of the client of a backend: `rpc.Client` over the codec of
pkg/webextensions/client.go:27-58 and `jsonrpc.NewClientCodec`, as it is created by
`NewClientCommand` (client.go:75-96) and by tools/burl_client/burl_client.go:131-144.

Standard library, package `net/rpc`: `(*Client).send`, `input`, `Close`; package
`net/rpc/jsonrpc`: `WriteRequest`, `ReadResponseHeader`, `ReadResponseBody` of the client codec.

Goroutines are those that make calls, the reader `input` and those that call `Close`.  A section of
code under the mutex `client.mutex` is one step; `client.reqMutex`, which is held while a request
is written, is modelled.  What arrives from the backend is arbitrary and so are failures of reading
and writing; a write ends sooner or later.  The bytes of frames are the subject of `Verif.Frame` and
`Verif.Rpc.Sending`.  Sequence numbers do not wrap around. -/
namespace Burl.Rpc.Client
open Burl.Rpc.Server (Request)

/-- Field `Error` of `clientResponse` of `net/rpc/jsonrpc`. -/
inductive ErrField where
  | absent             -- nil: no member or `null`
  | text (s : Str)
  | other              -- any other JSON value
  deriving DecidableEq

/-- `clientResponse` of `net/rpc/jsonrpc`: `Result` is nil if there is no such member or it is
`null`, `Id` is 0 if there is no such member or it is `null`. -/
structure Message (R : Type) where
  id : Nat
  result : Option R
  error : ErrField

/-- `r.Error` after `ReadResponseHeader` of `net/rpc/jsonrpc`; nothing if it fails with
`invalid error`. -/
def Message.header {R : Type} (m : Message R) : Option Str :=
  if m.error ≠ .absent ∨ m.result.isNone then
    match m.error with
    | .text x => some (if x = [] then "unspecified error".toList else x)
    | _ => none
  else some []

/-- A call: method, the only parameter, and whether a result can be stored in the variable for the
reply (`json.Unmarshal` in `ReadResponseBody`). -/
structure Call (P R : Type) where
  method : Str
  param : P
  accepts : R → Bool

/-- Why the reader stops. -/
inductive Fault where
  | eof
  | invalid      -- "invalid error"
  | badBody      -- `json.Unmarshal` of a result
  | read         -- any other failure
  deriving DecidableEq

/-- How a call ends: `Reply` or `Error` of `rpc.Call`. -/
inductive Outcome (R : Type) where
  | reply (r : R)
  | server (msg : Str)      -- `rpc.ServerError`
  | badBody                 -- "reading body"
  | unsent                  -- an error of `WriteRequest`
  | shutdown                -- `rpc.ErrShutdown`
  | unexpectedEOF           -- `io.ErrUnexpectedEOF`
  | broken (f : Fault)

/-- Where a call is in `send`. -/
inductive Pc where
  | idle
  | want                -- before `client.reqMutex.Lock()`
  | locked
  | writing (n : Nat)   -- registered, in `codec.WriteRequest`
  | failed (n : Nat)    -- `codec.WriteRequest` has returned an error
  | unlock              -- before `client.reqMutex.Unlock()`
  | sent                -- `send` has returned
  deriving DecidableEq

/-- Where `input` is. -/
inductive Input (R : Type) where
  | reading
  | deliver (call : Option Nat) (error : Str) (result : Option R)
  | ended (f : Fault)     -- after the loop
  | finished

/-- The client.  Not in the code: `calls` are all calls made, `ids` lists calls in the order of
their sequence numbers, `since` tells how many messages had been read when the numbers were given,
`sent` are requests that have been written, `bad` are calls whose requests could not be written,
`received` are messages read, `log` tells how calls have ended. -/
structure State (P R : Type) where
  calls : List (Call P R)
  pc : Nat → Pc
  owner : Option Nat             -- of `reqMutex`
  seq : Nat
  pending : List (Nat × Nat)     -- sequence number, call
  closing : Bool
  shutdown : Bool
  input : Input R
  ids : List Nat
  since : List Nat
  sent : List (Request Nat P)
  bad : List Nat
  received : List (Message R)
  log : List (Nat × Outcome R)

variable {P R : Type}

/-- `rpc.NewClientWithCodec` (pkg/webextensions/client.go:93,
tools/burl_client/burl_client.go:144). -/
def start : State P R :=
  ⟨[], fun _ => .idle, none, 0, [], false, false, .reading, [], [], [], [], [], []⟩

/-- Assignment to one element. -/
def set (f : Nat → Pc) (k : Nat) (p : Pc) : Nat → Pc := fun i => if i = k then p else f i

/-- The error of calls that are pending when `input` ends. -/
def lastError (f : Fault) (closing : Bool) : Outcome R :=
  match f with
  | .eof => if closing then .shutdown else .unexpectedEOF
  | f => .broken f

/-- The frame of a request: `clientRequest` of `net/rpc/jsonrpc` written by `WriteRequest`
(client.go:34-39). -/
def Call.request (c : Call P R) (n : Nat) : Request Nat P := ⟨some n, c.method, some c.param⟩

/-- Steps of goroutines. -/
inductive Step : State P R → State P R → Prop where
  /-- `Go` or `Call`. -/
  | call {s} (c : Call P R) :
      Step s { s with calls := s.calls ++ [c], pc := set s.pc s.calls.length .want }
  | lock {s i} : s.pc i = .want → s.owner = none →
      Step s { s with owner := some i, pc := set s.pc i .locked }
  /-- `if client.shutdown || client.closing`. -/
  | refuse {s i} : s.pc i = .locked → (s.shutdown || s.closing) = true →
      Step s { s with log := s.log ++ [(i, .shutdown)], pc := set s.pc i .unlock }
  /-- `seq := client.seq; client.seq++; client.pending[seq] = call`. -/
  | register {s i} : s.pc i = .locked → (s.shutdown || s.closing) = false →
      Step s { s with seq := s.seq + 1, pending := (s.seq, i) :: s.pending,
                      pc := set s.pc i (.writing s.seq),
                      ids := s.ids ++ [i], since := s.since ++ [s.received.length] }
  /-- `WriteRequest` (client.go:34-39). -/
  | write {s i n c} : s.pc i = .writing n → s.calls[i]? = some c →
      Step s { s with sent := s.sent ++ [c.request n], pc := set s.pc i .unlock }
  /-- An error of `WriteRequest`; the backend may have got the request nevertheless. -/
  | writeFail {s i n c} (got : Bool) : s.pc i = .writing n → s.calls[i]? = some c →
      Step s { s with sent := if got then s.sent ++ [c.request n] else s.sent,
                      bad := s.bad ++ [i], pc := set s.pc i (.failed n) }
  /-- `call = client.pending[seq]; delete(client.pending, seq)`, not nil. -/
  | giveUp {s i n j} : s.pc i = .failed n → s.pending.lookup n = some j →
      Step s { s with pending := s.pending.filter (fun e => e.1 != n),
                      log := s.log ++ [(j, .unsent)], pc := set s.pc i .unlock }
  /-- The same, nil. -/
  | gone {s i n} : s.pc i = .failed n → s.pending.lookup n = none →
      Step s { s with pc := set s.pc i .unlock }
  | unlock {s i} : s.pc i = .unlock →
      Step s { s with owner := none, pc := set s.pc i .sent }
  /-- `ReadResponseHeader` (client.go:41-46), then `call := client.pending[seq];
  delete(client.pending, seq)`. -/
  | receive {s e} (m : Message R) : s.input = .reading → m.header = some e →
      Step s { s with received := s.received ++ [m],
                      input := .deliver (s.pending.lookup m.id) e m.result,
                      pending := s.pending.filter (fun e => e.1 != m.id) }
  | invalid {s} (m : Message R) : s.input = .reading → m.header = none →
      Step s { s with input := .ended .invalid }
  /-- `ReadHeader` or the decoder fails. -/
  | fail {s f} : s.input = .reading → f = .eof ∨ f = .read → Step s { s with input := .ended f }
  /-- `case call == nil`. -/
  | ignore {s e r} : s.input = .deliver none e r → Step s { s with input := .reading }
  /-- `case response.Error != ""`. -/
  | error {s i e r} : s.input = .deliver (some i) e r → e ≠ [] →
      Step s { s with input := .reading, log := s.log ++ [(i, .server e)] }
  /-- `default`. -/
  | reply {s i v c} : s.input = .deliver (some i) [] (some v) → s.calls[i]? = some c →
      c.accepts v = true →
      Step s { s with input := .reading, log := s.log ++ [(i, .reply v)] }
  | badBody {s i v c} : s.input = .deliver (some i) [] (some v) → s.calls[i]? = some c →
      c.accepts v = false →
      Step s { s with input := .ended .badBody, log := s.log ++ [(i, .badBody)] }
  /-- After the loop of `input`. -/
  | terminate {s f} : s.input = .ended f → s.owner = none →
      Step s { s with shutdown := true, input := .finished,
                      log := s.log ++ s.pending.map (fun e => (e.2, lastError f s.closing)) }
  /-- `Close`; if `closing` is set already, it does nothing and returns `ErrShutdown`. -/
  | close {s} : s.closing = false → Step s { s with closing := true }

/-- Any number of steps. -/
inductive Steps (s : State P R) : State P R → Prop where
  | refl : Steps s s
  | step {t u} : Steps s t → Step t u → Steps s u

end Burl.Rpc.Client
