import Verif.Rpc.Dispatch
/-! Model of a session of the backend from requests to replies: `rpc.ServeCodec`
(cmd/burl_backend/burl_backend.go:338-340) over the codec of pkg/webextensions/server.go:30-52 and
`jsonrpc.NewServerCodec`.

Standard library, package `net/rpc`: `(*Server).ServeCodec`, `readRequest`, `readRequestHeader`,
`sendResponse`, `(*service).call`; package `net/rpc/jsonrpc`: `ReadRequestHeader`,
`ReadRequestBody`, `WriteResponse` with the table `pending` of identifiers.

Goroutines are the reading loop and one for every call of a method; any of them may make the next
step.  The bytes of frames are the subject of `Verif.Rpc.Decoder` and `Verif.Rpc.Sending`: here a
request is what has been decoded from a frame, and a reply that is written while the mutex
`sending` is held is added to the output as a whole.  Requests end when `ReadRequestHeader` fails:
at the end of the input or at a frame that is not a request.  Sequence numbers do not wrap around. -/
namespace Burl.Rpc.Server

/-- `serverRequest` of `net/rpc/jsonrpc`; `none` is for `nil` (absent or `null`). -/
structure Request (Id P : Type) where
  id : Option Id
  method : Str
  params : Option P

/-- Result or error of a reply. -/
inductive Body (V : Type) where
  | result (v : V)
  | error (msg : Str)
  deriving DecidableEq

/-- `serverResponse` of `net/rpc/jsonrpc`; the identifier `none` is written as `null`. -/
structure Reply (Id V : Type) where
  id : Option Id
  body : Body V

/-- What is outside of this file: conversion of parameters to the argument of a method
(`json.Unmarshal`), results and panics of methods, the value `invalidRequest` of `net/rpc`, results
that can be written as JSON. -/
structure World (P A V : Type) (M : Type := Method) where
  unmarshal : M → P → Except Str A
  returns : M → A → V → Option Str → Prop
  panics : M → A → Prop
  invalid : V
  encodes : V → Bool

/-- Messages of `readRequestHeader`. -/
def missingText (e : DispatchErr) (serviceMethod : Str) : Str :=
  match e with
  | .illFormed => "rpc: service/method request ill-formed: ".toList ++ serviceMethod
  | .noService => "rpc: can't find service ".toList ++ serviceMethod
  | .noMethod => "rpc: can't find method ".toList ++ serviceMethod

/-- The same for the backend. -/
def dispatchText (e : DispatchErr) (name : Str) : Str := missingText e (mapName methodMap name)

/-- Methods of a program: `readRequestHeader` of `net/rpc` with the codec of the program. -/
class Methods (M : Type) where
  find : Str → Except Str M

/-- Methods of the backend (cmd/burl_backend/burl_backend.go:317-340). -/
instance : Methods Method where
  find name := match dispatch name with
    | .error e => .error (dispatchText e name)
    | .ok m => .ok m

/-- `readRequest` after the header has been read: the method and its argument, or an error. -/
def prepare {Id P A V M : Type} [Methods M] (w : World P A V M) (r : Request Id P) :
    Except Str (M × A) :=
  match Methods.find r.method with
  | .error t => .error t
  | .ok m =>
    match r.params with
    | none => .error "jsonrpc: request body missing params".toList
    | some p =>
      match w.unmarshal m p with
      | .error t => .error t
      | .ok a => .ok (m, a)

/-- `sendResponse` and the part of `WriteResponse` that fills in the response: an empty message is
not an error. -/
def respond {V : Type} (reply : V) (errmsg : Str) : Body V :=
  if errmsg ≠ [] then .error errmsg else .result reply

/-- The end of `(*service).call`. -/
def returned {V : Type} (v : V) (err : Option Str) : Body V := respond v (err.getD [])

/-- `json.Marshal` of a response.  An error of a method is a string. -/
def Body.encodes {P A V M : Type} (w : World P A V M) : Body V → Bool
  | .result v => w.encodes v
  | .error _ => true

/-- What is done for a request. -/
inductive Pc (Id A V : Type) (M : Type := Method) where
  | idle                                  -- not read yet
  | got                                   -- the header is read
  | running (m : M) (a : A)               -- a method is called in its goroutine
  | want (b : Body V)                     -- in `sendResponse`, before `sending.Lock()`
  | writing (id : Option Id) (b : Body V) -- the mutex is locked, the identifier is taken
  | done

/-- The loop of `ServeCodec`. -/
inductive Loop where
  | ready           -- about to read a header
  | busy (k : Nat)  -- handles a request itself
  | waiting         -- in `wg.Wait()`
  | closed          -- `codec.Close()` is called

/-- The state.  `seen` and `log` are not in the code: requests that have been read, and what has
been done with every response: the reply and whether it has got to the output. -/
structure State (Id P A V : Type) (M : Type := Method) where
  todo : List (Request Id P)
  seq : Nat
  pending : List (Nat × Option Id)
  pc : Nat → Pc Id A V M
  loop : Loop
  lock : Option Nat
  out : List (Reply Id V)
  broken : Bool
  crashed : Bool
  seen : List (Request Id P)
  log : List (Nat × Reply Id V × Bool)

variable {Id P A V M : Type}

/-- Before the first request (cmd/burl_backend/burl_backend.go:338-340). -/
def start (reqs : List (Request Id P)) : State Id P A V M :=
  ⟨reqs, 0, [], fun _ => .idle, .ready, none, [], false, false, [], []⟩

/-- Assignment to one element. -/
def set (f : Nat → Pc Id A V M) (k : Nat) (p : Pc Id A V M) : Nat → Pc Id A V M :=
  fun i => if i = k then p else f i

/-- The loop goes on after its own response. -/
def Loop.after (l : Loop) (k : Nat) : Loop :=
  match l with
  | .busy i => if i = k then .ready else .busy i
  | l => l

/-- Steps of goroutines. -/
inductive Step [Methods M] (w : World P A V M) : State Id P A V M → State Id P A V M → Prop where
  /-- `codec.ReadRequestHeader`: `c.seq++; c.pending[c.seq] = c.req.Id`. -/
  | read {s r rest} : s.crashed = false → s.loop = .ready → s.todo = r :: rest →
      Step w s { s with todo := rest, seq := s.seq + 1, pending := (s.seq + 1, r.id) :: s.pending,
                        pc := set s.pc (s.seq + 1) .got, loop := .busy (s.seq + 1),
                        seen := s.seen ++ [r] }
  /-- The request can not be served: `sendResponse` is called by the loop. -/
  | refuse {s k r t} : s.crashed = false → s.loop = .busy k → (s.pc k = .got) →
      s.seen[k - 1]? = some r → prepare w r = .error t →
      Step w s { s with pc := set s.pc k (.want (respond w.invalid t)) }
  /-- `wg.Add(1); go service.call(...)`. -/
  | spawn {s k r m a} : s.crashed = false → s.loop = .busy k → (s.pc k = .got) →
      s.seen[k - 1]? = some r → prepare w r = .ok (m, a) →
      Step w s { s with pc := set s.pc k (.running m a), loop := .ready }
  /-- The method returns. -/
  | finish {s k m a v err} : s.crashed = false → s.pc k = .running m a → w.returns m a v err →
      Step w s { s with pc := set s.pc k (.want (returned v err)) }
  /-- The method panics: the process is terminated. -/
  | panic {s k m a} : s.crashed = false → s.pc k = .running m a → w.panics m a →
      Step w s { s with crashed := true }
  /-- `sending.Lock(); b := c.pending[r.Seq]; delete(c.pending, r.Seq)`. -/
  | take {s k b id} : s.crashed = false → s.pc k = .want b → s.lock = none →
      s.pending.lookup k = some id →
      Step w s { s with lock := some k, pending := s.pending.filter (fun p => p.1 != k),
                        pc := set s.pc k (.writing id b) }
  /-- The same, "invalid sequence number in response". -/
  | stray {s k b} : s.crashed = false → s.pc k = .want b → s.lock = none →
      s.pending.lookup k = none →
      Step w s { s with pc := set s.pc k .done, loop := s.loop.after k }
  /-- Encoding, `WriteFrame` and `sending.Unlock()`. -/
  | write {s k id b} : s.crashed = false → s.pc k = .writing id b →
      Step w s { s with lock := none, pc := set s.pc k .done, loop := s.loop.after k,
                        out := s.out ++ (if b.encodes w && !s.broken then [⟨id, b⟩] else []),
                        log := s.log ++ [(k, ⟨id, b⟩, b.encodes w && !s.broken)] }
  /-- Nobody reads the output any more. -/
  | break_ {s} : s.crashed = false → s.broken = false → Step w s { s with broken := true }
  /-- `ReadRequestHeader` fails. -/
  | eof {s} : s.crashed = false → s.loop = .ready → s.todo = [] → Step w s { s with loop := .waiting }
  /-- `wg.Wait()` and `codec.Close()`. -/
  | close {s} : s.crashed = false → s.loop = .waiting →
      (∀ k, 1 ≤ k → k ≤ s.seq → s.pc k = .done) → Step w s { s with loop := .closed }

/-- Any number of steps. -/
inductive Steps [Methods M] (w : World P A V M) (s : State Id P A V M) : Nat → State Id P A V M → Prop where
  | refl : Steps w s 0 s
  | step {n t u} : Steps w s n t → Step w t u → Steps w s (n + 1) u

end Burl.Rpc.Server
