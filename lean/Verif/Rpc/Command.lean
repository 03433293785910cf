import Verif.Base
/-! Model of `ClientCommand` (pkg/webextensions/client.go:59-96): a backend started by a client, and
`Close`, which closes the pipes and waits for the process.

The client and the backend are processes connected by two pipes.  Requests and responses are
numbers, what they say is the subject of `Verif.Rpc.Client` and `Verif.Rpc.Server`.  Standard
library: `net/rpc` (`(*Client).Close`, `send`, `input`, `(*Server).ServeCodec`, which waits for
running calls after its loop), `os/exec` (`Start`, `Wait`), signals (a write to a standard output
that nobody can read ends a Go program by SIGPIPE).

Simplifications: pipes hold whole messages; a request that is cut by closing of the pipe ends the
loop of the server as the end of input does, so it is not distinguished; closing of a pipe does not
fail; the section of `Close` in frame.go:152-157, which looks at the buffer without a lock, is one
step with closing of the writer.  There is one call of `Close`: later ones return `ErrShutdown`.
A method ends sooner or later, or crashes the process. -/
namespace Burl.Rpc.Command
open Burl

/-- Errors of `NewClientCommand`. -/
inductive StartErr where
  | noCommand     -- `ErrNoCommand`
  | pipe          -- `StdinPipe` or `StdoutPipe`
  | start         -- `Start`
  deriving DecidableEq

/-- What the operating system does: whether pipes are created and the command is started. -/
structure Os where
  stdin : Bool
  stdout : Bool
  start : Str → List Str → Bool

/-- `NewClientCommand` (client.go:75-96): the program that is running and its arguments. -/
def newClientCommand (os : Os) (args : List Str) : Except StartErr (Str × List Str) :=
  match args with
  | [] => .error .noCommand
  | cmd :: rest =>
    if os.stdin = false then .error .pipe
    else if os.stdout = false then .error .pipe
    else if os.start cmd rest = false then .error .start
    else .ok (cmd, rest)

/-- How the process of the backend has ended. -/
inductive Exit where
  | success
  | signal     -- SIGPIPE
  | crash
  deriving DecidableEq

/-- What `Close` of the codec returns: `ErrOutBufferNotEmpty` (frame.go:154-156) or nil. -/
abbrev CloseErr := Bool

/-- What `ClientCommand.Close` returns (client.go:64-71). -/
inductive Result where
  | nil
  | buffer           -- `errClose`
  | wait (e : Exit)  -- `errWait`
  deriving DecidableEq

/-- Where `ClientCommand.Close` is. -/
inductive Closer where
  | no
  | begun                  -- `client.closing = true`
  | reader                 -- `s.R.Close()` (frame.go:146) has been called
  | waiting (e : CloseErr) -- `s.W.Close()` (frame.go:147) too, then `c.Command.Wait()`
  | returned (r : Result)
  deriving DecidableEq

/-- client.go:67-70 -/
def result (e : CloseErr) (x : Exit) : Result :=
  if e then .buffer
  else match x with
    | .success => .nil
    | x => .wait x

/-- The client, two pipes and the backend.  Not in the code: `sent` are requests written to the
pipe, `answered` are responses read by the client. -/
structure State where
  closer : Closer
  rOpen : Bool             -- the end of the client for reading
  wOpen : Bool             -- the end of the client for writing
  input : Bool             -- the goroutine `input` is running
  buffer : Option Nat      -- a request between `Encode` and `WriteFrame` (client.go:34-39)
  toBackend : List Nat
  fromBackend : List Nat
  loop : Bool              -- the loop of `ServeCodec`
  calls : List Nat         -- methods that are running
  done : List Nat          -- responses to be written
  exit : Option Exit
  sent : List Nat
  answered : List Nat

/-- client.go:93-94 -/
def fresh : State := ⟨.no, true, true, true, none, [], [], true, [], [], none, [], []⟩

/-- Steps; `cap` is the capacity of the pipe for responses. -/
inductive Step (cap : Nat) : State → State → Prop where
  /-- `send` of `net/rpc` and `c.ClientCodec.WriteRequest` (client.go:35). -/
  | encode {s} (r : Nat) : s.closer = .no → s.buffer = none → Step cap s { s with buffer := some r }
  /-- `WriteFrame` (client.go:38). -/
  | frame {s r} : s.buffer = some r → s.wOpen = true → s.exit = none →
      Step cap s { s with buffer := none, toBackend := s.toBackend ++ [r], sent := s.sent ++ [r] }
  /-- An error of `WriteFrame`: the pipe is closed or the backend has ended. -/
  | frameFail {s r} : s.buffer = some r → (s.wOpen = false ∨ s.exit ≠ none) →
      Step cap s { s with buffer := none }
  /-- `input` of `net/rpc`, `ReadResponseHeader` (client.go:41-46). -/
  | receive {s r rs} : s.input = true → s.rOpen = true → s.fromBackend = r :: rs →
      Step cap s { s with fromBackend := rs, answered := s.answered ++ [r] }
  /-- `input` ends: a wrong response, a failure or the end of reading. -/
  | inputEnd {s} : s.input = true → Step cap s { s with input := false }
  /-- `Close` (client.go:64-65). -/
  | close {s} : s.closer = .no → Step cap s { s with closer := .begun }
  /-- frame.go:146 -/
  | closeReader {s} : s.closer = .begun → Step cap s { s with closer := .reader, rOpen := false }
  /-- frame.go:147-157 -/
  | closeWriter {s} : s.closer = .reader →
      Step cap s { s with closer := .waiting s.buffer.isSome, wOpen := false }
  /-- client.go:66-70 -/
  | wait {s e x} : s.closer = .waiting e → s.exit = some x →
      Step cap s { s with closer := .returned (result e x) }
  /-- The backend reads a request and calls its method in a goroutine. -/
  | take {s r rs} : s.exit = none → s.loop = true → s.toBackend = r :: rs →
      Step cap s { s with toBackend := rs, calls := s.calls ++ [r] }
  /-- The end of requests. -/
  | eof {s} : s.exit = none → s.loop = true → s.toBackend = [] → s.wOpen = false →
      Step cap s { s with loop := false }
  /-- A method has returned. -/
  | finish {s pre r post} : s.exit = none → s.calls = pre ++ r :: post →
      Step cap s { s with calls := pre ++ post, done := s.done ++ [r] }
  /-- A method ends the process. -/
  | crash {s r} : s.exit = none → r ∈ s.calls → Step cap s { s with exit := some .crash }
  /-- A response is written if there is room. -/
  | respond {s pre r post} : s.exit = none → s.done = pre ++ r :: post → s.rOpen = true →
      s.fromBackend.length < cap →
      Step cap s { s with done := pre ++ post, fromBackend := s.fromBackend ++ [r] }
  /-- A response is written and nobody can read it. -/
  | sigpipe {s} : s.exit = none → s.done ≠ [] → s.rOpen = false →
      Step cap s { s with exit := some .signal }
  /-- `ServeCodec` returns after all calls, then `main` (cmd/burl_backend/burl_backend.go:338-341). -/
  | exit {s} : s.exit = none → s.loop = false → s.calls = [] → s.done = [] →
      Step cap s { s with exit := some .success }

/-- Any number of steps. -/
inductive Steps (cap : Nat) (s : State) : State → Prop where
  | refl : Steps cap s s
  | step {t u} : Steps cap s t → Step cap t u → Steps cap s u

end Burl.Rpc.Command
