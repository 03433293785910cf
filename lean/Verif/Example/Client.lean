import Verif.Example.Model
import Verif.Rpc.Command
import Verif.Tool.Client
/-! Model of the example client
(examples/webextensions_client/webextensions_example_client.go).

Calls are those of `Verif.Rpc.Client`, the process is started as in `Verif.Rpc.Command`.  Lines that
are printed are not texts but what they tell about. -/
namespace Burl.Example
open Burl
open Burl.Json (Json)
open Burl.Rpc.Command (Os newClientCommand StartErr)

/-- `client.Call("example.Sqrt", &query, &result)` (webextensions_example_client.go:40); a result is
stored by `json.Unmarshal`. -/
def query (f : Floats) (x : f.F) : Rpc.Client.Call Json Bytes where
  method := "example.Sqrt".toList
  param := .arr [f.write x]
  accepts t := match JsonText.unmarshal t with
    | some v => (decFloat f).ok v
    | none => false

/-- Calls of the program (webextensions_example_client.go:48-49). -/
def queries (f : Floats) (two minus : f.F) : List (Rpc.Client.Call Json Bytes) :=
  [query f two, query f minus]

/-- A line of the output (webextensions_example_client.go:42, 44). -/
inductive Line (f : Floats) where
  | result (query result : f.F)
  | error (query : f.F) (e : Rpc.Client.Outcome Bytes)

/-- `result` after the call (webextensions_example_client.go:39-40). -/
def stored (f : Floats) (t : Bytes) : f.F :=
  match JsonText.unmarshal t with
  | some v => (decFloat f).apply v f.zero
  | none => f.zero

/-- What is printed for a call (webextensions_example_client.go:41-45). -/
def printed (f : Floats) (x : f.F) : Rpc.Client.Outcome Bytes → Line f
  | .reply t => .result x (stored f t)
  | o => .error x o

/-- Why the program ends (webextensions_example_client.go:53-65). -/
inductive Ending where
  | help            -- `flag.Parse` has printed the usage
  | badFlags        -- the same, after an error
  | usage           -- "Usage: … BACKEND_COMMAND ARG..."
  | notStarted      -- "backend error", from `NewClientCommand`
  | closeFailed     -- "backend error", from `Close`
  | done
  deriving DecidableEq

/-- The exit status: `flag.Parse` ends the program with 0 or 2. -/
def Ending.status : Ending → Nat
  | .help => 0
  | .badFlags => 2
  | .done => 0
  | _ => 1

/-- `main` (webextensions_example_client.go:26-65) if calls end so and `Close` returns that: the
backend that has been started, the output, the end. -/
def main (os : Os) (f : Floats) (two minus : f.F) (args : List Str)
    (first second : Rpc.Client.Outcome Bytes) (close : Rpc.Command.Result) :
    Option (Str × List Str) × List (Line f) × Ending :=
  match Tool.Client.topFlags args with
  | .error .help => (none, [], .help)
  | .error _ => (none, [], .badFlags)
  | .ok words =>
    match newClientCommand os words with
    | .error .noCommand => (none, [], .usage)
    | .error _ => (none, [], .notStarted)
    | .ok cmd => (some cmd, [printed f two first, printed f minus second],
        if close = .nil then .done else .closeFailed)

end Burl.Example
