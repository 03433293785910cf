import Verif.JsonText.Codec
/-! Model of the example backend
(examples/webextensions_backend/webextensions_example_backend.go).

Requests and replies are those of `Verif.Rpc.Server` and `Verif.JsonText.Codec`: the program has the
same codec as burl_backend but no map of names of methods.  Standard library: `math.Sqrt`,
`time.Sleep`, conversion of numbers of the type `float64` from and to JSON; numbers are any type with
such functions (`Floats`). -/
namespace Burl.Example
open Burl
open Burl.Json (Json)
open Burl.Rpc (lookup)

/-- Finite numbers of the type `float64` and functions of the standard library. -/
structure Floats where
  F : Type
  zero : F
  /-- `<`. -/
  lt : F → F → Bool
  /-- `math.Sqrt`; its results for finite numbers that are not negative are finite. -/
  sqrt : F → F
  /-- `json.Unmarshal` of a number; nothing for other values and numbers out of range. -/
  read : Json → Option F
  /-- `json.Marshal`. -/
  write : F → Json

/-- Exported methods of `*ExampleBackend` (webextensions_example_backend.go:34, 42). -/
inductive Method where
  | sqrt | sleep
  deriving Repr, DecidableEq

/-- Names of methods (webextensions_example_backend.go:34, 42). -/
def methods : List (Str × Method) := [("Sqrt".toList, .sqrt), ("Sleep".toList, .sleep)]

/-- `rpc.RegisterName` (webextensions_example_backend.go:51). -/
def services : List (Str × List (Str × Method)) := [("example".toList, methods)]

/-- `readRequestHeader` of `net/rpc`; names are used as they are
(webextensions_example_backend.go:52). -/
instance : Rpc.Server.Methods Method where
  find name := match lookup services name with
    | .error e => .error (Rpc.Server.missingText e name)
    | .ok m => .ok m

/-- Arguments of methods (webextensions_example_backend.go:34, 42). -/
inductive Arg (f : Floats) where
  | sqrt (x : f.F)
  | sleep (t : Int)

/-- `float64`. -/
def decFloat (f : Floats) : Backend.Dec f.F where
  ok
    | .null => true
    | v => (f.read v).isSome
  apply
    | .null, old => old
    | v, old => (f.read v).getD old

/-- `ReadRequestBody` of `net/rpc/jsonrpc`. -/
def argument (f : Floats) (m : Method) (p : Json) : Option (Arg f) :=
  match m with
  | .sqrt => (Backend.decParams (decFloat f) f.zero p).map .sqrt
  | .sleep => (Backend.decParams Backend.decInt 0 p).map .sleep

/-- `Sqrt` (webextensions_example_backend.go:34-40): the result and the error. -/
def sqrt (f : Floats) (x : f.F) : f.F × Option Str :=
  if f.lt x f.zero then (f.zero, some "square root of negative number".toList)
  else (f.sqrt x, none)

/-- Nanoseconds `Sleep` waits for (webextensions_example_backend.go:44-46): the product is that of
numbers of 64 bits, and `time.Sleep` returns at once if it is not positive. -/
def pause (t : Int) : Int :=
  if t > 0 then
    let d := Tree.wrap64 (t * 1000000)
    if d > 0 then d else 0
  else 0

/-- Results and errors of methods (webextensions_example_backend.go:34-48). -/
inductive Returns (f : Floats) : Method → Arg f → Json → Option Str → Prop where
  | sqrt {x} : Returns f .sqrt (.sqrt x) (f.write (sqrt f x).1) (sqrt f x).2
  | sleep {t} : Returns f .sleep (.sleep t) (.num t) none

/-- The program (webextensions_example_backend.go:50-54). -/
def world (f : Floats) : Rpc.Server.World Json (Arg f) Json Method where
  unmarshal m p :=
    match argument f m p with
    | some a => .ok a
    | none => .error "json: cannot unmarshal".toList
  returns := Returns f
  panics _ _ := False
  invalid := .obj []
  encodes _ := true

end Burl.Example
