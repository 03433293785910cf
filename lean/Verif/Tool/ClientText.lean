import Verif.Tool.Client
import Verif.JsonText.Indent
import Verif.JsonText.Raw
/-! Model of values of the type `interface{}` in the command-line client: the reply that is printed
(tools/burl_client/burl_client.go:145, 164-167) and the argument of `hello` (burl_client.go:86-90).

Standard library, package `encoding/json`: `valueInterface`, `arrayInterface`, `objectInterface`,
`convertNumber`, `mapEncoder`.

Simplification.  A number becomes a `float64` and is written as the shortest text for it; `float`
stands for both, it gives nothing if the number does not fit. -/
namespace Burl.Tool.Client
open Burl
open Burl.Json (Json)

/-- `m[key] = v` in `objectInterface`; members are kept in the order of names in which `mapEncoder`
writes them. -/
def store (k : Str) (v : Json) : List (Str × Json) → List (Str × Json)
  | [] => [(k, v)]
  | m :: ms =>
    if k = m.1 then (k, v) :: ms
    else if k < m.1 then (k, v) :: m :: ms
    else m :: store k v ms

mutual
/-- A value as an `interface{}`. -/
def generic (float : Json → Option Json) : Json → Option Json
  | .null => some .null
  | .bool b => some (.bool b)
  | .str s => some (.str s)
  | .num n => float (.num n)
  | .real t => float (.real t)
  | .arr vs => (genericAll float vs).map .arr
  | .obj ms => (genericMembers float ms []).map .obj
/-- `arrayInterface`. -/
def genericAll (float : Json → Option Json) : List Json → Option (List Json)
  | [] => some []
  | v :: vs => (generic float v).bind fun w => (genericAll float vs).map (w :: ·)
/-- `objectInterface`. -/
def genericMembers (float : Json → Option Json) : List (Str × Json) → List (Str × Json) → Option (List (Str × Json))
  | [], acc => some acc
  | m :: ms, acc => (generic float m.2).bind fun w => genericMembers float ms (store m.1 w acc)
end

/-- `json.Unmarshal` of an argument into an `interface{}` (burl_client.go:90). -/
def parseArgument (float : Json → Option Json) (text : Str) : Option Json :=
  (JsonText.unmarshal (JsonText.utf8 text)).bind (generic float)

/-- The text in `callHello` (burl_client.go:92-104). -/
def helloText : Str := ("{\n" ++
  "\t\"version\": \"0.2\",\n" ++
  "\t\"formats\": [\n" ++
  "\t\t{ \"format\": \"org\", \"version\": \"0.2\" },\n" ++
  "\t\t{ \"format\": \"object\", \"version\": \"0.2\" },\n" ++
  "\t\t{\n" ++
  "\t\t\t\"format\": \"org-protocol\",\n" ++
  "\t\t\t\"version\": \"0.2\",\n" ++
  "\t\t\t\"options\": { \"format\": \"org\", \"version\": \"0.2\", \"clipboardForBody\": false }\n" ++
  "\t\t}\n" ++
  "\t]\n" ++
  "}").toList

/-- The standard output (burl_client.go:164-167).  A result that does not fit into an `interface{}` is
an error of the call. -/
def output (short : Bool) (float : Json → Option Json) (r : Run) : Bytes :=
  match r.printed.bind (generic float) with
  | none => []
  | some g => JsonText.printed short g

end Burl.Tool.Client
