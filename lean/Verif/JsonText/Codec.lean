import Verif.JsonText.Model
import Verif.Backend.Serve
/-! Model of requests and replies as texts: `jsonrpc.NewServerCodec`
(cmd/burl_backend/burl_backend.go:338-340, pkg/webextensions/server.go:37-52).

Standard library, package `net/rpc/jsonrpc`: `serverRequest`, `serverResponse`,
`ReadRequestHeader`, `ReadRequestBody`, `WriteResponse`; package `encoding/json`: `Decoder.Decode`
after the end of a value has been found (`Verif.Rpc.Decoder`), `RawMessage`, `Encoder.Encode`. -/
namespace Burl.JsonText
open Burl
open Burl.Json (Json)
open Burl.Rpc.Server (Request Reply Body)

/-- A value that is stored as its text (`json.RawMessage`), and the rest of a text. -/
def raw (s : Bytes) : Option (Bytes × Bytes) :=
  (value (2 * s.length + 2) s).map fun (_, rest) =>
    ((skip s).take ((skip s).length - rest.length), rest)

/-- `(*decodeState).object` after the opening bracket with texts in place of values.  The first
argument is a bound for the number of members. -/
def rawMembers : Nat → Bytes → Option (List (Str × Bytes))
  | 0, _ => none
  | f + 1, s =>
    match skip s with
    | [] => none
    | b :: r =>
      if b ≠ 34 then none
      else (string r).bind fun (k, r) =>
        match skip r with
        | [] => none
        | b :: r =>
          if b ≠ 58 then none
          else (raw r).bind fun (v, r) =>
            match skip r with
            | [] => none
            | b :: r =>
              if b = 44 then (rawMembers f r).map fun ms => (k, v) :: ms
              else if b = 125 then some [(k, v)]
              else none

/-- A field of the type `*json.RawMessage`. -/
def rawField (x : Bytes) : Option Bytes := if x = [110, 117, 108, 108] then none else some x

/-- Members of a request are stored into `serverRequest`; `none` is for an error. -/
def header : List (Str × Bytes) → Request Bytes Bytes → Option (Request Bytes Bytes)
  | [], r => some r
  | (k, x) :: ms, r =>
    if Backend.sameName "method".toList k then
      match parse x with
      | some (.str m) => header ms { r with method := m }
      | some .null => header ms r
      | _ => none
    else if Backend.sameName "params".toList k then header ms { r with params := rawField x }
    else if Backend.sameName "id".toList k then header ms { r with id := rawField x }
    else header ms r

/-- `(*serverCodec).ReadRequestHeader`: the request in a text whose end has been found by the
scanner. -/
def request (s : Bytes) : Option (Request Bytes Bytes) :=
  match skip s with
  | [] => none
  | b :: r =>
    if b = 123 then
      if (skip r).head? = some 125 then header [] ⟨none, [], none⟩
      else (rawMembers s.length r).bind fun ms => header ms ⟨none, [], none⟩
    else if b = 110 then some ⟨none, [], none⟩
    else none

/-- Requests that are read from the input of the backend (pkg/webextensions/server.go:37-42). -/
def requests (input : Frame.Src) : List (Request Bytes Bytes) :=
  (Rpc.session Rpc.json (fun s => (request s).isSome) input).1.filterMap request

/-- Methods for parameters that are texts: `ReadRequestBody`. -/
def textOf {A M : Type} (w : Rpc.Server.World Json A Json M) : Rpc.Server.World Bytes A Json M where
  unmarshal m p :=
    match unmarshal p with
    | none => .error "invalid character".toList
    | some v => w.unmarshal m v
  returns := w.returns
  panics := w.panics
  invalid := w.invalid
  encodes := w.encodes

/-- Methods of the backend. -/
abbrev textWorld (e : Backend.Env) : Rpc.Server.World Bytes Backend.Arg Json := textOf (Backend.world e)

/-- The text of a member. -/
def named (name : String) (v : Bytes) : Bytes := 34 :: (name.toList.flatMap putRune ++ 34 :: 58 :: v)

/-- The identifier of a reply. -/
def idText (short : Bool) : Option Bytes → Bytes
  | none => enc short .null
  | some x => compact false false x

/-- `Encoder.Encode` of `serverResponse`. -/
def replyText (short : Bool) (p : Reply Bytes Json) : Bytes :=
  let (v, err) := match p.body with
    | .result v => (v, .null)
    | .error t => (.null, .str t)
  123 :: (named "id" (idText short p.id) ++ 44 :: (named "result" (enc short v) ++
    44 :: (named "error" (enc short err) ++ [125, 10])))

/-- What has been written (pkg/webextensions/server.go:44-52). -/
def written (short : Bool) (out : List (Reply Bytes Json)) : Bytes :=
  (Frame.Writer.sendAll ⟨[], ⟨[], []⟩⟩ (out.map (replyText short))).1.w.out

end Burl.JsonText
