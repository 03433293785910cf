import Verif.JsonText.Codec
import Verif.Rpc.Client
/-! Model of requests and replies as texts on the side of a client in Go: `jsonrpc.NewClientCodec`
under the codec of pkg/webextensions/client.go:27-58.

Standard library, package `net/rpc/jsonrpc`: `clientRequest`, `clientResponse`, `WriteRequest`,
`ReadResponseHeader` of the client codec; package `encoding/json`: `Encoder.Encode`, `Decoder.Decode`
after the end of a value has been found (`Verif.Rpc.Decoder`). -/
namespace Burl.JsonText
open Burl
open Burl.Json (Json)
open Burl.Rpc.Server (Request)
open Burl.Rpc.Client (Message ErrField)

/-- `Encoder.Encode` of `clientRequest`: the parameter of a request is the array `Params`, the
identifier is `Id` (pkg/webextensions/client.go:34-39). -/
def requestText (short : Bool) (q : Request Nat Json) : Bytes :=
  123 :: (named "method" (encStr short q.method) ++ 44 :: (named "params" (enc short (q.params.getD .null)) ++
    44 :: (named "id" (encNat (q.id.getD 0)) ++ [125, 10])))

/-- Decoding of a field of the type `uint64`; `null` leaves it as it is. -/
def uintField (x : Bytes) (old : Nat) : Option Nat :=
  match parse x with
  | some .null => some old
  | some (.num n) => if x.head? = some 45 ∨ ¬ n < 2 ^ 64 then none else some n.toNat
  | _ => none

/-- Decoding of a field of the type `any`.  Simplification: a number that is not a float is an error
here; it ends reading in `ReadResponseHeader` anyway, with another message. -/
def errField (x : Bytes) : Option ErrField :=
  match parse x with
  | some .null => some .absent
  | some (.str s) => some (.text s)
  | some _ => some .other
  | none => none

/-- Members of a reply are stored into `clientResponse`; `none` is for an error. -/
def fields : List (Str × Bytes) → Message Bytes → Option (Message Bytes)
  | [], m => some m
  | (k, x) :: ms, m =>
    if Backend.sameName "id".toList k then
      (uintField x m.id).bind fun n => fields ms { m with id := n }
    else if Backend.sameName "result".toList k then fields ms { m with result := rawField x }
    else if Backend.sameName "error".toList k then
      (errField x).bind fun e => fields ms { m with error := e }
    else fields ms m

/-- `(*clientCodec).ReadResponseHeader`: the reply in a text whose end has been found by the
scanner. -/
def response (s : Bytes) : Option (Message Bytes) :=
  match skip s with
  | [] => none
  | b :: r =>
    if b = 123 then
      if (skip r).head? = some 125 then fields [] ⟨0, none, .absent⟩
      else (rawMembers s.length r).bind fun ms => fields ms ⟨0, none, .absent⟩
    else if b = 110 then some ⟨0, none, .absent⟩
    else none

/-- Replies that are read from the output of a backend (pkg/webextensions/client.go:41-46). -/
def responses (input : Frame.Src) : List (Message Bytes) :=
  (Rpc.session Rpc.json (fun s => (response s).isSome) input).1.filterMap response

end Burl.JsonText
