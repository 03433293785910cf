import Verif.Js.Spec
import Verif.JsonText.Codec
/-! Model of the example add-on together with its backends: calls of `sendMessage` with their
arguments (examples/webextensions_addon/rpc_client.js:32-50) and messages that browsers deliver.

The client is that of `Verif.Js.Model`; here its events have contents.  `JSON.stringify` and
`JSON.parse` are left to the specification (`Verif.Addon.Props`). -/
namespace Burl.Addon
open Burl
open Burl.Json (Json)
open Burl.Rpc.Server (Request)

/-- Calls and listeners (examples/webextensions_addon/rpc_client.js:32, 64, 79). -/
inductive Event where
  /-- `sendMessage(method, arg)`; the rest is as in `Js.Event`. -/
  | call (method : Str) (arg : Json) (skip : Nat) (portError connects posts : Bool)
  /-- A message from the backend of a port. -/
  | arrive (port : Nat) (message : Json)
  /-- The port has been disconnected. -/
  | disconnected (port : Nat)

/-- A value of a field. -/
def value : Json → Js.Value
  | .null => .null
  | .bool b => .bool b
  | .num n => .num n
  | .str s => .str s
  | v => .other v

/-- A field of a parsed message; the last one of several with the same name. -/
def field (name : String) : Json → Js.Value
  | .obj ms => match ms.reverse.find? fun m => m.1 == name.toList with
    | some m => value m.2
    | none => .undefined
  | _ => .undefined

/-- What `messageReceived` looks at (rpc_client.js:80-100). -/
def response : Json → Option Js.Response
  | .null => none
  | v => some ⟨field "id" v, field "result" v, field "error" v⟩

/-- The event without its contents. -/
def Event.js : Event → Js.Event
  | .call _ _ skip e c p => .call skip e c p
  | .arrive _ v => .message (response v)
  | .disconnected p => .disconnected p

/-- A posted request (rpc_client.js:37-40). -/
structure Post where
  port : Nat
  id : Nat
  method : Str
  arg : Json

/-- `{ id, method, params: [arg] }`. -/
def Post.request (p : Post) : Request Json Json := ⟨some (.num p.id), p.method, some (.arr [p.arg])⟩

/-- Requests posted by a handler (rpc_client.js:33-43). -/
def postedBy (s : Js.State) : Event → List Post
  | .call m a skip e c posts =>
    match Js.getPort s e c with
    | none => []
    | some (s', p) => if posts then [⟨p, s'.nextId + skip, m, a⟩] else []
  | _ => []

/-- Requests posted in a history. -/
def posted : Js.State → List Event → List Post
  | _, [] => []
  | s, e :: es => postedBy s e ++ posted (Js.step s e.js) es

/-- Requests posted to one port. -/
def sentTo (port : Nat) (history : List Event) : List (Request Json Json) :=
  ((posted {} history).filter fun p => p.port == port).map (·.request)

/-- Messages that have come from one port. -/
def arrived (port : Nat) (history : List Event) : List Json :=
  history.filterMap fun
    | .arrive p v => if p = port then some v else none
    | _ => none

/-- The client after a history. -/
def run (history : List Event) : Js.State := Js.run {} (history.map (·.js))

end Burl.Addon
