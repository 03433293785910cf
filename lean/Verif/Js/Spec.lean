import Verif.Js.Model
/-! What the answer to a call is, in terms of the events that follow it. -/
namespace Burl.Js.Spec
open Burl Burl.Js

/-- Values that are taken as absent by `if` of JavaScript. -/
def falsy : List Value := [.undefined, .null, .bool false, .num 0, .str []]

/-- Values of absent fields. -/
def absent : List Value := [.undefined, .null]

/-- The answer that a response carries, by JSON-RPC: an error unless its field is null. -/
def intended (r : Response) : Outcome :=
  if r.error ∈ absent then .resolved r.result else .rejected (.backend r.error)

/-- The outcome that the client takes from a response. -/
def verdict (r : Response) : Outcome :=
  if r.result ∉ falsy then .resolved r.result
  else if r.error ∉ falsy then .rejected (.backend r.error) else .rejected .invalid

/-- The answer to the call with the given identifier: the first response to it, unless the
connection is lost before. -/
def answer (verdict : Response → Outcome) (id : Nat) : List Event → Option Outcome
  | [] => none
  | .message (some r) :: es => if r.id = .num id then some (verdict r) else answer verdict id es
  | .message none :: es => answer verdict id es
  | .disconnected p :: _ => some (.rejected (.disconnected p))
  | .call _ _ _ _ :: es => answer verdict id es

/-- Responses whose result, if there is no error, is not one of `0`, `false`, `""` and `null`, and
that have no result otherwise. -/
def Plain (r : Response) : Prop :=
  (r.error ∈ absent ∧ r.result ∉ falsy) ∨ (r.error ∉ falsy ∧ r.result ∈ falsy)

/-- Ports whose disconnect has been reported. -/
def lost (history : List Event) : List Nat :=
  history.filterMap fun | .disconnected p => some p | _ => none

end Burl.Js.Spec
