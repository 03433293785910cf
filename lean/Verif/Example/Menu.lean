import Verif.Addon.Model
/-! Model of the menu of the example add-on (examples/webextensions_addon/background.js).

The client is that of `Verif.Addon.Model`.  What is reported is what `console.log` and `reportError`
are called with (background.js:28-37, 53). -/
namespace Burl.Example
open Burl
open Burl.Json (Json)

/-- Events of the add-on: those of its own and those of the client. -/
inductive Event where
  /-- `runtime.onInstalled` (background.js:71). -/
  | installed
  /-- A click on an item of the menu; the rest is as in `Addon.Event`. -/
  | click (item : Str) (skip : Nat) (portError connects posts : Bool)
  /-- A message from the backend of a port. -/
  | arrive (port : Nat) (message : Json)
  /-- The port has been disconnected. -/
  | disconnected (port : Nat)

/-- The method that is called and its argument (background.js:17-25, 39-52). -/
def item (id : Str) : Option (Str × Json) :=
  if id = "1".toList then some ("example.Sqrt".toList, .num 2)
  else if id = "2".toList then some ("example.Sqrt".toList, .num (-2))
  else if id = "3".toList then some ("example.Sleep".toList, .num 1500)
  else none

/-- Why a click has failed. -/
inductive Failure where
  | unknown (item : Str)     -- "Unknown menuItemId …"
  | call (r : Js.Reason)

/-- What is reported for a click (background.js:53). -/
inductive Report where
  | result (v : Js.Value)
  | error (e : Failure)

/-- A click that has been heard: its item or the number of its call. -/
inductive Clicked where
  | unknown (item : Str)
  | call (n : Nat)
  deriving DecidableEq

/-- The add-on: whether `createMenu` has added its listener (background.js:57), events of the client,
clicks that have been heard. -/
structure Page where
  listening : Bool := false
  client : List Addon.Event := []
  clicks : List Clicked := []

/-- Handlers (background.js:39-58, 70-72).  A click calls a method or not. -/
def Page.step (p : Page) : Event → Page
  | .installed => { p with listening := true }
  | .click id skip pe cn posts =>
    if p.listening then
      match item id with
      | none => { p with clicks := p.clicks ++ [.unknown id] }
      | some (m, a) =>
        { p with client := p.client ++ [.call m a skip pe cn posts]
                 clicks := p.clicks ++ [.call (Addon.run p.client).calls.length] }
    else p
  | .arrive port v => { p with client := p.client ++ [.arrive port v] }
  | .disconnected port => { p with client := p.client ++ [.disconnected port] }

/-- The add-on after some events (background.js:70-75). -/
def page (history : List Event) : Page := history.foldl Page.step {}

/-- What has been reported for a click, nothing if its promise is pending (background.js:53). -/
def Page.report (p : Page) (k : Nat) : Option Report :=
  match p.clicks[k]? with
  | none => none
  | some (.unknown id) => some (.error (.unknown id))
  | some (.call n) =>
    match (Addon.run p.client).calls[n]? with
    | some (some (.resolved v)) => some (.result v)
    | some (some (.rejected r)) => some (.error (.call r))
    | _ => none

end Burl.Example
