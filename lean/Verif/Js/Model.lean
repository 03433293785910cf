import Verif.Json.Eq
/-!
Model of the RPC client of the example add-on (`examples/webextensions_addon/rpc_client.js`).

Handlers run to completion, so a history is a list of events: calls of `sendMessage`, messages and
disconnects delivered by the browser.  Promises are numbered in the order of calls; settling a
settled promise does nothing.  Simplified: arrays, objects and numbers with a fraction or an
exponent are `other`, and the latter are taken as not zero; identifiers do not reach 2^53; the
parameters of calls are left out here (`Verif.Addon.Model` has them); logging is left out; reactions
to promises are not run.
-/
namespace Burl.Js
open Burl

/-- A value of a field of a parsed message. -/
inductive Value where
  | undefined
  | null
  | bool (b : Bool)
  | num (n : Int)
  | str (s : Str)
  | other (v : Json.Json)
  deriving DecidableEq

/-- Conversion of a value by `if (…)`. -/
def Value.truthy : Value → Bool
  | .undefined => false
  | .null => false
  | .bool b => b
  | .num n => n != 0
  | .str s => !s.isEmpty
  | .other _ => true

/-- `value == null`. -/
def Value.nullish : Value → Bool
  | .undefined => true
  | .null => true
  | _ => false

/-- A received message, fields that are absent are `undefined`. -/
structure Response where
  id : Value
  result : Value
  error : Value
  deriving DecidableEq

/-- Reasons of rejected promises (examples/webextensions_addon/rpc_client.js:43-46, 72-74,
97-100). -/
inductive Reason where
  | backend (error : Value)   -- `new Error(response.error)`
  | invalid                   -- `new Error("invalid RPC response …")`
  | disconnected (port : Nat) -- `port.error || new Error("disconnected")`
  | thrown                    -- exception of `connectNative` or `postMessage`
  deriving DecidableEq

/-- State of a settled promise (examples/webextensions_addon/rpc_client.js:35-36). -/
inductive Outcome where
  | resolved (v : Value)
  | rejected (r : Reason)
  deriving DecidableEq

/-- Calls and listeners (examples/webextensions_addon/rpc_client.js:32, 64, 79). -/
inductive Event where
  /-- `sendMessage`: identifiers taken by other clients since the last call, whether the current
  port has an error, whether `connectNative` and `postMessage` succeed. -/
  | call (skip : Nat) (portError connects posts : Bool)
  /-- `messageReceived`, `none` is `null`. -/
  | message (r : Option Response)
  /-- `disconnected`. -/
  | disconnected (port : Nat)
  deriving DecidableEq

/-- Fields of the client (examples/webextensions_addon/rpc_client.js:8, 23-29) and promises it has
returned. -/
structure State where
  nextId : Nat := 0                      -- `gRpcId`
  calls : List (Option Outcome) := []    -- promises returned by `sendMessage`
  table : List (Nat × Nat) := []         -- `promiseMap`: identifier, number of the call
  port : Option Nat := none              -- `this.port`
  ports : Nat := 0                       -- number of connections made
  posted : List (Nat × Nat) := []        -- requests sent: port, identifier
  deriving DecidableEq

/-- `resolve` or `reject` of a promise. -/
def settle : List (Option Outcome) → Nat → Outcome → List (Option Outcome)
  | [], _, _ => []
  | none :: l, 0, o => some o :: l
  | some o' :: l, 0, _ => some o' :: l
  | x :: l, n + 1, o => x :: settle l n o

/-- `promiseMap.get` (rpc_client.js:87). -/
def get (table : List (Nat × Nat)) (id : Value) : Option Nat :=
  match id with
  | .num i => (table.find? fun e => (e.1 : Int) == i).map (·.2)
  | _ => none

/-- `promiseMap.delete` (rpc_client.js:45 and 99). -/
def delete (table : List (Nat × Nat)) (id : Value) : List (Nat × Nat) :=
  match id with
  | .num i => table.filter fun e => (e.1 : Int) != i
  | _ => table

/-- `getPort` (rpc_client.js:52-62); `none` is an exception of `connectNative`. -/
def getPort (s : State) (portError connects : Bool) : Option (State × Nat) :=
  match s.port with
  | some p => if portError then connect else some (s, p)
  | none => connect
where connect : Option (State × Nat) :=
  if connects then some ({ s with port := some s.ports, ports := s.ports + 1 }, s.ports) else none

/-- `sendMessage` (rpc_client.js:32-50). An exception rejects the promise of the asynchronous
function. -/
def sendMessage (s : State) (skip : Nat) (portError connects posts : Bool) : State :=
  match getPort s portError connects with
  | none => { s with calls := s.calls ++ [some (.rejected .thrown)] }
  | some (s, p) =>
    let id := s.nextId + skip
    if posts then
      { s with nextId := id + 1, table := s.table ++ [(id, s.calls.length)],
               posted := s.posted ++ [(p, id)], calls := s.calls ++ [none] }
    else
      { s with nextId := id + 1, table := delete (s.table ++ [(id, s.calls.length)]) (.num id),
               calls := s.calls ++ [some (.rejected .thrown)] }

/-- `disconnected` (rpc_client.js:64-78). -/
def disconnected (s : State) (port : Nat) : State :=
  { s with port := none, table := [],
           calls := s.table.foldl (fun c e => settle c e.2 (.rejected (.disconnected port))) s.calls }

/-- `messageReceived` (rpc_client.js:80-100). -/
def messageReceived (s : State) (response : Option Response) : State :=
  match response with
  | none => s
  | some r =>
    if r.id.nullish then s
    else match get s.table r.id with
      | none => s
      | some k =>
        if r.result.truthy then
          { s with calls := settle s.calls k (.resolved r.result), table := delete s.table r.id }
        else if r.error.truthy then
          { s with calls := settle s.calls k (.rejected (.backend r.error)),
                   table := delete s.table r.id }
        else { s with calls := settle s.calls k (.rejected .invalid) }

/-- Handler of an event (examples/webextensions_addon/rpc_client.js:32-103). -/
def step (s : State) : Event → State
  | .call skip e c p => sendMessage s skip e c p
  | .message r => messageReceived s r
  | .disconnected p => disconnected s p

/-- The state after a history, from the constructor (rpc_client.js:19-30). -/
def run (s : State) (history : List Event) : State := history.foldl step s

end Burl.Js
