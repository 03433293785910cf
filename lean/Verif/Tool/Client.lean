import Verif.Args.Model
import Verif.Backend.Serve
import Verif.Rpc.Client
/-! Model of the command-line client (`tools/burl_client/burl_client.go`).

Simplifications.  JSON is a value, not text: `parse` stands for `json.Unmarshal` into an
`interface{}`.  Texts of errors are not told apart.  The connection is `Verif.Rpc.Client`; here a
call either gives a value or fails. -/
namespace Burl.Tool.Client
open Burl
open Burl.Json (Json)
open Burl.Backend (mem)

/-- Why the program ends (burl_client.go:110-189). -/
inductive Outcome where
  | help           -- `flag.Parse` has printed the usage
  | badFlags       -- the same, after an error
  | crash          -- a run-time panic
  | usage          -- `usageError`
  | startFailed    -- "run backend"
  | noSubcommand   -- "subcommand not found"
  | badQuery       -- an error of a function for a subcommand
  | callFailed     -- "response"
  | closeFailed    -- "client close"
  | waitFailed     -- "exec wait"
  | done
  deriving DecidableEq

/-! ### Arguments -/

/-- `flag.Parse` (burl_client.go:114) when no flags are defined: `flag.Args()` or how the program
ends. -/
def topFlags : List Str → Except Outcome (List Str)
  | [] => .ok []
  | a :: args =>
    match Args.classify a with
    | .plain => .ok (a :: args)
    | .stop => .ok args
    | .bad => .error .badFlags
    | .flag name _ =>
      if name = "help".toList ∨ name = "h".toList then .error .help else .error .badFlags

/-- The loop for `separator` (burl_client.go:115-121). -/
def separator : List Str → Nat
  | [] => 0
  | a :: args => if a = "--".toList then 0 else separator args + 1

/-- The command of the backend, its arguments and the query (burl_client.go:122-130).  A slice
`flag.Args()[1:separator]` with `separator` 0 is out of range. -/
def split (args : List Str) : Except Outcome (Str × List Str × List Str) :=
  match args with
  | [] => .error .usage
  | cmd :: _ =>
    if separator args < 1 then .error .crash
    else if separator args + 1 ≥ args.length then .error .usage
    else .ok (cmd, (args.take (separator args)).drop 1, args.drop (separator args + 1))

/-! ### `strconv.ParseInt(s, 0, 64)` -/

/-- A digit in `strconv.ParseUint`. -/
def digit (c : Char) : Option Nat :=
  if '0' ≤ c ∧ c ≤ '9' then some (c.toNat - '0'.toNat)
  else if 'a' ≤ c.toLower ∧ c.toLower ≤ 'z' then some (c.toLower.toNat - 'a'.toNat + 10)
  else none

/-- The base and the rest of the text in `strconv.ParseUint` with base 0. -/
def base : Str → Nat × Str
  | '0' :: x :: y :: s =>
    if x.toLower = 'b' then (2, y :: s)
    else if x.toLower = 'o' then (8, y :: s)
    else if x.toLower = 'x' then (16, y :: s)
    else (8, x :: y :: s)
  | '0' :: s => (8, s)
  | s => (10, s)

/-- The loop of `strconv.ParseUint`, without overflow; underscores are skipped. -/
def digits (b : Nat) : Str → Nat → Option Nat
  | [], n => some n
  | c :: cs, n =>
    if c = '_' then digits b cs n
    else match digit c with
      | none => none
      | some d => if d ≥ b then none else digits b cs (n * b + d)

/-- What precedes a character in `underscoreOK` of `strconv`. -/
inductive Before where
  | start | digit | underscore | other
  deriving DecidableEq

/-- The loop of `underscoreOK` of `strconv`. -/
def underscores (hex : Bool) : Str → Before → Bool
  | [], i => i != .underscore
  | c :: cs, i =>
    if ('0' ≤ c ∧ c ≤ '9') ∨ (hex = true ∧ 'a' ≤ c.toLower ∧ c.toLower ≤ 'f') then
      underscores hex cs .digit
    else if c = '_' then
      if i != .digit then false else underscores hex cs .underscore
    else if i = .underscore then false
    else underscores hex cs .other

/-- `underscoreOK` of `strconv` for a text without a sign. -/
def underscoreOK : Str → Bool
  | '0' :: x :: s =>
    if x.toLower = 'b' ∨ x.toLower = 'o' ∨ x.toLower = 'x' then
      underscores (x.toLower = 'x') s .digit
    else underscores false ('0' :: x :: s) .start
  | s => underscores false s .start

/-- `strconv.ParseUint(s, 0, 64)`. -/
def parseUint (s : Str) : Option Nat :=
  if s = [] then none
  else match digits (base s).1 (base s).2 0 with
    | none => none
    | some n =>
      if n ≥ 2 ^ 64 then none
      else if '_' ∈ s ∧ ¬underscoreOK s then none
      else some n

/-- `strconv.ParseInt(s, 0, 64)`. -/
def parseInt (s : Str) : Option Int :=
  match s with
  | '+' :: r => (parseUint r).bind fun n => if n ≥ 2 ^ 63 then none else some n
  | '-' :: r => (parseUint r).bind fun n => if n > 2 ^ 63 then none else some (-(n : Int))
  | r => (parseUint r).bind fun n => if n ≥ 2 ^ 63 then none else some n

/-! ### Subcommands -/

/-- `set.Parse` in `callVisit` (burl_client.go:51-58): values of the flags, arguments that are not
flags are left unused. -/
def visitFlags (q : Emacs.Location) : List Str → Option Emacs.Location
  | [] => some q
  | a :: args =>
    match Args.classify a with
    | .plain => some q
    | .stop => some q
    | .bad => none
    | .flag name value =>
      if name = "line".toList then
        match value with
        | some v => (parseInt v).bind fun n => visitFlags { q with lineNo := n } args
        | none => match args with
          | [] => none
          | v :: args' => (parseInt v).bind fun n => visitFlags { q with lineNo := n } args'
      else if name = "file".toList then
        match value with
        | some v => visitFlags { q with filePath := v } args
        | none => match args with
          | [] => none
          | v :: args' => visitFlags { q with filePath := v } args'
      else none

/-- The default query of `callHello` (burl_client.go:93-104). -/
def helloDefault : Json :=
  let format (name : String) (more : List (Str × Json)) : Json :=
    .obj ([mem "format" (.str name.toList), mem "version" (.str "0.2".toList)] ++ more)
  .obj [mem "version" (.str "0.2".toList), mem "formats" (.arr [format "org" [], format "object" [],
    format "org-protocol" [mem "options" (.obj [mem "format" (.str "org".toList),
      mem "version" (.str "0.2".toList), mem "clipboardForBody" (.bool false)])]])]

/-- JSON of `UrlMentionsQuery` without options (pkg/burl_rpc/burl_rpc.go:29-32). -/
def mentionsJson (variants : List Str) : Json :=
  .obj [mem "variants" (.arr (variants.map .str))]

/-- JSON of `Location` (pkg/burl_rpc/burl_rpc.go:38-41). -/
def locationJson (q : Emacs.Location) : Json :=
  .obj [mem "file" (.str q.filePath), mem "lineNo" (.num q.lineNo)]

/-- JSON of `CaptureQuery` in `callCapture` (burl_client.go:63-73, pkg/burl_rpc/burl_rpc.go:61-73). -/
def captureJson (url : Str) : Json :=
  .obj [mem "format" (.str "org-protocol".toList), mem "version" (.str "0.2".toList),
    mem "data" (.obj [mem "url" (.str url), mem "title" (.str []), mem "body" .null]),
    mem "error" .null]

/-- JSON of `LinkSetQuery` (pkg/burl_rpc/burl_rpc.go:82-84). -/
def setJson (prefixes : List Str) : Json := .obj [mem "prefix" (.arr (prefixes.map .str))]

/-- The method and the parameter for a query (burl_client.go:45-108, 148-163). -/
def subcommand (parse : Str → Option Json) (queries : List Str) : Except Outcome (Str × Json) :=
  match queries with
  | [] => .error .noSubcommand
  | name :: args =>
    if name = "visit".toList then
      match visitFlags ⟨[], 0⟩ args with
      | none => .error .badQuery
      | some q => .ok ("linkremark.visit".toList, locationJson q)
    else if name = "mentions".toList then
      .ok ("linkremark.urlMentions".toList, mentionsJson args)
    else if name = "capture".toList then
      match args with
      | [url] => .ok ("linkremark.capture".toList, captureJson url)
      | _ => .error .badQuery
    else if name = "hello".toList then
      match args with
      | [] => .ok ("linkremark.hello".toList, helloDefault)
      | [text] => match parse text with
        | none => .error .badQuery
        | some v => .ok ("linkremark.hello".toList, v)
      | _ => .error .badQuery
    else if name = "set".toList then .ok ("linkremark.linkSet".toList, setJson args)
    else .error .noSubcommand

/-! ### The program -/

/-- What a run does. -/
structure Run where
  started : Option (Str × List Str)   -- the command of the backend and its arguments
  called : Option (Str × Json)        -- the method and the parameter
  printed : Option Json
  outcome : Outcome

/-- What a run depends on: `start` tells whether the backend is started, `call` is the result of
`rpcClient.Call`, the last two are for `rpcClient.Close` and `cmd.Wait`. -/
structure World where
  parse : Str → Option Json
  start : Str → List Str → Bool
  call : Str → Json → Option Json
  close : Bool
  wait : Bool

/-- `mainWithGracefulShutdown` (burl_client.go:112-178); `args` are those after the name of the
program. -/
def run (w : World) (args : List Str) : Run :=
  match (topFlags args).bind split with
  | .error o => ⟨none, none, none, o⟩
  | .ok (cmd, cmdArgs, queries) =>
    if ¬w.start cmd cmdArgs then ⟨some (cmd, cmdArgs), none, none, .startFailed⟩
    else match subcommand w.parse queries with
      | .error o => ⟨some (cmd, cmdArgs), none, none, o⟩
      | .ok (method, data) =>
        match w.call method data with
        | none => ⟨some (cmd, cmdArgs), some (method, data), none, .callFailed⟩
        | some v => ⟨some (cmd, cmdArgs), some (method, data), some v,
            if ¬w.close then .closeFailed else if ¬w.wait then .waitFailed else .done⟩

end Burl.Tool.Client
