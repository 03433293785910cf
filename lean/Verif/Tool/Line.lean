import Verif.Tool.Model
import Verif.Links.Model
/-! Model of `burl_tool` (`cmd/burl_tool/burl_tool.go`) from its command line, with the option
`-set`.  What it does with a URL is in `Verif.Tool.Model`. -/
namespace Burl.Tool.Line
open Burl Burl.Extract
open Burl.Tree (Heap Addr)

/-- `linkSources` and `set` (burl_tool.go:54-56). -/
structure Opts where
  sources : List Args.Source
  set : List Str
  deriving DecidableEq

/-- What the program does. -/
inductive Out where
  | help                             -- usage, exit status 0
  | badFlags                         -- usage, exit status 2
  | usage                            -- usageError (burl_tool.go:59-61)
  | crash
  | urls (l : List Str)              -- lines printed (burl_tool.go:80-82)
  | setErr (e : Links.SetErr)        -- burl_tool.go:77-79
  | tree (printed : Option (Heap × Addr)) (err : Option FileErr)

/-- `Set` of flags (burl_tool.go:36-39, pkg/burl_links/flag.go:41-44, 57-64). -/
def setFlag (name v : Str) (o : Opts) : Option Opts :=
  if name = "txt".toList then some { o with sources := o.sources ++ [⟨.txt, v⟩] }
  else if name = "org".toList then some { o with sources := o.sources ++ [⟨.org, v⟩] }
  else if name = "set".toList then some { o with set := o.set ++ [v] }
  else none

/-- `flag.Parse` (burl_tool.go:58): flags and the rest of arguments. -/
def parse (o : Opts) : List Str → Except Out (Opts × List Str)
  | [] => .ok (o, [])
  | a :: args =>
    match Args.classify a with
    | .plain => .ok (o, a :: args)
    | .stop => .ok (o, args)
    | .bad => .error .badFlags
    | .flag name value =>
      match value with
      | some v => match setFlag name v o with
        | some o' => parse o' args
        | none => .error (if name = "help".toList ∨ name = "h".toList then .help else .badFlags)
      | none => match setFlag name [] o with
        | none => .error (if name = "help".toList ∨ name = "h".toList then .help else .badFlags)
        | some _ => match args with
          | [] => .error .badFlags
          | v :: args' => match setFlag name v o with
            | some o' => parse o' args'
            | none => .error .badFlags

/-- What is done with a URL, as an outcome of the program. -/
def ofTool : Res ToolErr (Option (Heap × Addr) × Option FileErr) → Out
  | .err _ => .usage
  | .panic => .crash
  | .ok (t, e) => .tree t e

/-- `mainWithGracefulShutdown` (burl_tool.go:52-123).  With `-set` the first argument is a file
(`nextArg` is 0), so the case of no files at line 70 does not happen. -/
def Main (order : Str → List (Str × Str)) (find : Finder) (letter : Char → Bool) (files : Files)
    (args : List Str) (out : Out) : Prop :=
  match parse ⟨[], []⟩ args with
  | .error e => out = e
  | .ok (o, rest) =>
    if rest = [] then out = .usage
    else if o.set = [] then
      ∃ r, Tool order find files o.sources rest r ∧ out = ofTool r
    else match Links.setGroup letter files o.set
        ((Args.addSourceArgs o.sources rest).map asSource) [] with
      | .ok (_, some e, _) => out = .setErr e
      | .ok (result, none, _) => ∃ l, l.Perm result ∧ out = .urls l
      | .panic => out = .crash

end Burl.Tool.Line
