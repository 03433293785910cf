import Verif.Extract.Model
import Verif.Tree.Model
import Verif.Args.Model
/-!
Model of `burl_tool` (`cmd/burl_tool/burl_tool.go`) without the option `-set` (which prints the
set of C29–C31).  The command line is already split into sources given by flags and other
arguments; JSON output of the resulting tree is that of C26.
-/
namespace Burl.Tool
open Burl Burl.Extract
open Burl.Tree (Heap Addr CountDescendants FilterChildrenCount)
open Burl.Tree.Spec (Link)

/-- Errors in the command line (cmd/burl_tool/burl_tool.go:59-61). -/
inductive ToolErr where
  | usage
  deriving Repr, DecidableEq

/-- Variable `variants` when the files are read: the result of `burl_url.UrlVariants` is not
assigned to it (burl_tool.go:63-67). -/
def variants (order : List (Str × Str)) (url : Str) : List Str :=
  let _ := Url.urlVariants order url
  []

/-- `filterExact` (burl_tool.go:86-96). -/
def filterExact (variants : List Str) (link : Link) : Bool :=
  if variants.isEmpty then true else variants.any (fun l => l == link.url)

/-- The source for the extraction. -/
def asSource (s : Args.Source) : Source :=
  ⟨match s.kind with | .org => .org | .txt => .txt, s.name⟩

/-- Sources (burl_tool.go:70-73). -/
def sources (typed : List Args.Source) (args : List Str) : List Source :=
  (Args.addSourceArgs (if args.length = 1 ∧ typed = [] then [⟨.txt, ['-']⟩] else typed)
    (args.drop 1)).map asSource

/-- `mainWithGracefulShutdown` (burl_tool.go:52-123): what is printed, if anything, and the error
for a file. -/
def Tool (order : Str → List (Str × Str)) (find : Finder) (files : Files)
    (typed : List Args.Source) (args : List Str)
    (r : Res ToolErr (Option (Heap × Addr) × Option FileErr)) : Prop :=
  match args with
  | [] => r = .err .usage
  | url :: _ =>
    let filter := filterExact (variants (order url) url)
    match extractGroup find filter files [] (sources typed args) with
    | .ok (_, none, err, _) => r = .ok (none, err)
    | .ok (h, some group, err, _) =>
      ∃ r1, CountDescendants h group filter r1 ∧
        match r1 with
        | .ok (h1, some a) =>
          ∃ r2, FilterChildrenCount h1 a 8 r2 ∧
            match r2 with
            | .ok h2 => r = .ok (some (h2, a), err)
            | .panic => r = .panic
        | _ => r = .panic
    | .panic => r = .panic

end Burl.Tool
