import Verif.Base
import Verif.File.Names
/-!
What `path/filepath` and `AsAbsFileName` are to find, in relations that do not follow the code:
a path is walked part by part from the root.
-/
namespace Burl.File.Spec
open Burl Burl.File

/-- Walking through parts of a path: where one is before and after (the last directory first). -/
inductive Walk : List Str → List Str → List Str → Prop where
  | done {here} : Walk here [] here
  | empty {here ps to} : Walk here ps to → Walk here ([] :: ps) to
  | stay {here ps to} : Walk here ps to → Walk here (".".toList :: ps) to
  | up {here d ps to} : Walk here ps to → Walk (d :: here) ("..".toList :: ps) to
  | upRoot {ps to} : Walk [] ps to → Walk [] ("..".toList :: ps) to
  | down {here d ps to} : d ≠ [] → d ≠ ".".toList → d ≠ "..".toList → Walk (d :: here) ps to →
      Walk here (d :: ps) to

/-- Parts written with a slash between them. -/
def slashed (ps : List Str) : Str := ['/'].intercalate ps

/-- The path with a slash before each part; the root is a slash. -/
def pathTo (up : List Str) : Str := '/' :: slashed up.reverse

/-- The clean form of a rooted path. -/
def CleanOf (p q : Str) : Prop :=
  ∃ ps up, (∀ c ∈ ps, '/' ∉ c) ∧ ps ≠ [] ∧ p = slashed ps ∧ Walk [] ps up ∧ q = pathTo up

/-- The absolute path of a file: relative names are looked for from the working directory. -/
inductive Absolute (wd : Option Str) : Str → Str → Prop where
  | rooted {rest q} : CleanOf ('/' :: rest) q → Absolute wd ('/' :: rest) q
  | relative {w c rest q} : wd = some w → c ≠ '/' → CleanOf (w ++ "/".toList ++ c :: rest) q →
      Absolute wd (c :: rest) q
  | here {w q} : wd = some w → CleanOf w q → Absolute wd [] q

/-- The directory and the name of a file. -/
def Splits (p dir file : Str) : Prop :=
  '/' ∉ file ∧ ((dir = "/".toList ∧ p = '/' :: file) ∨ (dir ≠ [] ∧ file ≠ [] ∧ p = dir ++ '/' :: file ∧ dir ≠ "/".toList))

/-- A file that is there, or may be created. -/
def MayBeFile (stat : Str → Stat) (p : Str) : Prop :=
  stat p = .nonDir ∨ (stat p = .missing ∧ ∃ dir file, Splits p dir file ∧ stat dir = .dir)

/-- Where a file requested without any options goes. -/
def FileAt (wd : Option Str) (stat : Str → Stat) (request path : Str) : Prop :=
  Absolute wd request path ∧ MayBeFile stat path

/-- Where a manifest goes and its name.  `name` is the name the user asks for and `dflt` is used
when there is none. -/
inductive ManifestAt (wd : Option Str) (stat : Str → Stat) (name dflt : Str) :
    Str → Str → Str → Prop where
  /-- to the standard output -/
  | stdout {n} : n = (if name = [] then dflt else name) → ManifestAt wd stat name dflt "-".toList "-".toList n
  /-- into a directory, with the name of the backend -/
  | inside {request dir path n} : request ≠ "-".toList → Absolute wd request dir →
      stat dir = .dir → n = (if name = [] then dflt else name) → n ≠ [] →
      CleanOf (dir ++ "/".toList ++ n ++ ".json".toList) path →
      ManifestAt wd stat name dflt request path n
  /-- to a file, which has the name asked for -/
  | called {request path dir} : request ≠ "-".toList → FileAt wd stat request path → name ≠ [] →
      Splits path dir (name ++ ".json".toList) → ManifestAt wd stat name dflt request path name
  /-- to a file that gives its name -/
  | gives {request path dir n e} : request ≠ "-".toList → FileAt wd stat request path → name = [] →
      Splits path dir (n ++ e) → e.map Char.toLower = ".json".toList →
      ManifestAt wd stat name dflt request path n

end Burl.File.Spec
