import Verif.Base
/-!
Model of `AsAbsFileName` (`pkg/burl_fileutil/fileutil.go`) and of `Manifest.Init`
(`pkg/webextensions/manifest.go`), with the functions of `path/filepath` they call.

Simplifications:
* the functions of `path/filepath` are those for Unix and follow their documentation, not the
  byte loops of the library;
* `strings.ToLower` is applied to ASCII letters only.  The only other characters with an ASCII
  lower case are U+0130 (`i`) and U+212A (`k`), neither letter is in `.json`, and no other
  extension is ever requested by the code;
* error values are not told apart.
-/
namespace Burl.File
open Burl

/-- Parts of a path between slashes. -/
def splitSlash : Str → List Str
  | [] => [[]]
  | c :: cs =>
    if c = '/' then [] :: splitSlash cs
    else match splitSlash cs with
      | h :: t => (c :: h) :: t
      | [] => [[c]]

/-- One step of `filepath.Clean` for a rooted path: empty parts and `.` are dropped, `..` removes
the previous part. -/
def pushPart (acc : List Str) (c : Str) : List Str :=
  if c = [] ∨ c = ['.'] then acc
  else if c = ['.', '.'] then acc.dropLast
  else acc ++ [c]

/-- A slash before each part. -/
def joinParts : List Str → Str
  | [] => []
  | c :: cs => '/' :: (c ++ joinParts cs)

/-- `filepath.Clean` of a rooted path. -/
def cleanAbs (p : Str) : Str :=
  match (splitSlash p).foldl pushPart [] with
  | [] => ['/']
  | cs => joinParts cs

/-- `filepath.IsAbs`. -/
def isAbs (p : Str) : Bool := ['/'].isPrefixOf p

/-- `filepath.Abs`; `wd` is the result of `os.Getwd`, which may fail.  For a relative path it is
`filepath.Join(wd, path)`, which ignores an empty element. -/
def absPath (wd : Option Str) (p : Str) : Res Unit Str :=
  if isAbs p then .ok (cleanAbs p)
  else match wd with
    | none => .err ()
    | some w => .ok (if p = [] then cleanAbs w else cleanAbs (w ++ '/' :: p))

/-- `p` without slashes at the end. -/
def trimSlashes (p : Str) : Str := (p.reverse.dropWhile (· == '/')).reverse

/-- What follows the last slash. -/
def afterSlash (p : Str) : Str := (p.reverse.takeWhile (· != '/')).reverse

/-- `filepath.Base`. -/
def base (p : Str) : Str :=
  if p = [] then ['.']
  else if trimSlashes p = [] then ['/']
  else afterSlash (trimSlashes p)

/-- `filepath.Dir` of a rooted path. -/
def dirAbs (p : Str) : Str := cleanAbs (p.reverse.dropWhile (· != '/')).reverse

/-- `filepath.Ext`: from the last dot of the last element. -/
def ext (p : Str) : Str :=
  match p.reverse.dropWhile (fun c => c != '.' && c != '/') with
  | '.' :: _ => '.' :: (p.reverse.takeWhile (fun c => c != '.' && c != '/')).reverse
  | _ => []

/-- `strings.ToLower` (see the simplification above). -/
def lower (s : Str) : Str := s.map Char.toLower

/-- `base[:len(base)-len(ext)]` (fileutil.go:154, manifest.go:60). -/
def stem (b : Str) : Str := b.take (b.length - (ext b).length)

/-- Options of `AsAbsFileName` (fileutil.go:29-33). -/
structure Opts where
  name : Str
  defaultName : Str
  ext : Str

/-- Result of `os.Stat`. -/
inductive Stat where
  | dir
  | nonDir
  | missing
  | fail
  deriving DecidableEq

/-- `nameFromPath` inside `AsAbsFileName` (fileutil.go:140-155). -/
def nameFromPath (o : Opts) (file : Str) : Res Unit Str :=
  if o.name ≠ [] ∧ base file ≠ o.name ++ o.ext then .err ()
  else if o.ext = [] then .ok (base file)
  else if lower (ext (base file)) ≠ o.ext then .err ()
  else .ok (stem (base file))

/-- `AsAbsFileName` (fileutil.go:126-182): path and name, or an error. -/
def asAbsFileName (wd : Option Str) (stat : Str → Stat) (file : Str) (o : Opts) :
    Res Unit (Str × Str) :=
  let name := if o.name ≠ [] then o.name else o.defaultName
  if file = ['-'] then .ok (file, name)
  else (absPath wd file).bind fun path =>
    match stat path with
    | .dir =>
      -- fileutil.go:158-163, filepath.Join
      if name ≠ [] then .ok (cleanAbs (path ++ '/' :: (name ++ o.ext)), name) else .err ()
    | .nonDir => (nameFromPath o path).bind fun n => .ok (path, n)
    | .fail => .err ()
    | .missing =>
      -- fileutil.go:171-181
      match stat (dirAbs path) with
      | .dir => (nameFromPath o path).bind fun n => .ok (path, n)
      | _ => .err ()

/-- `webextensions.Manifest` (manifest.go:27-37). -/
structure Manifest where
  name : Str
  description : Str
  path : Str
  type : Str
  allowedOrigins : List Str
  allowedExtensions : List Str
  manifestPath : Str
  deriving DecidableEq

/-- `".json"` -/
def dotJson : Str := ['.', 'j', 's', 'o', 'n']

/-- `"stdio"` -/
def stdio : Str := ['s', 't', 'd', 'i', 'o']

/-- `Manifest.Init` (manifest.go:39-67): whether nil is returned, and the manifest after the
call. -/
def Manifest.init (m : Manifest) : Bool × Manifest :=
  if (m.allowedOrigins.length == 0) == (m.allowedExtensions.length == 0) then (false, m)
  else if m.name = [] then (false, m)
  else if m.path = [] ∨ isAbs m.path = false then (false, m)
  else if m.manifestPath = [] then (false, m)
  else if m.manifestPath ≠ ['-'] ∧ lower (ext (base m.manifestPath)) ≠ dotJson then (false, m)
  else if m.manifestPath ≠ ['-'] ∧ stem (base m.manifestPath) ≠ m.name then (false, m)
  else (true, { m with type := stdio })

end Burl.File
