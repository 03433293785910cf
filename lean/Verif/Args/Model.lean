import Verif.Base
/-!
Model of the command line of `burl_backend`: repeated flags (`pkg/burl_util/multistring_flag.go`),
typed sources (`pkg/burl_links/flag.go`), the flags of the backend (`cmd/burl_backend/args.go`,
`install.go`, `burl_backend.go`), the parser of the standard package `flag`, and the command line
that is put into a wrapper script.

Simplifications: error values are not told apart; slices are modelled by their elements (the
flags own their backing arrays).
-/
namespace Burl.Args
open Burl

/-! ## `MultiStringFlag` -/

/-- multistring_flag.go:20-24 -/
inductive FlagState where
  | initial
  | appended
  | reset
  deriving DecidableEq

/-- `MultiStringFlag` (multistring_flag.go:26-30) with the slice it points to. -/
structure MultiFlag where
  slice : List Str
  state : FlagState
  defaultLen : Nat
  deriving DecidableEq

/-- `NewMultiStringFlag` (multistring_flag.go:32-34). -/
def MultiFlag.new (defaults : List Str) : MultiFlag := ⟨defaults, .initial, defaults.length⟩

/-- `Set` (multistring_flag.go:40-55). -/
def MultiFlag.set (f : MultiFlag) (value : Str) : Res Unit MultiFlag :=
  if value = [] then
    if f.state = .appended then .err ()
    else .ok ⟨[], .reset, 0⟩
  else .ok ⟨f.slice ++ [value], if f.state = .initial then .appended else f.state, f.defaultLen⟩

/-- `IsModified` (multistring_flag.go:57-59). -/
def MultiFlag.isModified (f : MultiFlag) : Bool := f.state != .initial

/-- `Values` (multistring_flag.go:61-63). -/
def MultiFlag.values (f : MultiFlag) : List Str := f.slice

/-- `ModifiedValues` (multistring_flag.go:65-78). -/
def MultiFlag.modifiedValues (f : MultiFlag) : List Str :=
  match f.state with
  | .initial => []
  | .reset => [] :: f.slice
  | .appended => f.slice.drop f.defaultLen

/-- `Set` for each of the values in turn. -/
def MultiFlag.setAll (f : MultiFlag) : List Str → Res Unit MultiFlag
  | [] => .ok f
  | v :: vs => (f.set v).bind fun f' => f'.setAll vs

/-! ## Sources -/

/-- `OrgLinkSource` or `TxtLinkSource`. -/
inductive Kind where
  | org
  | txt
  deriving DecidableEq

/-- A source of links: its type and its name (extract_org.go, extract_txt.go: `Name`). -/
structure Source where
  kind : Kind
  name : Str
  deriving DecidableEq

/-- `Clone` (extract_org.go:96-99, extract_txt.go:41-44). -/
def Source.clone (s : Source) (name : Str) : Source := ⟨s.kind, name⟩

/-- `Flag` (extract_org.go:91-94, extract_txt.go:36-39). -/
def Kind.flag : Kind → Str
  | .org => ['o', 'r', 'g']
  | .txt => ['t', 'x', 't']

/-- `".org"` -/
def dotOrg : Str := ['.', 'o', 'r', 'g']

/-- `AddSourceArgs` (flag.go:67-78). -/
def addSourceArgs (slice : List Source) : List Str → List Source
  | [] => slice
  | arg :: args =>
    addSourceArgs (slice ++ [⟨if dotOrg.isSuffixOf arg then .org else .txt, arg⟩]) args

/-! ## The flags of the program -/

/-- What the flags set: `BurlBackendArgs` (args.go:29-36) with `burl_emacs.Command`,
`installFlagValues` (install.go:31-39) and `generalFlagValues` (burl_backend.go:52-56). -/
structure Config where
  logFile : Str
  disableLinkSet : Bool
  emacsCommand : Str
  emacsArgs : MultiFlag
  scheme : MultiFlag
  sources : List Source
  backendName : Str
  wrapper : Str
  firefox : Str
  chrome : Str
  force : Bool
  mozillaIds : MultiFlag
  chromeIds : MultiFlag
  help : Bool
  version : Bool
  deriving DecidableEq

/-- Default values that are set elsewhere: `burl_emacs.UserArgs`, `burl_links.SchemeVariants`,
`version.FirefoxExtension`, `version.ChromeExtension`. -/
structure Defaults where
  emacsArgs : List Str
  scheme : List Str
  mozilla : Str
  chrome : Str

/-- `DefaultLogDestination` (args.go:38). -/
def dash : Str := ['-']

/-- `emacsclient` (burl_emacs: `Command`; args.go:70, 110). -/
def emacsclient : Str := ['e', 'm', 'a', 'c', 's', 'c', 'l', 'i', 'e', 'n', 't']

/-- The values before parsing (args.go:44-60, install.go:42-67, burl_backend.go:59-69). -/
def Config.fresh (d : Defaults) : Config where
  logFile := dash
  disableLinkSet := false
  emacsCommand := emacsclient
  emacsArgs := .new d.emacsArgs
  scheme := .new d.scheme
  sources := []
  backendName := []
  wrapper := []
  firefox := []
  chrome := []
  force := false
  mozillaIds := .new [d.mozilla]
  chromeIds := .new [d.chrome]
  help := false
  version := false

/-- The flags (args.go:51-60, flag.go:57-64, install.go:48-66, burl_backend.go:64-68). -/
inductive Flag where
  | log | scheme | disableLinkSet | emacsclient | emacsarg | txt | org
  | backend | manifestFirefox | mozillaExtension | manifestChrome | chromeExtension | wrapper | force
  | help | version
  deriving DecidableEq

/-- Names of the flags. -/
def flagNames : List (Str × Flag) :=
  [ ("log".toList, .log), ("scheme".toList, .scheme),
    ("disable-link-set".toList, .disableLinkSet),
    ("emacsclient".toList, .emacsclient), ("emacsarg".toList, .emacsarg),
    ("txt".toList, .txt), ("org".toList, .org),
    ("backend".toList, .backend), ("manifest-firefox".toList, .manifestFirefox),
    ("mozilla-extension".toList, .mozillaExtension),
    ("manifest-chrome".toList, .manifestChrome), ("chrome-extension".toList, .chromeExtension),
    ("wrapper".toList, .wrapper), ("force".toList, .force),
    ("h".toList, .help), ("help".toList, .help),
    ("version".toList, .version), ("v".toList, .version), ("V".toList, .version) ]

/-- Whether the flag is a Boolean one, whose value may be omitted. -/
def Flag.isBool : Flag → Bool
  | .disableLinkSet | .force | .help | .version => true
  | _ => false

/-- `strconv.ParseBool`. -/
def parseBool (v : Str) : Res Unit Bool :=
  if v ∈ ["1".toList, "t".toList, "T".toList, "true".toList, "TRUE".toList, "True".toList] then
    .ok true
  else if v ∈ ["0".toList, "f".toList, "F".toList, "false".toList, "FALSE".toList,
      "False".toList] then .ok false
  else .err ()

/-- `Set` of a flag. -/
def Flag.set (f : Flag) (v : Str) (c : Config) : Res Unit Config :=
  match f with
  | .log => .ok { c with logFile := v }
  | .scheme => (c.scheme.set v).bind fun m => .ok { c with scheme := m }
  | .disableLinkSet => (parseBool v).bind fun b => .ok { c with disableLinkSet := b }
  | .emacsclient => .ok { c with emacsCommand := v }
  | .emacsarg => (c.emacsArgs.set v).bind fun m => .ok { c with emacsArgs := m }
  | .txt => .ok { c with sources := c.sources ++ [⟨.txt, v⟩] }
  | .org => .ok { c with sources := c.sources ++ [⟨.org, v⟩] }
  | .backend => .ok { c with backendName := v }
  | .manifestFirefox => .ok { c with firefox := v }
  | .mozillaExtension => (c.mozillaIds.set v).bind fun m => .ok { c with mozillaIds := m }
  | .manifestChrome => .ok { c with chrome := v }
  | .chromeExtension => (c.chromeIds.set v).bind fun m => .ok { c with chromeIds := m }
  | .wrapper => .ok { c with wrapper := v }
  | .force => (parseBool v).bind fun b => .ok { c with force := b }
  | .help => (parseBool v).bind fun b => .ok { c with help := b }
  | .version => (parseBool v).bind fun b => .ok { c with version := b }

/-- An argument split at the first `=` (the loop in `parseOne` of the package `flag`, which looks
from the second character; the first one is known not to be `=`). -/
def splitEq (s : Str) : Str × Option Str :=
  match s.dropWhile (· != '=') with
  | [] => (s, none)
  | _ :: v => (s.takeWhile (· != '='), some v)

/-- How an argument is understood by `parseOne` of the package `flag`. -/
inductive Arg where
  /-- not a flag: parsing ends and the argument is left -/
  | plain
  /-- `--`: parsing ends and the argument is dropped -/
  | stop
  /-- bad flag syntax -/
  | bad
  | flag (name : Str) (value : Option Str)
  deriving DecidableEq

/-- The first part of `parseOne`. -/
def classify : Str → Arg
  | '-' :: c :: cs =>
    let body := if c = '-' then cs else c :: cs
    if c = '-' ∧ cs = [] then .stop
    else match body with
      | [] => .bad
      | b :: _ => if b = '-' ∨ b = '=' then .bad else .flag (splitEq body).1 (splitEq body).2
  | _ => .plain

/-- `(*FlagSet).Parse`: flags are set until the first argument that is not a flag.  (`ErrHelp` is
not possible: both `h` and `help` are defined.) -/
def parse (c : Config) : List Str → Res Unit (Config × List Str)
  | [] => .ok (c, [])
  | a :: args =>
    match classify a with
    | .plain => .ok (c, a :: args)
    | .stop => .ok (c, args)
    | .bad => .err ()
    | .flag name value =>
      match flagNames.lookup name with
      | none => .err ()
      | some f =>
        match value with
        | some v => (f.set v c).bind fun c' => parse c' args
        | none =>
          if f.isBool then (f.set "true".toList c).bind fun c' => parse c' args
          else match args with
            | [] => .err ()
            | v :: args' => (f.set v c).bind fun c' => parse c' args'

/-- `flag.Parse` and `AddSourceArgs` (burl_backend.go:279-286). -/
def commandLine (d : Defaults) (args : List Str) : Res Unit Config :=
  (parse (.fresh d) args).bind fun r => .ok { r.1 with sources := addSourceArgs r.1.sources r.2 }

/-- `Customized` (args.go:64-71). -/
def Config.customized (c : Config) : Bool :=
  c.logFile != dash || !c.sources.isEmpty || c.disableLinkSet || c.scheme.isModified ||
    c.emacsArgs.isModified || c.emacsCommand != emacsclient

/-- The names of sources made absolute, one by one (args.go:89-95). -/
def fixSources (real : Str → Res Unit Str) : List Source → Res Unit (List Source)
  | [] => .ok []
  | s :: ss => (real s.name).bind fun p => (fixSources real ss).bind fun ss' => .ok (s.clone p :: ss')

/-- `FixPaths` (args.go:74-97): the path of the executable and the configuration with absolute
paths.  `exe` is the result of `os.Executable` and `RealPath`, `abs` is `AsAbsFileName` without
options and `real` is `RealPath`. -/
def Config.fixPaths (exe : Res Unit Str) (abs real : Str → Res Unit Str) (c : Config) :
    Res Unit (Str × Config) :=
  exe.bind fun e =>
    (if c.logFile ≠ [] ∧ c.logFile ≠ dash then abs c.logFile else .ok c.logFile).bind fun log =>
      (fixSources real c.sources).bind fun ss =>
        .ok (e, { c with logFile := log, sources := ss })

/-! ## `AsShellCommand` -/

/-- The loops of `AsShellCommand` (args.go:118-124, 127-133, 135-141): a flag with a quoted value
for every element, nothing if quoting fails. -/
def quoteAll {α : Type} (quote : Str → Option Str) (pre str : α → Str) : List α → Option (List Str)
  | [] => some []
  | a :: l => (quote (str a)).bind fun e => (quoteAll quote pre str l).bind fun ts =>
      some ((pre a ++ e) :: ts)

/-- The values of a flag that are written (args.go:117, 126). -/
def MultiFlag.written (f : MultiFlag) : List Str := if f.isModified then f.modifiedValues else []

/-- `AsShellCommand` (args.go:100-143); `quote` stands for `EscapeShellArg` and gives nothing when
it fails. -/
def asShellCommand (quote : Str → Option Str) (c : Config) : Option (List Str) :=
  (quote c.logFile).bind fun log =>
  (quoteAll quote (fun _ => "--emacsclient=".toList) id
    (if c.emacsCommand != emacsclient then [c.emacsCommand] else [])).bind fun emacs =>
  (quoteAll quote (fun _ => "--emacsarg=".toList) id c.emacsArgs.written).bind fun eargs =>
  (quoteAll quote (fun _ => "--scheme=".toList) id c.scheme.written).bind fun schemes =>
  (quoteAll quote (fun s => "--".toList ++ s.kind.flag ++ "=".toList) Source.name c.sources).bind
    fun srcs =>
  some (["--log".toList, log] ++
    (if c.disableLinkSet then ["--disable-link-set=true".toList] else []) ++
    emacs ++ eargs ++ schemes ++ srcs)

end Burl.Args
