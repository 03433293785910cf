import Verif.Args.Install
import Verif.Backend.Serve
import Verif.Links.TxtLemmas
/-! Model of the start of `burl_backend` (`cmd/burl_backend/burl_backend.go:277-349`): from words of
the command line to the environment of methods in `Verif.Backend.Serve`.

Simplifications: texts for the user are not modelled, only which of them is printed; opening of the
log file is a parameter; `rpc.RegisterName` does not fail, since methods of `BurlBackend` are
suitable and the name is registered once. -/
namespace Burl.Backend.Main
open Burl

/-- What the program gets besides its command line. -/
structure Machine where
  /-- `version.FirefoxExtension`, `version.ChromeExtension` -/
  mozilla : Str
  chrome : Str
  names : Args.Names
  install : Args.Env
  /-- whether `os.OpenFile` of the log succeeds -/
  openLog : Str → Bool
  letter : Char → Bool
  files : Extract.Files
  now : Extract.Files → Prop

/-- Defaults: `burl_emacs.UserArgs` (pkg/burl_emacs/emacs.go:48), `SchemeVariants`
(pkg/burl_links/extract_org.go:33), identifiers of extensions. -/
def Machine.defaults (m : Machine) : Args.Defaults := ⟨[], Links.schemeVariants, m.mozilla, m.chrome⟩

/-- Where messages go. -/
inductive Log where
  | discard
  | stderr
  | file (name : Str)
  deriving DecidableEq

/-- A backend that serves requests. -/
structure Setup where
  log : Log
  env : Env
  emacs : Emacs.Config

/-- Reasons of exit with a message and status 1 (burl_backend.go:344-350). -/
inductive Failure where
  | install | log | scheme
  deriving DecidableEq

/-- How the start ends. -/
inductive Exit where
  /-- usage on stderr and status 2: `flag.Parse` -/
  | badFlags
  /-- usage on stdout (burl_backend.go:73-77) -/
  | help
  /-- version on stdout (burl_backend.go:78-88) -/
  | version
  /-- requested files have been generated (burl_backend.go:287-292) -/
  | made
  | failed (why : Failure)
  | crash
  /-- `ServeCodec` is called (burl_backend.go:338-340) -/
  | serves (s : Setup)

/-- `TextLinkSource` in both models. -/
def source (s : Args.Source) : Extract.Source :=
  ⟨match s.kind with | .org => .org | .txt => .txt, s.name⟩

/-- Links of a line of an Org file (pkg/burl_links/extract_org.go:112-126).  A panic of `orgLinks`,
which does not happen with default schemes and with those without special characters
(`c28_scheme_partial`, `c28_configured_partial`), is replaced by nothing found. -/
def orgFindWith (letter : Char → Bool) (p : Links.OrgRe) (line : Str) : List Tree.Spec.Link :=
  match Links.orgLinks letter p line with
  | .ok links => links
  | _ => []

/-- The switch on the log file (burl_backend.go:294-308): nothing if the file can not be opened. -/
def logOf (m : Machine) (file : Str) : Option Log :=
  if file = [] then some .discard
  else if file = Args.dash then some .stderr
  else if m.openLog file then some (.file file)
  else none

/-- Variables with regular expressions after burl_backend.go:310-314. -/
def patterns (c : Args.Config) : Option Links.OrgRe :=
  if c.scheme.isModified then
    match Links.updateRe Links.orgReDefault c.scheme.values with
    | (p, none) => some p
    | (_, some _) => none
  else some Links.orgReDefault

/-- burl_backend.go:316-340; `burl_emacs.Command` and `burl_emacs.UserArgs` have been set by flags
(args.go:57-59).  `txtLinksOf` is what the loop over words of a line of a text file gives (C33). -/
def setup (m : Machine) (c : Args.Config) (log : Log) (p : Links.OrgRe) : Setup where
  log := log
  env := {
    find := ⟨orgFindWith m.letter p, Links.txtLinksOf m.letter⟩
    letter := m.letter
    sources := c.sources.map source
    disableLinkSet := c.disableLinkSet
    files := m.files
    now := m.now }
  emacs := ⟨c.emacsCommand, c.emacsArgs.values⟩

/-- `mainWithGracefulShutdown` (burl_backend.go:277-342), and what it has written.
`processGeneralFlags` is in lines 72-90.  Positional arguments are added (line 286) by
`commandLine`: earlier, but `processGeneralFlags` does not look at them. -/
def start (m : Machine) (args : List Str) : Exit × List Args.Write :=
  match Args.commandLine m.defaults args with
  | .err _ => (.badFlags, [])
  | .panic => (.crash, [])
  | .ok c =>
    if c.help then (.help, [])
    else if c.version then (.version, [])
    else match Args.install m.names m.install c with
      | (.err _, w) => (.failed .install, w)
      | (.panic, w) => (.crash, w)
      | (.ok true, w) => (.made, w)
      | (.ok false, w) =>
        match logOf m c.logFile with
        | none => (.failed .log, w)
        | some log => match patterns c with
          | none => (.failed .scheme, w)
          | some p => (.serves (setup m c log p), w)

end Burl.Backend.Main
