import Verif.Args.Install
import Verif.File.PathSpec
import Verif.File.NamesProps
/-! The files that are to be made on a request, as a relation between the options and the list of
calls of `WriteFile`. -/
namespace Burl.Args.Spec
open Burl Burl.File Burl.File.Spec Burl.Args

/-- Two lists agree element by element. -/
inductive Each {α β : Type} (R : α → β → Prop) : List α → List β → Prop where
  | nil : Each R [] []
  | cons {a b l m} : R a b → Each R l m → Each R (a :: l) (b :: m)

/-- The same settings with absolute paths: the log file (unless it is the standard error) and the
real paths of the sources, which keep their order and types. -/
structure AbsSettings (fileAt : Str → Str → Prop) (realOf : Str → Str → Prop) (c c' : Config) :
    Prop where
  log : ((c.logFile = [] ∨ c.logFile = "-".toList) ∧ c'.logFile = c.logFile) ∨
    (c.logFile ≠ [] ∧ c.logFile ≠ "-".toList ∧ fileAt c.logFile c'.logFile)
  sources : Each (fun s s' => s'.kind = s.kind ∧ realOf s.name s'.name) c.sources c'.sources
  others : { c' with logFile := c.logFile, sources := c.sources } = c

/-- The settings in an environment. -/
def InEnv (env : Env) : Config → Config → Prop :=
  AbsSettings (FileAt env.wd (env.stat [])) (fun a b => env.real a = .ok b)

/-- Where the wrapper goes. -/
def WrapperAt (env : Env) (c : Config) (path : Str) : Prop :=
  (c.wrapper = "-".toList ∧ path = "-".toList) ∨
    (c.wrapper ≠ [] ∧ c.wrapper ≠ "-".toList ∧ FileAt env.wd (env.stat []) c.wrapper path)

/-- Some option of the backend is not the default one. -/
def Customized (c : Config) : Prop :=
  c.logFile ≠ "-".toList ∨ c.sources ≠ [] ∨ c.disableLinkSet = true ∨ c.scheme.state ≠ .initial ∨
    c.emacsArgs.state ≠ .initial ∨ c.emacsCommand ≠ "emacsclient".toList

/-- What is written for the wrapper: nothing if it is the backend itself, which is allowed only
without options. -/
inductive WrapperPart (env : Env) (c : Config) (exe : Str) : Option Str → List Write → Prop where
  | none : c.wrapper = [] → ¬ Customized c → WrapperPart env c exe none []
  | itself {c'} : InEnv env c c' → WrapperAt env c exe → ¬ Customized c →
      WrapperPart env c exe (some exe) []
  | script {path c' e args} : WrapperAt env c path → path ≠ exe → env.quote exe = some e →
      InEnv env c c' → asShellCommand env.quote c' = some args →
      WrapperPart env c exe (some path) [⟨path, .wrapper (wrapperText e args), 0o755, c.force⟩]

/-- What is written for a manifest. -/
inductive ManifestPart (names : Names) (env : Env) (c : Config) (program : Str)
    (before : List Write) (origins exts : List Str) : Str → List Write → Prop where
  | none : ManifestPart names env c program before origins exts [] []
  | file {request path name m} : request ≠ [] →
      ManifestAt env.wd (env.stat before) c.backendName names.appName request path name →
      m = ⟨name, names.description, program, "stdio".toList, origins, exts, path⟩ → Valid m →
      ManifestPart names env c program before origins exts request
        [⟨path, .manifest m, 0o644, c.force⟩]

/-- The program in manifests: the wrapper if there is one in a file, otherwise the backend. -/
def Program (exe : Str) : Option Str → Str
  | none => exe
  | some path => if path = "-".toList then exe else path

/-- An identifier of an extension of Chrome as an origin. -/
inductive OriginOf : Str → Str → Prop where
  | whole {rest} : OriginOf ("chrome-extension://".toList ++ rest) ("chrome-extension://".toList ++ rest)
  | ident {id} : (∀ rest, id ≠ "chrome-extension://".toList ++ rest) →
      OriginOf id ("chrome-extension://".toList ++ id ++ "/".toList)

/-- The whole request. -/
structure Installs (names : Names) (env : Env) (c : Config) (ws : List Write) : Prop where
  any : c.wrapper ≠ [] ∨ c.firefox ≠ [] ∨ c.chrome ≠ []
  /-- at most one file goes to the standard output, a wrapper there is alone -/
  stdout : ¬ (c.firefox = "-".toList ∧ c.chrome = "-".toList)
  alone : c.wrapper = "-".toList → c.firefox = [] ∧ c.chrome = []
  parts : ∃ exe wrapper w1 w2 w3 origins, env.exe = .ok exe ∧ (∃ c', InEnv env c c') ∧
    WrapperPart env c exe wrapper w1 ∧
    ManifestPart names env c (Program exe wrapper) w1 [] c.mozillaIds.slice c.firefox w2 ∧
    Each OriginOf c.chromeIds.slice origins ∧
    ManifestPart names env c (Program exe wrapper) (w1 ++ w2) origins [] c.chrome w3 ∧
    ws = w1 ++ w2 ++ w3
  /-- every call succeeds -/
  written : ∀ pre x post, ws = pre ++ x :: post → env.write pre x = true

end Burl.Args.Spec
