import Verif.Args.Model
import Verif.Args.Shell
import Verif.File.Names
/-!
Model of `processInstallFlags` (`cmd/burl_backend/install.go`).

Simplifications: a manifest is recorded by its fields, not by its JSON text (install.go:206-207;
`json.MarshalIndent` of strings does not fail); the file system and other programs are parameters
that may give any results, also depending on what has been written before; error values are not
told apart.
-/
namespace Burl.Args
open Burl Burl.File

/-- The contents of a generated file. -/
inductive Doc where
  | wrapper (text : Str)
  | manifest (m : Manifest)
  deriving DecidableEq

/-- A call of `WriteFile`. -/
structure Write where
  path : Str
  doc : Doc
  perm : Nat
  force : Bool
  deriving DecidableEq

/-- What the function learns from the system.  Lists of writes are those made before. -/
structure Env where
  /-- `os.Executable` and `RealPath` -/
  exe : Res Unit Str
  /-- `os.Getwd` -/
  wd : Option Str
  stat : List Write → Str → Stat
  /-- `RealPath` -/
  real : Str → Res Unit Str
  /-- `EscapeShellArg` -/
  quote : Str → Option Str
  /-- whether `WriteFile` succeeds -/
  write : List Write → Write → Bool

/-- `version.AppName` and `version.Description`. -/
structure Names where
  appName : Str
  description : Str

/-- The script (install.go:127-138); `exe` and `args` are quoted. -/
def wrapperText (exe : Str) (args : List Str) : Str :=
  "#!/bin/sh -eu\nBURL_BACKEND=".toList ++ exe ++
  ("\n# Execution aborted on not found file even without \"-e\" option.\n" ++
   "# \"trap HANDLER EXIT\" is ignored as well. So a test is required.\n" ++
   "[ -x \"$BURL_BACKEND\" ] && \\\n\texec \"$BURL_BACKEND\" ").toList ++
  joinSpace args ++
  ("\nerr=\"{\\\"error\\\": \\\"$(printf '%s' \"$BURL_BACKEND\" | tr '\\\\\"' \"/'\"): " ++
   "file not found or not executable\\\"}\"\n" ++
   "# platform endian-dependent hack\n" ++
   "/usr/bin/printf \"\\\\x$(printf '%x' \"${#err}\")\\\\x00\\\\x00\\\\x00\"\n" ++
   "printf '%s' \"$err\"\n").toList

/-- Result of a part of the function and the writes so far. -/
abbrev Out (α : Type) := Res Unit α × List Write

/-- Continue unless there was an error. -/
def Out.bind {α β : Type} (o : Out α) (f : α → List Write → Out β) : Out β :=
  match o with
  | (.ok a, w) => f a w
  | (.err e, w) => (.err e, w)
  | (.panic, w) => (.panic, w)

/-- A call of `WriteFile`. -/
def Env.writeFile (env : Env) (w : List Write) (x : Write) : Out Unit :=
  (if env.write w x then .ok () else .err (), w ++ [x])

/-- `writeManifest` (install.go:201-216). -/
def Env.writeManifest (env : Env) (names : Names) (w : List Write) (m : Manifest) (force : Bool) :
    Out Unit :=
  match ({ m with description := names.description }).init with
  | (false, _) => (.err (), w)
  | (true, m') => env.writeFile w ⟨m'.manifestPath, .manifest m', 420, force⟩

/-- `"chrome-extension://"` -/
def originPrefix : Str := "chrome-extension://".toList

/-- install.go:180-185 -/
def origin (id : Str) : Str :=
  if originPrefix.isPrefixOf id then id else originPrefix ++ id ++ ['/']

/-- A manifest is written if it is requested (install.go:148-169, 170-196). -/
def Env.manifest (env : Env) (names : Names) (w : List Write) (c : Config) (file exe : Str)
    (origins exts : List Str) : Out Unit :=
  if file = [] then (.ok (), w)
  else match asAbsFileName env.wd (env.stat w) file ⟨c.backendName, names.appName, dotJson⟩ with
    | .ok (path, name) =>
      env.writeManifest names w ⟨name, [], exe, [], origins, exts, path⟩ c.force
    | .err e => (.err e, w)
    | .panic => (.panic, w)

/-- The path of the wrapper (install.go:106-116). -/
def Env.wrapperPath (env : Env) (c : Config) : Res Unit Str :=
  if c.wrapper ≠ [] ∧ c.wrapper ≠ dash then
    (asAbsFileName env.wd (env.stat []) c.wrapper ⟨[], [], []⟩).bind fun r => .ok r.1
  else .ok c.wrapper

/-- The wrapper (install.go:117-146); `c` has absolute paths already. -/
def Env.wrapper (env : Env) (custom : Bool) (path exe : Str) (c : Config) : Out Unit :=
  if path ≠ [] ∨ custom = true then
    if path ≠ exe then
      match env.quote exe with
      | none => (.err (), [])
      | some e =>
        match asShellCommand env.quote c with
        | none => (.err (), [])
        | some args => env.writeFile [] ⟨path, .wrapper (wrapperText e args), 493, c.force⟩
    else if custom then (.err (), [])
    else (.ok (), [])
  else (.ok (), [])

/-- install.go:74-84 -/
def nonEmptyCount (c : Config) : Nat := [c.wrapper, c.firefox, c.chrome].countP (fun f => f ≠ [])

/-- install.go:74-84 -/
def stdoutCount (c : Config) : Nat := [c.wrapper, c.firefox, c.chrome].countP (fun f => f = dash)

/-- `processInstallFlags` (install.go:71-199): whether files were requested, and all calls of
`WriteFile`. -/
def install (names : Names) (env : Env) (c : Config) : Out Bool :=
  if nonEmptyCount c = 0 then (.ok false, [])
  else if stdoutCount c > 1 then (.err (), [])
  else if c.wrapper = dash ∧ (c.firefox ≠ [] ∨ c.chrome ≠ []) then (.err (), [])
  else
    let custom := c.customized
    if c.wrapper = [] ∧ custom = true then (.err (), [])
    else match c.fixPaths env.exe
        (fun f => (asAbsFileName env.wd (env.stat []) f ⟨[], [], []⟩).bind fun r => .ok r.1)
        env.real with
      | .err e => (.err e, [])
      | .panic => (.panic, [])
      | .ok (exe, c') =>
        match env.wrapperPath c with
        | .err e => (.err e, [])
        | .panic => (.panic, [])
        | .ok path =>
          -- install.go:105, 110, 145-147
          let target := if path ≠ [] ∧ path ≠ dash then path else exe
          (env.wrapper custom path exe c').bind fun _ w =>
            (env.manifest names w c c.firefox target [] c.mozillaIds.values).bind fun _ w =>
              (env.manifest names w c c.chrome target (c.chromeIds.values.map origin) []).bind
                fun _ w => (.ok true, w)

end Burl.Args
