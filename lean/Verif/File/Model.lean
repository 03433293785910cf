import Verif.Base
/-!
Model of `WriteFile` (`pkg/burl_fileutil/fileutil.go`), the function that creates wrapper scripts
and native messaging manifests.

The function is a sequence of system calls on a file system.  Each system call is a step of a
transition system, so a crash of the process is simply a state where no further step is done,
and every call may succeed or fail.

Simplifications:
* one process changes the directory: nothing else touches the files between two calls;
* a path names a file directly: symbolic and hard links are not modelled;
* a file that is opened is read by a single call up to the size of the buffer, as Linux does for
  regular files;
* the page cache is not modelled: the crashes considered are those of the process, not of the
  machine (the code never calls `fsync`);
* `f.Close()` is deferred and its result is discarded by the code, so it has no step.
-/
namespace Burl.File
open Burl

/-- The nine permission bits of a file, `rwxrwxrwx` (`os.FileMode.Perm`). -/
abbrev Perm := BitVec 9

/-- A regular file. -/
structure Reg where
  content : Bytes
  perm : Perm
  deriving DecidableEq

/-- What a path may name. -/
inductive Entry where
  | reg (f : Reg)
  | dir (perm : Perm)
  deriving DecidableEq

/-- `stat.Mode().Perm()`. -/
def Entry.perm : Entry → Perm
  | .reg f => f.perm
  | .dir p => p

/-- The file system: what every path names, if anything. -/
abbrev FS := Str → Option Entry

/-- The file system after a path is made to name something else. -/
def FS.set (fs : FS) (p : Str) (e : Option Entry) : FS := fun q => if q = p then e else fs q

/-- Arguments of `WriteFile` (fileutil.go:50). -/
structure Req where
  path : Str
  content : Bytes
  mode : Perm
  force : Bool

/-- How `WriteFile` ends.  `errLeft` is an error return after a failed `os.Remove` of the
temporary file, whose result is discarded by the code. -/
inductive Outcome where
  | ok
  | err
  | errLeft
  | panic
  deriving DecidableEq

/-- The place in the body of `WriteFile` where the next system call is made. -/
inductive Pc where
  /-- fileutil.go:51-55 -/
  | start
  /-- `os.Open`, fileutil.go:62; `stat` is nil when `os.Stat` failed -/
  | openOld (stat : Option Perm)
  /-- `file.Read`, fileutil.go:67 -/
  | readOld (stat : Option Perm)
  /-- `os.Chmod`, fileutil.go:83 -/
  | chmodOld (perm : Perm)
  /-- `ioutil.TempFile`, fileutil.go:93 -/
  | temp
  /-- `f.Chmod`, fileutil.go:98 -/
  | chmodTemp (tmp : Str)
  /-- `f.Write`, fileutil.go:102, `done` bytes are written -/
  | writeTemp (tmp : Str) (done : Nat)
  /-- `os.Rename`, fileutil.go:107 -/
  | rename (tmp : Str)
  /-- `os.Remove`, fileutil.go:99, 103, 108 -/
  | remove (tmp : Str)
  | done (r : Outcome)
  deriving DecidableEq

/-- The path that stands for the standard output (fileutil.go:51). -/
def dash : Str := ['-']

/-- Size of the buffer for the content of an existing file (fileutil.go:57-60). -/
def bufLen (content : Bytes) : Nat :=
  if content.length > 4096 then 4096 + content.length else 4096

/-- The bytes of `#!/` (fileutil.go:75). -/
def shebang : Bytes := [0x23, 0x21, 0x2f]

/-- What is done after the existing file is read (fileutil.go:71-91); `data` stands for
`data[:count]`.  The test for the shebang looks at the whole buffer in the code, whose rest is
zeros; this makes no difference since there is no zero byte in the shebang. -/
def afterRead (q : Req) (stat : Option Perm) (data : Bytes) : Pc :=
  if !q.force && data.length == bufLen q.content then .done .err
  else if !q.force && (shebang.isPrefixOf q.content && !shebang.isPrefixOf data) then .done .err
  else if data == q.content then
    match stat with
    | none => .done .panic      -- stat.Mode() of nil interface
    | some perm =>
      if q.mode &&& 0o500#9 != 0 && perm &&& 0o500#9 == 0 then .chmodOld perm
      else .done .ok
  else if !q.force then .done .err
  else .temp

/-- State of a call: the file system, what is sent to the standard output, and the place in
the code. -/
structure St where
  fs : FS
  out : Bytes
  pc : Pc

/-- One system call of `WriteFile` with the computations that follow it (fileutil.go:50-112).
The Boolean tells whether the call is a failed one. -/
inductive Step (q : Req) : Bool → St → St → Prop where
  -- fileutil.go:51-54
  | stdoutOk {fs out} : q.path = dash →
      Step q false ⟨fs, out, .start⟩ ⟨fs, out ++ q.content, .done .ok⟩
  | stdoutFail {fs out} {n : Nat} : q.path = dash →
      Step q true ⟨fs, out, .start⟩ ⟨fs, out ++ q.content.take n, .done .err⟩
  -- fileutil.go:55-56, ErrNotExist
  | statMissing {fs out} : q.path ≠ dash → fs q.path = none →
      Step q false ⟨fs, out, .start⟩ ⟨fs, out, .temp⟩
  | statFound {fs out e} : q.path ≠ dash → fs q.path = some e →
      Step q false ⟨fs, out, .start⟩ ⟨fs, out, .openOld (some e.perm)⟩
  -- any other error of os.Stat is ignored
  | statFail {fs out} : q.path ≠ dash →
      Step q true ⟨fs, out, .start⟩ ⟨fs, out, .openOld none⟩
  -- fileutil.go:62-65
  | openOk {fs out st e} : fs q.path = some e →
      Step q false ⟨fs, out, .openOld st⟩ ⟨fs, out, .readOld st⟩
  | openFail {fs out st} :
      Step q true ⟨fs, out, .openOld st⟩ ⟨fs, out, .done .err⟩
  -- fileutil.go:67-70: a read from an empty file is an error (io.EOF), as well as from a directory
  | readOk {fs out st f} : fs q.path = some (.reg f) → f.content ≠ [] →
      Step q false ⟨fs, out, .readOld st⟩
        ⟨fs, out, afterRead q st (f.content.take (bufLen q.content))⟩
  | readEmpty {fs out st f} : fs q.path = some (.reg f) → f.content = [] →
      Step q false ⟨fs, out, .readOld st⟩ ⟨fs, out, .done .err⟩
  | readDir {fs out st p} : fs q.path = some (.dir p) →
      Step q false ⟨fs, out, .readOld st⟩ ⟨fs, out, .done .err⟩
  | readFail {fs out st} :
      Step q true ⟨fs, out, .readOld st⟩ ⟨fs, out, .done .err⟩
  -- fileutil.go:83-85
  | chmodOk {fs out perm f} : fs q.path = some (.reg f) →
      Step q false ⟨fs, out, .chmodOld perm⟩
        ⟨fs.set q.path (some (.reg ⟨f.content, perm ||| 0o500#9⟩)), out, .done .ok⟩
  | chmodFail {fs out perm} :
      Step q true ⟨fs, out, .chmodOld perm⟩ ⟨fs, out, .done .err⟩
  -- fileutil.go:93-97: the name is that of the target with a random number inserted, and the
  -- file is created exclusively
  | tempOk {fs out tmp} : tmp ≠ q.path → fs tmp = none →
      Step q false ⟨fs, out, .temp⟩
        ⟨fs.set tmp (some (.reg ⟨[], 0o600#9⟩)), out, .chmodTemp tmp⟩
  | tempFail {fs out} :
      Step q true ⟨fs, out, .temp⟩ ⟨fs, out, .done .err⟩
  -- fileutil.go:98-101
  | chmodTempOk {fs out tmp f} : fs tmp = some (.reg f) →
      Step q false ⟨fs, out, .chmodTemp tmp⟩
        ⟨fs.set tmp (some (.reg ⟨f.content, q.mode⟩)), out, .writeTemp tmp 0⟩
  | chmodTempFail {fs out tmp} :
      Step q true ⟨fs, out, .chmodTemp tmp⟩ ⟨fs, out, .remove tmp⟩
  -- fileutil.go:102-105: any number of further bytes reaches the file, then the call either
  -- goes on, returns or fails
  | writeSome {fs out tmp f} {k k' : Nat} : fs tmp = some (.reg f) → k < k' →
      k' ≤ q.content.length →
      Step q false ⟨fs, out, .writeTemp tmp k⟩
        ⟨fs.set tmp (some (.reg ⟨f.content ++ (q.content.take k').drop k, f.perm⟩)), out,
          .writeTemp tmp k'⟩
  | writeAll {fs out tmp} :
      Step q false ⟨fs, out, .writeTemp tmp q.content.length⟩ ⟨fs, out, .rename tmp⟩
  | writeFail {fs out tmp k} :
      Step q true ⟨fs, out, .writeTemp tmp k⟩ ⟨fs, out, .remove tmp⟩
  -- fileutil.go:107-110: atomic, fails if the target is a directory
  | renameOk {fs out tmp} : (∀ p, fs q.path ≠ some (.dir p)) →
      Step q false ⟨fs, out, .rename tmp⟩
        ⟨(fs.set q.path (fs tmp)).set tmp none, out, .done .ok⟩
  | renameFail {fs out tmp} :
      Step q true ⟨fs, out, .rename tmp⟩ ⟨fs, out, .remove tmp⟩
  -- fileutil.go:99, 103, 108
  | removeOk {fs out tmp} :
      Step q false ⟨fs, out, .remove tmp⟩ ⟨fs.set tmp none, out, .done .err⟩
  | removeFail {fs out tmp} :
      Step q true ⟨fs, out, .remove tmp⟩ ⟨fs, out, .done .errLeft⟩

/-- Any number of steps; the Boolean tells whether any of them is a failed one. -/
inductive Run (q : Req) : Bool → St → St → Prop where
  | refl {s} : Run q false s s
  | step {a b s s' s''} : Run q a s s' → Step q b s' s'' → Run q (a || b) s s''

/-- The state in which `WriteFile` is called. -/
def St.init (fs : FS) : St := ⟨fs, [], .start⟩

end Burl.File
