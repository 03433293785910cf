import Verif.Emacs.Spec
/-! Model of pkg/burl_emacs/emacs.go and of the methods of the backend that use it
(cmd/burl_backend/burl_backend.go).

Calls are programs that ask for a process to be run and continue with its outcome, so the same
definitions are used for one call at a time and for interleaved calls.  The process, its output and
exit code are arbitrary. -/
namespace Burl.Emacs
open Burl.Emacs.Spec (Proc Status Outcome Editor bytesOf)

/-- `burl_emacs.Command` (emacs.go:27) and `burl_emacs.UserArgs` (emacs.go:48) after parsing of
flags `-emacsclient` and `-emacsarg` (cmd/burl_backend/args.go:57-59). -/
structure Config where
  command : Str
  userArgs : List Str

/-- `burl_emacs.Args` (emacs.go:29-47). -/
def Args : List Str := ["--quiet".toList, "--alternate-editor=sh -c \"exit 9\"".toList]

/-- `CheckOrgProtocolLisp` (emacs.go:49). -/
def CheckOrgProtocolLisp : Str := "(and (memq 'org-protocol features) 'org-protocol)".toList

/-- `EnsureFrameLisp` (emacs.go:50-55). -/
def EnsureFrameLisp : Str := "
(if (and (symbolp 'linkremark-ensure-frame) (fboundp 'linkremark-ensure-frame))
    (linkremark-ensure-frame)
  (or (memq 'x (mapcar #'framep (frame-list)))
      (select-frame (make-frame '((name . \"bURL\") (window-system . x))))))
".toList

/-- Errors.  `wrap` is `fmt.Errorf` with `%w` (the text around the wrapped error is not kept),
`process` is what `cmd.CombinedOutput` returns. -/
inductive Err where
  | serverNotFound                                     -- EmacsServerNotFoundError, emacs.go:57
  | process (s : Status)
  | notLoaded                                          -- emacs.go:90
  | badScheme                                          -- emacs.go:112
  | badFormat                                          -- burl_backend.go:150
  | prohibited                                         -- burl_backend.go:207
  | wrap (e : Err)
  deriving Repr, DecidableEq

/-- `errors.Is(err, EmacsServerNotFoundError)`. -/
def Err.isServerNotFound : Err → Bool
  | serverNotFound => true
  | wrap e => e.isServerNotFound
  | _ => false

/-- A computation that runs processes: `exec args k` starts the editor client with `args` added to
the configured arguments, waits and continues with the outcome. -/
inductive Prog (α : Type) where
  | ret (a : α)
  | exec (args : List Str) (k : Outcome → Prog α)

/-- Sequential composition of statements (pkg/burl_emacs/emacs.go:95-124). -/
def Prog.bind {α β} : Prog α → (α → Prog β) → Prog β
  | .ret a, f => f a
  | .exec args k, f => .exec args fun o => (k o).bind f

/-- What `execEmacs` makes of an outcome (emacs.go:63-72). -/
def judge (o : Outcome) : Except Err Bytes :=
  match o.status with
  | .success => .ok o.out
  | .exited code => if code == 9 then .error .serverNotFound else .error (.process o.status)
  | .failed => .error (.process o.status)

/-- `execEmacs` (emacs.go:59-73).  `cmd.ProcessState.ExitCode()` is -1 if the process was not
started or was killed, so only `exited 9` is the special case.  Here the arguments are composed
without sharing, see `Verif/Emacs/Memory.lean` for what the two calls of `append` do. -/
def execEmacs (args : List Str) : Prog (Except Err Bytes) :=
  .exec args fun o => .ret (judge o)

/-- `EnsureFrame` (emacs.go:75-81). -/
def ensureFrame : Prog (Except Err Unit) :=
  (execEmacs ["--eval".toList, EnsureFrameLisp]).bind fun
    | .error e => .ret (.error (.wrap e))
    | .ok _ => .ret (.ok ())

/-- `CheckOrgProtocol` (emacs.go:83-93). -/
def checkOrgProtocol : Prog (Except Err Unit) :=
  (execEmacs ["--eval".toList, CheckOrgProtocolLisp]).bind fun
    | .error e => .ret (.error (.wrap e))
    | .ok out =>
      if (bytesOf "org-protocol".toList).isPrefixOf out then .ret (.ok ())
      else .ret (.error .notLoaded)

/-- Decimal digits of a positive `int` (`%d`). -/
def formatD (n : Int) : Str := (toString n).toList

/-- `VisitFile` (emacs.go:95-108). -/
def visitFile (path : Str) (lineNo : Int) : Prog (Except Err Unit) :=
  ensureFrame.bind fun
    | .error e => .ret (.error e)
    | .ok _ =>
      let args := ["--no-wait".toList]
      let args := if lineNo > 0 then args ++ ['+' :: formatD lineNo] else args
      let args := args ++ [path]
      (execEmacs args).bind fun
        | .error e => .ret (.error (.wrap e))
        | .ok _ => .ret (.ok ())

/-- `OrgProtocol` (emacs.go:110-124). -/
def orgProtocol (uri : Str) : Prog (Except Err Unit) :=
  if ¬ "org-protocol:".toList.isPrefixOf uri then .ret (.error .badScheme)
  else checkOrgProtocol.bind fun
    | .error e => .ret (.error e)
    | .ok _ => ensureFrame.bind fun
      | .error e => .ret (.error e)
      | .ok _ => (execEmacs [uri]).bind fun
        | .error e => .ret (.error (.wrap e))
        | .ok _ => .ret (.ok ())

/-- `burl_rpc.CaptureQuery` (pkg/burl_rpc/burl_rpc.go:67-73), only fields that are used;
`hasError` is `Error != nil`. -/
structure CaptureQuery where
  format : Str
  url : Str
  hasError : Bool

/-- `burl_rpc.CaptureResponse` (pkg/burl_rpc/burl_rpc.go:75-78). -/
structure CaptureResponse where
  preview : Bool
  status : Str
  deriving Repr, DecidableEq

/-- `Capture` (burl_backend.go:148-162). -/
def capture (q : CaptureQuery) : Prog (Except Err CaptureResponse) :=
  if q.format ≠ "org-protocol".toList then .ret (.error .badFormat)
  else if q.hasError then .ret (.ok ⟨true, "preview".toList⟩)
  else (orgProtocol q.url).bind fun
    | .error e => .ret (.error (.wrap e))
    | .ok _ => .ret (.ok ⟨false, "success".toList⟩)

/-- `burl_rpc.Location` (pkg/burl_rpc/burl_rpc.go:38-41). -/
structure Location where
  filePath : Str
  lineNo : Int

/-- `Visit` (burl_backend.go:198-214); `files` are names of `b.srcFiles`. -/
def visit (files : List Str) (q : Location) : Prog (Except Err Bool) :=
  let fileAllowed := files.any fun name => q.filePath == name
  if ¬ fileAllowed then .ret (.error .prohibited)
  else (visitFile q.filePath q.lineNo).bind fun
    | .error e => .ret (.error (.wrap e))
    | .ok _ => .ret (.ok true)

/-- Requests served by the backend.  Methods other than `Capture` and `Visit` do not use package
`burl_emacs` (burl_backend.go:123-146, 164-196, 216-275), their replies are modelled elsewhere. -/
inductive Request where
  | capture (q : CaptureQuery)
  | visit (q : Location)
  | other

/-- Replies of the methods that start the editor (cmd/burl_backend/burl_backend.go:148-162,
198-214). -/
inductive Reply where
  | capture (r : Except Err CaptureResponse)
  | visit (r : Except Err Bool)
  | other

/-- Call of a method (cmd/burl_backend/burl_backend.go:148-162, 198-214; other methods start no
processes). -/
def serve (files : List Str) : Request → Prog Reply
  | .capture q => (Emacs.capture q).bind fun r => .ret (.capture r)
  | .visit q => (Emacs.visit files q).bind fun r => .ret (.visit r)
  | .other => .ret .other

/-- One call at a time: processes are started with `append(append(UserArgs, Args...), args...)`
(emacs.go:60-62); `w` is the list of processes started so far. -/
def Prog.run {α} (ed : Editor) (cfg : Config) : Prog α → List Proc → α × List Proc
  | .ret a, w => (a, w)
  | .exec args k, w =>
    let p : Proc := ⟨cfg.command, (cfg.userArgs ++ Args) ++ args⟩
    (k (ed w p)).run ed cfg (w ++ [p])

/-- A sequence of requests served one after another. -/
def serveAll (ed : Editor) (cfg : Config) (files : List Str) :
    List Request → List Proc → List Reply × List Proc
  | [], w => ([], w)
  | r :: rs, w =>
    let (a, w) := (serve files r).run ed cfg w
    let (as, w) := serveAll ed cfg files rs w
    (a :: as, w)

end Burl.Emacs
