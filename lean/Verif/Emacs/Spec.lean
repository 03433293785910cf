import Verif.Base
/-! Vocabulary for statements about the editor client. -/
namespace Burl.Emacs.Spec

/-- A process: the command and its arguments. -/
structure Proc where
  command : Str
  args : List Str
  deriving Repr, DecidableEq

/-- How a process ended. -/
inductive Status where
  | success              -- exit code 0
  | exited (code : Nat)  -- some other exit code
  | failed               -- killed by a signal, could not be started, reading of its output failed
  deriving Repr, DecidableEq

structure Outcome where
  out : Bytes
  status : Status
  deriving Repr, DecidableEq

/-- Behaviour of the editor: it may depend on everything that was started before. -/
abbrev Editor := List Proc → Proc → Outcome

def bytesOf (s : Str) : Bytes := s.flatMap String.utf8EncodeChar

def checkLisp : Str := "(and (memq 'org-protocol features) 'org-protocol)".toList
def frameLisp : Str := "
(if (and (symbolp 'linkremark-ensure-frame) (fboundp 'linkremark-ensure-frame))
    (linkremark-ensure-frame)
  (or (memq 'x (mapcar #'framep (frame-list)))
      (select-frame (make-frame '((name . \"bURL\") (window-system . x))))))
".toList

/-- Arguments always passed to the editor client. -/
def fixedArgs : List Str := ["--quiet".toList, "--alternate-editor=sh -c \"exit 9\"".toList]

/-- Decimal digits. -/
def decimal (n : Nat) : Str := (toString n).toList

/-- The part of an argument list that is permitted to vary, given the configured files. -/
inductive Allowed (files : List Str) : List Str → Prop where
  | check : Allowed files ["--eval".toList, checkLisp]
  | frame : Allowed files ["--eval".toList, frameLisp]
  | uri (rest : Str) : Allowed files ["org-protocol:".toList ++ rest]
  | file {p} : p ∈ files → Allowed files ["--no-wait".toList, p]
  | line {p} (n : Nat) : 0 < n → p ∈ files →
      Allowed files ["--no-wait".toList, '+' :: decimal n, p]

/-- The processes of a capture. -/
def captureProcs (command : Str) (userArgs : List Str) (uri : Str) : List Proc :=
  [⟨command, userArgs ++ fixedArgs ++ ["--eval".toList, checkLisp]⟩,
   ⟨command, userArgs ++ fixedArgs ++ ["--eval".toList, frameLisp]⟩,
   ⟨command, userArgs ++ fixedArgs ++ [uri]⟩]

/-- The processes of a visit: the line is passed if it is positive. -/
def visitProcs (command : Str) (userArgs : List Str) (path : Str) (lineNo : Int) : List Proc :=
  [⟨command, userArgs ++ fixedArgs ++ ["--eval".toList, frameLisp]⟩,
   ⟨command, userArgs ++ fixedArgs ++ ["--no-wait".toList] ++
      (if 0 < lineNo then ['+' :: decimal lineNo.toNat] else []) ++ [path]⟩]

/-- The `i`-th process of a list succeeds when it is started after `w` and its predecessors. -/
def Succeeds (ed : Editor) (w : List Proc) (ps : List Proc) (i : Nat) : Prop :=
  ∃ p, ps[i]? = some p ∧ (ed (w ++ ps.take i) p).status = .success

/-- Its answer begins with the given text. -/
def AnswerBegins (ed : Editor) (w : List Proc) (ps : List Proc) (i : Nat) (s : Str) : Prop :=
  ∃ p, ps[i]? = some p ∧ ∃ rest, (ed (w ++ ps.take i) p).out = bytesOf s ++ rest

end Burl.Emacs.Spec
