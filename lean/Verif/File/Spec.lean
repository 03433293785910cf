import Verif.File.Model
/-! What is observed of files, for the statements about `WriteFile`. -/
namespace Burl.File
open Burl

/-- The content a reader of the path gets; `none` if there is no regular file. -/
def contentAt (fs : FS) (p : Str) : Option Bytes :=
  match fs p with
  | some (.reg f) => some f.content
  | _ => none

/-- The permissions of the regular file at the path. -/
def permAt (fs : FS) (p : Str) : Option Perm :=
  match fs p with
  | some (.reg f) => some f.perm
  | _ => none

/-- The owner may read the file. -/
def ownerRead (p : Perm) : Bool := p.getLsbD 8
/-- The owner may execute the file. -/
def ownerExec (p : Perm) : Bool := p.getLsbD 6

/-- When a request can be met: the content goes to the standard output, or there is nothing at the
path, or a regular file there is not empty and either may be replaced or has the requested content
already (the length 4096 is an exception, see C42). -/
def CanSucceed (q : Req) (fs : FS) : Prop :=
  q.path = "-".toList ∨ fs q.path = none ∨
  ∃ f, fs q.path = some (.reg f) ∧ f.content ≠ [] ∧
    (q.force = true ∨ (f.content = q.content ∧ q.content.length ≠ 4096))

/-- A file that is taken for the requested one: it has the requested content, or begins with it if
this is 4096 bytes. -/
def TakenFor (q : Req) (f : Reg) : Prop :=
  f.content ≠ [] ∧ (f.content = q.content ∨ (q.content.length = 4096 ∧ q.content <+: f.content))

/-- The permissions of a file that has been taken for the requested one: the owner gets both
permissions if a program is requested and there was neither of them. -/
def Mended (mode old new : Perm) : Prop :=
  ((ownerRead mode = true ∨ ownerExec mode = true) ∧ ownerRead old = false ∧ ownerExec old = false ∧
    ownerRead new = true ∧ ownerExec new = true ∧
    ∀ i, i ≠ 8 → i ≠ 6 → new.getLsbD i = old.getLsbD i) ∨
  (¬ ((ownerRead mode = true ∨ ownerExec mode = true) ∧ ownerRead old = false ∧
    ownerExec old = false) ∧ new = old)

/-- A run of the given number of system calls. -/
inductive Calls (q : Req) : Nat → St → St → Prop where
  | none {s} : Calls q 0 s s
  | more {n b s s' s''} : Calls q n s s' → Step q b s' s'' → Calls q (n + 1) s s''

end Burl.File
