import Verif.Args.Install
import Verif.Args.Shell
/-! How a shell runs a generated wrapper (cmd/burl_backend/install.go:127-138).

The shell is outside of the repository.  The reader extends that of `Verif.Args.Shell` with what the
script needs: lines, `&&`, values of variables within double quotes, assignments, comments, `[ -x … ]`
and `exec`.  A shell executes a command when its line has been read, so text after an `exec` that is
done has no effect.  What is not described here stops the run with the text that is left. -/
namespace Burl.Args
open Burl

/-- What the reader is inside of: as before, or in the name of a variable within double quotes. -/
inductive LineMode where
  | base (m : Mode)
  | var (name : Str)
  deriving DecidableEq

/-- Characters of names of variables. -/
def nameChar (c : Char) : Bool := c.isAlphanum || c == '_'

/-- Reading of a command until the end of its line or `&&` (then `true` is returned with the words);
the last result is the text that follows.  Values of variables are `vars`. -/
def shLine (vars : Str → Option Str) :
    LineMode → Option Str → List Str → Str → Option (List Str × Bool × Str)
  | _, _, _, [] => none
  | .base .plain, cur, acc, c :: cs =>
    if c = ' ' ∨ c = '\t' then shLine vars (.base .plain) none (acc ++ cur.toList) cs
    else if c = '\n' then some (acc ++ cur.toList, false, cs)
    else if c = '&' then
      match cs with
      | '&' :: cs' => some (acc ++ cur.toList, true, cs')
      | _ => none
    else if c = '\'' then shLine vars (.base .single) (some (cur.getD [])) acc cs
    else if c = '"' then shLine vars (.base .double) (some (cur.getD [])) acc cs
    else if c = '\\' then shLine vars (.base .esc) cur acc cs
    else if c = '$' then shLine vars (.base .dollar) cur acc cs
    else if special c ∨ (cur = none ∧ (c = '#' ∨ c = '~')) then none
    else shLine vars (.base .plain) (some (cur.getD [] ++ [c])) acc cs
  | .base .esc, cur, acc, c :: cs =>
    if c = '\n' then shLine vars (.base .plain) cur acc cs
    else shLine vars (.base .plain) (some (cur.getD [] ++ [c])) acc cs
  | .base .dollar, cur, acc, c :: cs =>
    if c = '\'' then shLine vars (.base .single) (some (cur.getD [] ++ ['$'])) acc cs
    else if c = '"' then shLine vars (.base .double) (some (cur.getD [] ++ ['$'])) acc cs
    else if c = '\n' then some (acc ++ [cur.getD [] ++ ['$']], false, cs)
    else none
  | .base .single, cur, acc, c :: cs =>
    if c = '\'' then shLine vars (.base .plain) (some (cur.getD [])) acc cs
    else shLine vars (.base .single) (some (cur.getD [] ++ [c])) acc cs
  | .base .double, cur, acc, c :: cs =>
    if c = '"' then shLine vars (.base .plain) (some (cur.getD [])) acc cs
    else if c = '$' then shLine vars (.var []) cur acc cs
    else if c = '`' then none
    else if c = '\\' then shLine vars (.base .escDouble) cur acc cs
    else shLine vars (.base .double) (some (cur.getD [] ++ [c])) acc cs
  | .base .escDouble, cur, acc, c :: cs =>
    if c = '\n' then shLine vars (.base .double) cur acc cs
    else if c = '$' ∨ c = '`' ∨ c = '"' ∨ c = '\\' then
      shLine vars (.base .double) (some (cur.getD [] ++ [c])) acc cs
    else shLine vars (.base .double) (some (cur.getD [] ++ ['\\', c])) acc cs
  -- the value is not split into words; a variable that is not set is an error because of `-u`
  | .var name, cur, acc, c :: cs =>
    if nameChar c then shLine vars (.var (name ++ [c])) cur acc cs
    else if c = '"' ∧ name ≠ [] then
      match vars name with
      | some v => shLine vars (.base .plain) (some (cur.getD [] ++ v)) acc cs
      | none => none
    else none

/-- What a script comes to. -/
inductive Comes where
  /-- the shell is replaced by the program `cmd` with arguments `args` -/
  | exec (cmd : Str) (args : List Str)
  /-- the rest is not described here -/
  | at (vars : List (Str × Str)) (text : Str)
  deriving DecidableEq

/-- Text after the first line feed. -/
def afterLine : Str → Str
  | [] => []
  | c :: cs => if c = '\n' then cs else afterLine cs

/-- A name before `=`, and the text after it. -/
def assigned : Str → Option (Str × Str)
  | [] => none
  | c :: cs =>
    if c = '=' then some ([], cs)
    else if nameChar c then (assigned cs).map fun (n, r) => (c :: n, r)
    else none

/-- A run of a script.  `executable` are the files for which `[ -x … ]` is true.  A list
`[ … ] && …` whose test fails does not end the script in spite of `-e`.  The first argument bounds the
number of commands. -/
def shRun (executable : Str → Bool) : Nat → List (Str × Str) → Str → Comes
  | 0, vars, text => .at vars text
  | n + 1, vars, text =>
    match text with
    | '#' :: _ => shRun executable n vars (afterLine text)
    | '[' :: ' ' :: cs =>
      match shLine (fun x => vars.lookup x) (.base .plain) none [] cs with
      | some ([o, file, e], true, cs') =>
        if o = "-x".toList ∧ e = "]".toList then
          match shLine (fun x => vars.lookup x) (.base .plain) none [] cs' with
          | some (x :: cmd :: args, false, cs'') =>
            if x = "exec".toList then
              if executable file then .exec cmd args else shRun executable n vars cs''
            else .at vars text
          | _ => .at vars text
        else .at vars text
      | _ => .at vars text
    | _ =>
      match assigned text with
      | some (name, cs) =>
        if name = [] ∨ cs.head? = some ' ' ∨ cs.head? = some '\t' then .at vars text
        else
          match shLine (fun x => vars.lookup x) (.base .plain) none [] cs with
          | some ([v], false, cs') => shRun executable n ((name, v) :: vars) cs'
          | _ => .at vars text
      | none => .at vars text

/-- A run of a whole script: there are no more commands than characters. -/
def runScript (executable : Str → Bool) (text : Str) : Comes := shRun executable text.length [] text

end Burl.Args
