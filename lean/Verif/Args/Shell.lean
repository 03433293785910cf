import Verif.Args.Model
/-!
The part of the shell language that a generated wrapper relies on, and the quoting done by
`/usr/bin/printf %q` (GNU coreutils), which `EscapeShellArg` (escape_printf.go:23-26) calls.

Both programs are outside of the repository.  The reader follows POSIX sh and `dash`; anything
with an effect that depends on more than the text (expansions, patterns, operators, comments) is
outside of its domain and makes it give nothing.
-/
namespace Burl.Args
open Burl

/-- What the shell is inside of. -/
inductive Mode where
  | plain
  /-- after a backslash outside of quotes -/
  | esc
  /-- after `$` outside of quotes -/
  | dollar
  | single
  | double
  /-- after a backslash within double quotes -/
  | escDouble
  deriving DecidableEq

/-- Characters that are not literal outside of quotes anywhere in a word. -/
def special (c : Char) : Bool :=
  c ∈ ['|', '&', ';', '<', '>', '(', ')', '`', '*', '?', '[', '\n']

/-- Reading of a command line into words.  `cur` is the word being read, if any, `acc` are the
words before it. -/
def shScan : Mode → Option Str → List Str → Str → Option (List Str)
  | .plain, none, acc, [] => some acc
  | .plain, some w, acc, [] => some (acc ++ [w])
  | .plain, cur, acc, c :: cs =>
    if c = ' ' ∨ c = '\t' then
      match cur with
      | none => shScan .plain none acc cs
      | some w => shScan .plain none (acc ++ [w]) cs
    else if c = '\'' then shScan .single (some (cur.getD [])) acc cs
    else if c = '"' then shScan .double (some (cur.getD [])) acc cs
    else if c = '\\' then shScan .esc cur acc cs
    else if c = '$' then shScan .dollar cur acc cs
    else if special c ∨ (cur = none ∧ (c = '#' ∨ c = '~')) then none
    else shScan .plain (some (cur.getD [] ++ [c])) acc cs
  | .esc, _, _, [] => none
  | .esc, cur, acc, c :: cs =>
    if c = '\n' then shScan .plain cur acc cs
    else shScan .plain (some (cur.getD [] ++ [c])) acc cs
  -- `$` is literal before a quote (dash; not specified by POSIX) and at the end
  | .dollar, cur, acc, [] => some (acc ++ [cur.getD [] ++ ['$']])
  | .dollar, cur, acc, c :: cs =>
    if c = '\'' then shScan .single (some (cur.getD [] ++ ['$'])) acc cs
    else if c = '"' then shScan .double (some (cur.getD [] ++ ['$'])) acc cs
    else none
  | .single, _, _, [] => none
  | .single, cur, acc, c :: cs =>
    if c = '\'' then shScan .plain (some (cur.getD [])) acc cs
    else shScan .single (some (cur.getD [] ++ [c])) acc cs
  | .double, _, _, [] => none
  | .double, cur, acc, c :: cs =>
    if c = '"' then shScan .plain (some (cur.getD [])) acc cs
    else if c = '$' ∨ c = '`' then none
    else if c = '\\' then shScan .escDouble cur acc cs
    else shScan .double (some (cur.getD [] ++ [c])) acc cs
  | .escDouble, _, _, [] => none
  | .escDouble, cur, acc, c :: cs =>
    if c = '\n' then shScan .double cur acc cs
    else if c = '$' ∨ c = '`' ∨ c = '"' ∨ c = '\\' then
      shScan .double (some (cur.getD [] ++ [c])) acc cs
    else shScan .double (some (cur.getD [] ++ ['\\', c])) acc cs

/-- The words of a command line. -/
def shWords (line : Str) : Option (List Str) := shScan .plain none [] line

/-- `strings.Join(escaped_args, " ")` (install.go:138). -/
def joinSpace : List Str → Str
  | [] => []
  | [w] => w
  | w :: ws => w ++ ' ' :: joinSpace ws

/-! ## `printf %q` -/

/-- Characters that make GNU `printf %q` quote a word wherever they are. -/
def gnuSpecial (c : Char) : Bool :=
  c ∈ [' ', '!', '"', '$', '&', '(', ')', '*', ';', '<', '=', '>', '[', '^', '`', '|', '\'',
    '\\', '?']

/-- Characters that prevent double quotes from being used: those special there and, away from
the start of the word, `#` and `~`, and braces. -/
def gnuNotDouble (first : Bool) (c : Char) : Bool :=
  c ∈ ['!', '"', '$', '&', '(', ')', '*', ';', '<', '=', '>', '[', '^', '`', '|', '\\', '?',
    '{', '}'] || (!first && c ∈ ['#', '~'])

/-- A word that is printed as is. -/
def gnuBare : Str → Bool
  | [] => false
  | c :: cs => (c :: cs).all (fun x => !gnuSpecial x) && c != '#' && c != '~' &&
    !(cs.isEmpty && (c == '{' || c == '}'))

/-- `'` replaced by `'\''`. -/
def escapeSingle : Str → Str
  | [] => []
  | c :: cs => (if c = '\'' then ['\'', '\\', '\'', '\''] else [c]) ++ escapeSingle cs

/-- Every character of a word may stand within double quotes. -/
def gnuDouble : Str → Bool
  | [] => true
  | c :: cs => !gnuNotDouble true c && cs.all (fun x => !gnuNotDouble false x)

/-- `printf %q` (GNU coreutils) of a string of printable characters. -/
def gnuQuote (s : Str) : Str :=
  if gnuBare s then s
  else if '\'' ∈ s ∧ gnuDouble s = true then '"' :: (s ++ ['"'])
  else '\'' :: (escapeSingle s ++ ['\''])

end Burl.Args
