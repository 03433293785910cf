import Verif.Base
/-! Model of the part of Go's `regexp` package used by burl: a parser of patterns and a matcher
with leftmost-first semantics (`regexp.Compile`, `FindStringSubmatch`, `FindAllStringSubmatch`,
`MatchString`, `QuoteMeta`).

The package belongs to the Go distribution, not to /repo; this file is the model of its documented
behaviour.  Patterns of /repo that are parsed by this model: pkg/burl_links/extract_org.go:28, 35-39,
41-60, 82, 189, 200-206, extract_txt.go:111-116, urlmatch_txt.go:19-28.

Simplifications.  Syntax not used by these patterns is rejected.  Strings are sequences of Unicode
scalar values (invalid UTF-8 is not modelled).  Limits on the size of expressions are not modelled.
`\p{L}` is a parameter `letter`: any set of characters.  An iteration of a loop that consumes
nothing is not tried; no loop body of these patterns matches the empty string. -/
namespace Burl.Regex

/-! ### Syntax trees -/

/-- Element of a character class. -/
inductive Item where
  | range (lo hi : Char)
  | punct     -- [:punct:]
  | alpha     -- [:alpha:]
  | letter    -- \p{L}
  deriving Repr, DecidableEq

/-- A character class (`[...]`, Go `regexp/syntax`). -/
structure Cls where
  neg : Bool
  fold : Bool     -- (?i)
  items : List Item
  deriving Repr, DecidableEq

/-- Syntax trees of expressions (`syntax.Regexp` of the Go distribution). -/
inductive Re where
  | never
  | empty
  | lit (c : Char)
  | cls (k : Cls)
  | any                 -- .
  | space (neg : Bool)  -- \s \S
  | bol                 -- ^
  | eol                 -- $
  | wordB               -- \b
  | cat (a b : Re)
  | alt (a b : Re)
  | star (lazy : Bool) (r : Re)
  | plus (lazy : Bool) (r : Re)
  | opt (lazy : Bool) (r : Re)
  | rep (lo hi : Nat) (r : Re)
  | group (i : Nat) (r : Re)
  deriving Repr, DecidableEq

/-- Concatenation (`OpConcat`). -/
def cats : List Re → Re
  | [] => .empty
  | [r] => r
  | r :: rs => .cat r (cats rs)

/-- Alternation (`OpAlternate`). -/
def alts : List Re → Re
  | [] => .never
  | [r] => r
  | r :: rs => .alt r (alts rs)

/-! ### Parser

A machine that reads a pattern character by character. -/

/-- Position inside of a character class. -/
inductive ClsMode where
  | start                          -- after `[`
  | item (first : Bool)            -- before an item
  | esc                            -- after a backslash
  | single (c : Char)              -- after a single character
  | dash (c : Char)                -- after a single character and `-`
  | brk                            -- after `[`
  | name (s : List Char)           -- after `[:`, reversed name
  | nameEnd (s : List Char)        -- after `:` of `:]`
  | prop (n : Nat)                 -- `\p{L}`: number of characters read
  deriving Repr, DecidableEq

/-- Position of the parser. -/
inductive Mode where
  | norm
  | quant                          -- after a repetition operator
  | esc
  | paren                          -- after `(`
  | parenQ                         -- after `(?`
  | flagI                          -- after `(?i`
  | prop (n : Nat)
  | brace (lo : Nat) (hi : Option Nat)   -- inside of `{n,m}`
  | cls (neg : Bool) (items : List Item) (m : ClsMode)
  deriving Repr, DecidableEq

/-- An open group. -/
structure Level where
  capture : Option Nat
  fold : Bool
  alts : List Re      -- finished alternatives
  cur : List Re       -- current alternative, reversed
  deriving Repr, DecidableEq

/-- State of the parser. -/
structure PState where
  mode : Mode
  top : Level
  outer : List Level
  groups : Nat        -- number of capturing groups
  deriving Repr, DecidableEq

namespace PState

/-- An expression is added to the current alternative. -/
def push (s : PState) (r : Re) : PState :=
  { s with mode := .norm, top := { s.top with cur := r :: s.top.cur } }

/-- A repetition operator is applied to the last expression; "missing argument to repetition
operator" without one. -/
def quantify (s : PState) (f : Re → Re) : Option PState :=
  match s.top.cur with
  | [] => none
  | r :: rs => some { s with mode := .quant, top := { s.top with cur := f r :: rs } }

/-- The last repetition operator becomes lazy. -/
def lazily (s : PState) : Option PState :=
  match s.top.cur with
  | .star _ r :: rs => some { s with mode := .norm, top := { s.top with cur := .star true r :: rs } }
  | .plus _ r :: rs => some { s with mode := .norm, top := { s.top with cur := .plus true r :: rs } }
  | .opt _ r :: rs => some { s with mode := .norm, top := { s.top with cur := .opt true r :: rs } }
  | _ => none

/-- The expression of a group. -/
def levelRe (l : Level) : Re :=
  match l.capture with
  | some i => .group i (alts (l.alts ++ [cats l.cur.reverse]))
  | none => alts (l.alts ++ [cats l.cur.reverse])

/-- `(` or `(?:`; flags are inherited. -/
def openGroup (s : PState) (capture : Option Nat) (groups : Nat) : PState :=
  { mode := .norm, top := ⟨capture, s.top.fold, [], []⟩, outer := s.top :: s.outer
    groups := groups }

/-- `)`; flags set inside of the group are dropped. -/
def closeGroup (s : PState) : Option PState :=
  match s.outer with
  | [] => none
  | l :: ls => some { s with mode := .norm, top := { l with cur := levelRe s.top :: l.cur }, outer := ls }

/-- The value of a digit in `{n,m}`. -/
def digit (c : Char) : Option Nat :=
  if '0' ≤ c ∧ c ≤ '9' then some (c.toNat - '0'.toNat) else none

/-- ASCII punctuation: an escaped punctuation character stands for itself. -/
def isPunct (c : Char) : Bool :=
  let n := c.toNat
  (33 ≤ n && n ≤ 47) || (58 ≤ n && n ≤ 64) || (91 ≤ n && n ≤ 96) || (123 ≤ n && n ≤ 126)

/-- A literal character, with `(?i)` in either case. -/
def literal (s : PState) (c : Char) : PState :=
  s.push (if s.top.fold then .cls ⟨false, true, [.range c c]⟩ else .lit c)

/-- A character outside of classes and escapes. -/
def normal (s : PState) (c : Char) : Option PState :=
  if c = '\\' then some { s with mode := .esc }
  else if c = '(' then some { s with mode := .paren }
  else if c = ')' then s.closeGroup
  else if c = '|' then
    some { s with mode := .norm, top := { s.top with alts := s.top.alts ++ [cats s.top.cur.reverse]
                                                     cur := [] } }
  else if c = '[' then some { s with mode := .cls false [] .start }
  else if c = '*' then s.quantify (.star false)
  else if c = '+' then s.quantify (.plus false)
  else if c = '?' then s.quantify (.opt false)
  else if c = '{' then some { s with mode := .brace 0 none }
  else if c = '.' then some (s.push .any)
  else if c = '^' then some (s.push .bol)
  else if c = '$' then some (s.push .eol)
  else some (s.literal c)

/-- A character after a backslash. -/
def escaped (s : PState) (c : Char) : Option PState :=
  if c = 'b' then some (s.push .wordB)
  else if c = 's' then some (s.push (.space false))
  else if c = 'S' then some (s.push (.space true))
  else if c = 'p' then some { s with mode := .prop 0 }
  else if isPunct c then some (s.literal c)
  else none

/-- `[:name:]` -/
def namedClass (s : List Char) : Option Item :=
  if s.reverse = "punct".toList then some .punct
  else if s.reverse = "alpha".toList then some .alpha
  else none

/-- A character inside of a class. -/
def inClass (s : PState) (neg : Bool) (items : List Item) (m : ClsMode) (c : Char) :
    Option PState :=
  let go (neg : Bool) (items : List Item) (m : ClsMode) : Option PState :=
    some { s with mode := .cls neg items m }
  let close (items : List Item) : Option PState :=
    some (s.push (.cls ⟨neg, s.top.fold, items.reverse⟩))
  -- a character that begins an item
  let begin (items : List Item) : Option PState :=
    if c = '\\' then go neg items .esc
    else if c = '[' then go neg items .brk
    else go neg items (.single c)
  match m with
  | .start => if c = '^' then go true items (.item true) else begin items
  | .item first => if c = ']' && !first then close items else begin items
  | .esc => if c = 'p' then go neg items (.prop 0)
      else if isPunct c then go neg items (.single c) else none
  | .single d =>
    if c = ']' then close (.range d d :: items)
    else if c = '-' then go neg items (.dash d)
    else begin (.range d d :: items)
  | .dash d =>
    if c = ']' then close (.range '-' '-' :: .range d d :: items)
    else if c = '\\' || c = '[' then none
    else if d ≤ c then go neg (.range d c :: items) (.item false) else none
  | .brk =>
    if c = ':' then go neg items (.name [])
    else if c = ']' then close (.range '[' '[' :: items)
    else if c = '-' then go neg items (.dash '[')
    else begin (.range '[' '[' :: items)
  | .name n => if c = ':' then go neg items (.nameEnd n) else go neg items (.name (c :: n))
  | .nameEnd n =>
    if c = ']' then match namedClass n with
      | some i => go neg (i :: items) (.item false)
      | none => none
    else none
  | .prop n =>
    if n = 0 ∧ c = '{' then go neg items (.prop 1)
    else if n = 1 ∧ c = 'L' then go neg items (.prop 2)
    else if n = 2 ∧ c = '}' then go neg (.letter :: items) (.item false)
    else none

/-- One character. -/
def step (s : PState) (c : Char) : Option PState :=
  match s.mode with
  | .norm => s.normal c
  | .quant =>
    if c = '?' then s.lazily
    else if c = '*' || c = '+' || c = '{' then none
    else s.normal c
  | .esc => s.escaped c
  | .paren =>
    if c = '?' then some { s with mode := .parenQ }
    else (s.openGroup (some (s.groups + 1)) (s.groups + 1)).normal c
  | .parenQ =>
    if c = ':' then some (s.openGroup none s.groups)
    else if c = 'i' then some { s with mode := .flagI }
    else none
  | .flagI =>
    if c = ')' then some { s with mode := .norm, top := { s.top with fold := true } } else none
  | .prop n =>
    if n = 0 ∧ c = '{' then some { s with mode := .prop 1 }
    else if n = 1 ∧ c = 'L' then some { s with mode := .prop 2 }
    else if n = 2 ∧ c = '}' then some (s.push (.cls ⟨false, s.top.fold, [.letter]⟩))
    else none
  | .brace lo hi =>
    match digit c, hi with
    | some d, none => some { s with mode := .brace (lo * 10 + d) none }
    | some d, some h => some { s with mode := .brace lo (some (h * 10 + d)) }
    | none, none =>
      if c = ',' then some { s with mode := .brace lo (some 0) }
      else if c = '}' then s.quantify (.rep lo lo)
      else none
    | none, some h => if c = '}' && 1 ≤ h && lo ≤ h && h ≤ 1000 then s.quantify (.rep lo h) else none
  | .cls neg items m => s.inClass neg items m c

/-- All characters of a pattern. -/
def run (s : PState) : Str → Option PState
  | [] => some s
  | c :: cs => (s.step c).bind fun s => run s cs

/-- Before a pattern. -/
def init : PState := ⟨.norm, ⟨none, false, [], []⟩, [], 0⟩

/-- The end of a pattern: "missing closing )" and other unfinished constructs are errors. -/
def finish (s : PState) : Option Re :=
  match s.mode, s.outer with
  | .norm, [] => some (levelRe s.top)
  | .quant, [] => some (levelRe s.top)
  | _, _ => none

end PState

/-- `regexp.Compile`. -/
def compile (pattern : Str) : Option Re := (PState.init.run pattern).bind PState.finish

/-- `regexp.QuoteMeta`: a backslash before each of `\.+*?()|[]{}^$`. -/
def quoteMeta : Str → Str
  | [] => []
  | c :: cs => if c ∈ "\\.+*?()|[]{}^$".toList then '\\' :: c :: quoteMeta cs
    else c :: quoteMeta cs

/-! ### Matcher -/

/-- `\s` -/
def isSpace (c : Char) : Bool := c = '\t' || c = '\n' || c = '\x0c' || c = '\r' || c = ' '

/-- Word characters of `\b` (ASCII, as in Go). -/
def isWord (c : Char) : Bool :=
  ('0' ≤ c && c ≤ '9') || ('A' ≤ c && c ≤ 'Z') || ('a' ≤ c && c ≤ 'z') || c = '_'

/-- `[:alpha:]` -/
def isAlpha (c : Char) : Bool := ('A' ≤ c && c ≤ 'Z') || ('a' ≤ c && c ≤ 'z')

/-- Membership in an element of a class. -/
def Item.has (letter : Char → Bool) (c : Char) : Item → Bool
  | .range lo hi => lo ≤ c && c ≤ hi
  | .punct => PState.isPunct c
  | .alpha => isAlpha c
  | .letter => letter c

/-- Characters equal under simple case folding to a character of a class with ASCII members
(`unicode.SimpleFold`: `k` and the Kelvin sign, `s` and the long s). -/
def folds (c : Char) : List Char :=
  if c.toNat = 0x212A then [c, 'k', 'K']
  else if c.toNat = 0x017F then [c, 's', 'S']
  else if 'a' ≤ c ∧ c ≤ 'z' then [c, Char.ofNat (c.toNat - 32)]
  else if 'A' ≤ c ∧ c ≤ 'Z' then [c, Char.ofNat (c.toNat + 32)]
  else [c]

/-- Membership in a class; with `(?i)` a character matches if any of its case variants does. -/
def Cls.has (letter : Char → Bool) (k : Cls) (c : Char) : Bool :=
  let mem := (if k.fold then folds c else [c]).any fun d => k.items.any (Item.has letter d)
  mem != k.neg

/-- Position in the text and submatches: text before (reversed), text after, groups (the latest
first). -/
structure St where
  pre : List Char
  rest : Str
  caps : List (Nat × Str)
  deriving Repr, DecidableEq

/-- One character satisfying a predicate. -/
def one (p : Char → Bool) (s : St) : List St :=
  match s.rest with
  | [] => []
  | c :: cs => if p c then [⟨c :: s.pre, cs, s.caps⟩] else []

/-- Text consumed between two positions. -/
def between (s s' : St) : Str := (s'.pre.take (s'.pre.length - s.pre.length)).reverse

/-- Word boundary. -/
def atBoundary (s : St) : Bool :=
  let a := match s.pre with | [] => false | c :: _ => isWord c
  let b := match s.rest with | [] => false | c :: _ => isWord c
  a != b

/-- Repetition of `f`, most iterations first (or last if lazy), at most `n` of them. -/
def loop (lazy : Bool) (f : St → List St) : Nat → St → List St
  | 0, s => [s]
  | n + 1, s =>
    let more := ((f s).filter fun s' => decide (s'.rest.length < s.rest.length)).flatMap
      (loop lazy f n)
    if lazy then s :: more else more ++ [s]

/-- Exactly `n` times. -/
def times (f : St → List St) : Nat → St → List St
  | 0, s => [s]
  | n + 1, s => (f s).flatMap (times f n)

/-- All ways to match at a position in the order of preference of leftmost-first matching. -/
def run (letter : Char → Bool) : Re → St → List St
  | .never, _ => []
  | .empty, s => [s]
  | .lit c, s => one (· == c) s
  | .cls k, s => one (k.has letter) s
  | .any, s => one (· != '\n') s
  | .space neg, s => one (fun c => isSpace c != neg) s
  | .bol, s => if s.pre.isEmpty then [s] else []
  | .eol, s => if s.rest.isEmpty then [s] else []
  | .wordB, s => if atBoundary s then [s] else []
  | .cat a b, s => (run letter a s).flatMap (run letter b)
  | .alt a b, s => run letter a s ++ run letter b s
  | .star lz r, s => loop lz (run letter r) s.rest.length s
  | .plus lz r, s => (run letter r s).flatMap fun s' => loop lz (run letter r) s'.rest.length s'
  | .opt lz r, s => if lz then s :: run letter r s else run letter r s ++ [s]
  | .rep lo hi r, s => (times (run letter r) lo s).flatMap (loop false (run letter r) (hi - lo))
  | .group i r, s => (run letter r s).map fun s' => { s' with caps := (i, between s s') :: s'.caps }

/-- A match: the text before it (reversed), the matched text and the groups. -/
structure Match where
  pre : List Char
  text : Str
  caps : List (Nat × Str)
  deriving Repr, DecidableEq

/-- Element of the result of `FindStringSubmatch`: an empty string if the group has not
matched. -/
def Match.sub (m : Match) (i : Nat) : Str :=
  if i = 0 then m.text else ((m.caps.find? fun p => p.1 == i).map (·.2)).getD []

/-- The leftmost match at or after a position, and the state at its end. -/
def findFrom (letter : Char → Bool) (r : Re) (pre : List Char) : Str → Option (St × St)
  | [] => match run letter r ⟨pre, [], []⟩ with
    | s :: _ => some (⟨pre, [], []⟩, s)
    | [] => none
  | c :: cs => match run letter r ⟨pre, c :: cs, []⟩ with
    | s :: _ => some (⟨pre, c :: cs, []⟩, s)
    | [] => findFrom letter r (c :: pre) cs

/-- A match between two positions. -/
def mkMatch (s s' : St) : Match := ⟨s.pre, between s s', s'.caps⟩

/-- `FindStringSubmatch`. -/
def findSub (letter : Char → Bool) (r : Re) (text : Str) : Option Match :=
  (findFrom letter r [] text).map fun (s, s') => mkMatch s s'

/-- `MatchString`. -/
def matchString (letter : Char → Bool) (r : Re) (text : Str) : Bool :=
  (findFrom letter r [] text).isSome

/-- `FindAllStringSubmatch(text, -1)` from a position; an empty match right after the previous
match is not accepted.  The first argument bounds the number of iterations (each one moves
forward). -/
def findAllFrom (letter : Char → Bool) (r : Re) : Nat → List Char → Str → Option Nat → List Match
  | 0, _, _, _ => []
  | n + 1, pre, rest, prevEnd =>
    match findFrom letter r pre rest with
    | none => []
    | some (s, s') =>
      if s'.pre.length = pre.length then
        -- an empty match at the position
        let out := if some s.pre.length = prevEnd then [] else [mkMatch s s']
        match rest with
        | [] => out
        | c :: cs => out ++ findAllFrom letter r n (c :: pre) cs (some s'.pre.length)
      else mkMatch s s' :: findAllFrom letter r n s'.pre s'.rest (some s'.pre.length)

/-- `FindAllStringSubmatch(text, -1)`. -/
def findAll (letter : Char → Bool) (r : Re) (text : Str) : List Match :=
  findAllFrom letter r (text.length + 2) [] text none

end Burl.Regex
