import Verif.Tree.Spec
/-! Specification vocabulary for extraction of links: Org outlines. -/
namespace Burl.Extract.Spec
open Burl.Tree.Spec (Link Props Tree)

mutual
/-- Links with the labels of the nodes above them, in document order. -/
def paths (above : List Props) : Tree → List (List Props × Link)
  | .body ls => ls.map (above, ·)
  | .node p cs => pathsAll (above ++ [p]) cs
def pathsAll (above : List Props) : List Tree → List (List Props × Link)
  | [] => []
  | t :: ts => paths above t ++ pathsAll above ts
end

mutual
/-- No empty parts: there are links in every body and below every node. -/
def Full : Tree → Prop
  | .body ls => ls ≠ []
  | .node _ cs => cs ≠ [] ∧ FullAll cs
def FullAll : List Tree → Prop
  | [] => True
  | t :: ts => Full t ∧ FullAll ts
end

/-- A headline of an outline. -/
structure Headline where
  level : Nat
  lineNo : Int
  title : Str
  deriving Repr, DecidableEq

/-- Of the headlines above a line, those of the sections it belongs to: a section ends at the
next headline of the same or a higher rank. -/
def enclosing : List Headline → List Headline
  | [] => []
  | h :: hs => if hs.all (fun k => decide (h.level < k.level)) then h :: enclosing hs
    else enclosing hs

/-- White space. -/
def blank (c : Char) : Bool := c = ' ' || c = '\t' || c = '\r' || c = '\n' || c = '\x0c'

/-- Org headline: stars at the beginning of the line and a space; the title is what follows
without surrounding blanks. -/
def headline (line : Str) : Option (Nat × Str) :=
  let stars := line.takeWhile (· == '*')
  match line.dropWhile (· == '*') with
  | ' ' :: rest => if stars.isEmpty then none
      else some (stars.length, ((rest.dropWhile blank).reverse.dropWhile blank).reverse)
  | _ => none

/-- What extraction has to find: for every line the links in it accepted by `accept`, with the
line number and the headlines of the enclosing sections. -/
def expected (head : Str → Option (Nat × Str)) (find : Str → List Link) (accept : Link → Bool) :
    Int → List Headline → List Str → List (List Headline × Link)
  | _, _, [] => []
  | n, seen, l :: ls =>
    let seen := match head l with
      | some (level, title) => seen ++ [⟨level, n, title⟩]
      | none => seen
    ((find l).filter accept).map (fun k => (enclosing seen, { k with lineNo := n })) ++
      expected head find accept (n + 1) seen ls

/-- The same for any function of the headlines above a line. -/
def expectedBy {α : Type} (above : List Headline → α) (head : Str → Option (Nat × Str))
    (find : Str → List Link) (accept : Link → Bool) :
    Int → List Headline → List Str → List (α × Link)
  | _, _, [] => []
  | n, seen, l :: ls =>
    let seen := match head l with
      | some (level, title) => seen ++ [⟨level, n, title⟩]
      | none => seen
    ((find l).filter accept).map (fun k => (above seen, { k with lineNo := n })) ++
      expectedBy above head find accept (n + 1) seen ls

/-- Depth in the tree of a headline: ten levels are kept, deeper headlines take the place of the
ninth. -/
def depth (level : Nat) : Nat := if level > 10 then 9 else level

/-- For every depth down to that of the last headline the latest headline of that depth, if any. -/
def latest (seen : List Headline) : List (Option Headline) :=
  match seen.getLast? with
  | none => []
  | some h => (List.range (depth h.level)).map fun i =>
      seen.reverse.find? fun k => depth k.level == i + 1

/-- Levels of an outline without gaps: the first headline has one star, each next one has at most
one star more than the one before, and no more than ten. -/
def Regular (head : Str → Option (Nat × Str)) : Nat → List Str → Prop
  | _, [] => True
  | depth, l :: ls => match head l with
    | some (level, _) => 1 ≤ level ∧ level ≤ depth + 1 ∧ level ≤ 10 ∧ Regular head level ls
    | none => Regular head depth ls

/-- A line without blanks at the end, and with nothing but a space after leading stars. -/
def Tidy (line : Str) : Prop :=
  (∀ c, line.getLast? = some c → blank c = false) ∧
  (∀ c rest, line.dropWhile (· == '*') = c :: rest → blank c = true → c = ' ') ∧ '\n' ∉ line

/-- Stars at the beginning of a line, white space, and a title that neither begins nor ends with white
space: lines that match the regular expression of the code. -/
def Starred (line : Str) (level : Nat) (title : Str) : Prop :=
  ∃ gap, line = List.replicate level '*' ++ (gap ++ title) ∧ 0 < level ∧
    gap ≠ [] ∧ (∀ c ∈ gap, blank c = true) ∧ '\n' ∉ title ∧
    (∀ c, title.head? = some c → blank c = false) ∧ (∀ c, title.getLast? = some c → blank c = false)

/-- A reading of headings on every line. -/
def Reads (head : Str → Option (Nat × Str)) : Prop :=
  ∀ line level title, head line = some (level, title) ↔ Starred line level title

/-- Links of lines in document order, with numbers of lines starting from `n`. -/
def found (find : Str → List Link) (accept : Link → Bool) : Int → List Str → List Link
  | _, [] => []
  | n, l :: ls => ((find l).filter accept).map (fun k => { k with lineNo := n }) ++
      found find accept (n + 1) ls

/-- Items processed one after another until the first failure, and that failure. -/
def untilFailure {α ε : Type} (status : α → Option ε) : List α → List α × Option ε
  | [] => ([], none)
  | x :: xs => match status x with
    | some e => ([x], some e)
    | none => (x :: (untilFailure status xs).1, (untilFailure status xs).2)

/-- Levels of an outline that never go more than one star deeper than the deepest headline
before. -/
def Stepwise (head : Str → Option (Nat × Str)) : Nat → List Str → Prop
  | _, [] => True
  | deepest, l :: ls => match head l with
    | some (level, _) => level ≤ deepest + 1 ∧ Stepwise head (max deepest level) ls
    | none => Stepwise head deepest ls

mutual
/-- All labels satisfy `P`. -/
def Labelled (P : Props → Prop) : Tree → Prop
  | .body _ => True
  | .node p cs => P p ∧ LabelledAll P cs
def LabelledAll (P : Props → Prop) : List Tree → Prop
  | [] => True
  | t :: ts => Labelled P t ∧ LabelledAll P ts
end

/-- A label with contents. -/
def Named : Props → Prop
  | .unset => False
  | .missingHeading => False
  | _ => True

end Burl.Extract.Spec
