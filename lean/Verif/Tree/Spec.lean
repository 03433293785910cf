import Verif.Base
/-! Specification vocabulary for the tree of links: plain inductive trees, without sharing or
mutation. -/
namespace Burl.Tree.Spec

/-- A link as found in a source file. -/
structure Link where
  url : Str
  descr : Str
  lineNo : Int
  deriving Repr, DecidableEq

/-- Label of an inner node. -/
inductive Props where
  | unset                                 -- no label yet
  | fileGroup
  | file (path : Str)
  | heading (lineNo : Int) (rawText : Str)
  | missingHeading                        -- a level skipped in the outline
  deriving Repr, DecidableEq

/-- Tree of links: bodies hold links, inner nodes are labelled. -/
inductive Tree where
  | body (links : List Link)
  | node (props : Props) (children : List Tree)
  deriving Repr

mutual
/-- All links below a node in document order. -/
def links : Tree → List Link
  | .body ls => ls
  | .node _ cs => linksAll cs
def linksAll : List Tree → List Link
  | [] => []
  | t :: ts => links t ++ linksAll ts
end

mutual
/-- `Part a b`: `a` is obtained from `b` by leaving out some links and some branches; labels,
order and nesting are kept. -/
inductive Part : Tree → Tree → Prop where
  | body {ls ls'} : ls.Sublist ls' → Part (.body ls) (.body ls')
  | node {p cs cs'} : PartAll cs cs' → Part (.node p cs) (.node p cs')
inductive PartAll : List Tree → List Tree → Prop where
  | nil : PartAll [] []
  | keep {t t' ts ts'} : Part t t' → PartAll ts ts' → PartAll (t :: ts) (t' :: ts')
  | drop {t' ts ts'} : PartAll ts ts' → PartAll ts (t' :: ts')
end

/-- Annotated tree of a reply: `total` and `filtered` for every node. -/
inductive Annot where
  | body (total filtered : Int) (links : List Link)
  | node (total filtered : Int) (props : Props) (children : List Annot)
  deriving Repr

def Annot.total : Annot → Int
  | .body t _ _ => t
  | .node t _ _ _ => t
def Annot.filtered : Annot → Int
  | .body _ f _ => f
  | .node _ f _ _ => f

mutual
/-- The tree without annotations. -/
def Annot.erase : Annot → Tree
  | .body _ _ ls => .body ls
  | .node _ _ p cs => .node p (Annot.eraseAll cs)
def Annot.eraseAll : List Annot → List Tree
  | [] => []
  | a :: as => a.erase :: Annot.eraseAll as
end

mutual
/-- `Counted f a t`: `a` is a part of the source tree `t` such that every `total` is the number
of links of the corresponding source node accepted by `f`, only accepted links are present, and
no inner branch without accepted links is present. -/
inductive Counted (f : Link → Bool) : Annot → Tree → Prop where
  | body {n k ls ls'} : n = ((ls'.filter f).length : Int) → ls.Sublist (ls'.filter f) →
      Counted f (.body n k ls) (.body ls')
  | node {n k p cs cs'} : n = (((links (.node p cs')).filter f).length : Int) →
      CountedAll f cs cs' → Counted f (.node n k p cs) (.node p cs')
inductive CountedAll (f : Link → Bool) : List Annot → List Tree → Prop where
  | nil : CountedAll f [] []
  | keep {a t as ts} : Counted f a t → 0 < a.total → CountedAll f as ts →
      CountedAll f (a :: as) (t :: ts)
  | drop {t as ts} : CountedAll f as ts → CountedAll f as (t :: ts)
end

mutual
/-- `filtered` of every node is the number of links present below it, and every branch below the
root has some. -/
inductive Exact : Annot → Prop where
  | body {n k ls} : k = (ls.length : Int) → Exact (.body n k ls)
  | node {n k p cs} : k = ((linksAll (Annot.eraseAll cs)).length : Int) → ExactAll cs →
      Exact (.node n k p cs)
inductive ExactAll : List Annot → Prop where
  | nil : ExactAll []
  | cons {a as} : Exact a → 0 < a.filtered → ExactAll as → ExactAll (a :: as)
end

/-- First occurrences of every URL. -/
def firstByUrl (seen : List Str) : List Link → List Link
  | [] => []
  | l :: ls => if l.url ∈ seen then firstByUrl seen ls else l :: firstByUrl (l.url :: seen) ls

mutual
/-- The links of the bodies accepted by `f`, leaving out repetitions inside one body. -/
def matching (f : Link → Bool) : Tree → List Link
  | .body ls => firstByUrl [] (ls.filter f)
  | .node _ cs => matchingAll f cs
def matchingAll (f : Link → Bool) : List Tree → List Link
  | [] => []
  | t :: ts => matching f t ++ matchingAll f ts
end

/-- Choice among children for the share `t`; an element is the number of matches of a child and
the share it gets, `none` if it is left out.  Only children with matches are chosen, as many as
possible, those with more matches (the earlier ones of equal); shares are positive, add up to `t`
and do not decrease with the number of matches; no child gets more than it has matches unless all
matches fit. -/
structure Choice (t : Int) (l : List (Int × Option Int)) : Prop where
  positive : ∀ c s, (c, some s) ∈ l → 0 < s ∧ 0 < c
  largest : l.Pairwise fun a b =>
    (a.2 = none → b.2 ≠ none → a.1 < b.1) ∧ (a.2 ≠ none → b.2 = none → b.1 ≤ a.1)
  number : ((l.filterMap (·.2)).length : Int) =
    min t ((l.filter fun x => decide (0 < x.1)).length : Int)
  total : l.filterMap (·.2) ≠ [] → (l.filterMap (·.2)).sum = t
  monotone : ∀ c s c' s', (c, some s) ∈ l → (c', some s') ∈ l → c < c' → s ≤ s'
  capped : t ≤ (l.map (·.1)).sum → ∀ c s, (c, some s) ∈ l → s ≤ c

/-- Number of links below a node accepted by `f`. -/
def matches_ (f : Link → Bool) (t : Tree) : Int := ((links t).filter f).length

mutual
/-- `Shared f t src a`: the tree `a` is `src` limited to `t` links sharing the limit among
children by `Choice`; a body shows its first accepted links with different URLs. -/
inductive Shared (f : Link → Bool) : Int → Tree → Annot → Prop where
  | body {t n k ls} : Shared f t (.body ls)
      (.body n k ((firstByUrl [] (ls.filter f)).take t.toNat))
  | node {t n k p cs cs' sh} : sh.length = cs.length →
      Choice t ((cs.map (matches_ f)).zip sh) → SharedAll f sh cs cs' →
      Shared f t (.node p cs) (.node n k p cs')
/-- Children left out (`none`) or shown with a share, in the original order. -/
inductive SharedAll (f : Link → Bool) : List (Option Int) → List Tree → List Annot → Prop where
  | nil : SharedAll f [] [] []
  | keep {s sh t ts a as} : Shared f s t a → SharedAll f sh ts as →
      SharedAll f (some s :: sh) (t :: ts) (a :: as)
  | drop {sh t ts as} : SharedAll f sh ts as → SharedAll f (none :: sh) (t :: ts) as
end

/-- The prefix of a list of links up to and including the first one for which a callback with
state returns false: what a client that stops the traversal sees. -/
def seenBy {σ : Type} (cb : σ → Link → σ × Bool) (s : σ) : List Link → List Link
  | [] => []
  | l :: ls => l :: (if (cb s l).2 then seenBy cb (cb s l).1 ls else [])

end Burl.Tree.Spec
