import Verif.Loop
import Verif.Tree.Spec
import Verif.Url.Model
/-! Model of `pkg/burl_links/link_tree.go` and `node_count.go` and of
`(*BurlBackend).UrlMentions`, on an explicit heap of objects reached through pointers.

Simplifications: a slice is its list of elements (every slice written here has a backing array of
its own: `Clone` and `LimitChildrenCount` build new ones with `make`); a `*Link` is stored by
value (no code writes to a link after extraction); a `LimitCountNode` and the `LimitCountAttrs` it
owns are one object; `int` is a mathematical integer except for the multiplication, the only
operation whose result is not bounded by the number of links or the given limit. -/
namespace Burl.Tree
open Burl.Tree.Spec (Link Props)

/-- A pointer to a node (pkg/burl_links/link_tree.go, node_count.go). -/
abbrev Addr := Nat

/-- What a pointer of the tree may point to. -/
inductive Obj where
  /-- `TreeLeafNode` (pkg/burl_links/link_tree.go:69-71) -/
  | leaf (links : List Link)
  /-- `TreeChildrenNode` (pkg/burl_links/link_tree.go:149-152) -/
  | node (props : Props) (children : List Addr)
  /-- `LimitCountNode` with its `LimitCountAttrs` (pkg/burl_links/node_count.go:23-31) -/
  | count (count target : Int) (node : Addr)
  deriving Repr, DecidableEq

/-- Memory: allocation appends, so the address of a new object is the length. -/
abbrev Heap := List Obj

/-- Pointer dereference. -/
def load (h : Heap) (a : Addr) : Res Empty Obj :=
  match h[a]? with
  | some o => .ok o
  | none => .panic

/-- `GetChildrenNodes` (pkg/burl_links/link_tree.go:94-96, 170-172, node_count.go:35-37). -/
def childrenNodes (h : Heap) (a : Addr) : Res Empty (List Addr) :=
  (load h a).bind fun
    | .leaf _ => .ok []
    | .node _ cs => .ok cs
    | .count _ _ n => (load h n).bind fun
      | .leaf _ => .ok []
      | .node _ cs => .ok cs
      | .count _ _ _ => .panic

/-- `OwnLinksCount` (pkg/burl_links/link_tree.go:98-100, 162-164). -/
def ownLinksCount (h : Heap) (a : Addr) : Res Empty Int :=
  (load h a).bind fun
    | .leaf ls => .ok ls.length
    | .node _ _ => .ok 0
    | .count _ _ _ => .panic

/-- `DepthFirstQueue` (pkg/burl_links/node_count.go:90-124): the top of the stack is the head;
`true` is `Post`. -/
abbrev Queue := List (Addr × Bool)

/-- `Pop` (pkg/burl_links/node_count.go:107-116): the first visit of an item leaves it in the
queue marked as `Post`. -/
def pop : Queue → Res Empty ((Addr × Bool) × Queue)
  | [] => .panic
  | (a, true) :: q => .ok ((a, true), q)
  | (a, false) :: q => .ok ((a, false), (a, true) :: q)

/-- `for i := len(children); i > 0; i-- { queue.Push(children[i-1]) }`
(pkg/burl_links/link_tree.go:272-274, node_count.go:162-164). -/
def pushAll (cs : List Addr) (q : Queue) : Queue := cs.map (·, false) ++ q

/-! ### ForEachLink -/

/-- State of the loop of `ForEachLink`: the queue, the state of the callback and whether
`return` was executed. -/
structure EachState (σ : Type) where
  queue : Queue
  cb : σ
  stopped : Bool

/-- The inner loop over the links of a leaf (pkg/burl_links/link_tree.go:265-269). -/
def feed {σ : Type} (filter : σ → Link → σ × Bool) : List Link → σ → σ × Bool
  | [], s => (s, true)
  | l :: ls, s =>
    match filter s l with
    | (s', true) => feed filter ls s'
    | (s', false) => (s', false)

/-- Loop body of `ForEachLink` (pkg/burl_links/link_tree.go:258-276). -/
def eachBody {σ : Type} (h : Heap) (filter : σ → Link → σ × Bool) (s : EachState σ) :
    Res Empty (EachState σ) :=
  (pop s.queue).bind fun (item, q) =>
    if item.2 then .ok { s with queue := q }
    else
      (load h item.1).bind fun o =>
      let r := match o with
        | .leaf ls => feed filter ls s.cb
        | _ => (s.cb, true)
      if r.2 then
        (childrenNodes h item.1).bind fun cs => .ok ⟨pushAll cs q, r.1, false⟩
      else .ok ⟨q, r.1, true⟩

/-- End of the loop of `ForEachLink` (pkg/burl_links/link_tree.go:258, 266-268). -/
def eachDone {σ : Type} (s : EachState σ) : Bool := s.stopped || s.queue.isEmpty

/-- `ForEachLink` (pkg/burl_links/link_tree.go:256-277): the callback is any function with a
state. -/
def ForEachLink {σ : Type} (h : Heap) (tree : Addr) (filter : σ → Link → σ × Bool) (s : σ)
    (r : Res Empty (EachState σ)) : Prop :=
  Loop eachDone (eachBody h filter) ⟨[(tree, false)], s, false⟩ r

/-! ### CountDescendants -/

/-- State of the loop of `CountDescendants`; the tip of `attrNodeStack` is the head. -/
structure CountState where
  heap : Heap
  queue : Queue
  stack : List (Option Addr)
  stopped : Bool

/-- `Clone` (pkg/burl_links/link_tree.go:81-92, 178-181) followed by the construction of the
annotated node (pkg/burl_links/node_count.go:151-158). -/
def cloneAttr (h : Heap) (filter : Link → Bool) (a : Addr) : Res Empty (Heap × Option Addr) :=
  (load h a).bind fun
    | .leaf ls =>
      let children := ls.filter filter
      if children.isEmpty then .ok (h, none)
      else .ok (h ++ [.leaf children, .count children.length 0 h.length], some (h.length + 1))
    | .node p _ => .ok (h ++ [.node p [], .count 0 0 h.length], some (h.length + 1))
    | .count _ _ _ => .panic

/-- `parent.Attrs.Count += count; parent.AppendChild(tip)`
(pkg/burl_links/node_count.go:142-144). -/
def attach (h : Heap) (parent : Option Addr) (count : Int) (tip : Addr) : Res Empty Heap :=
  match parent with
  | none => .panic
  | some p => (load h p).bind fun
    | .count c t n =>
      let h := h.set p (.count (c + count) t n)
      (load h n).bind fun
        | .node props cs => .ok (h.set n (.node props (cs ++ [tip])))
        | _ => .panic
    | _ => .panic

/-- Loop body of `CountDescendants` (pkg/burl_links/node_count.go:132-166). -/
def countBody (filter : Link → Bool) (s : CountState) : Res Empty CountState :=
  (pop s.queue).bind fun (item, q) =>
    if item.2 then
      match s.stack with
      | [] => .panic
      | [_] => .ok { s with queue := q, stopped := true }
      | tip :: parent :: st =>
        match tip with
        | none => .ok { s with queue := q, stack := parent :: st }
        | some t => (load s.heap t).bind fun
          | .count c _ _ =>
            if c > 0 then
              (attach s.heap parent c t).bind fun h =>
                .ok { s with heap := h, queue := q, stack := parent :: st }
            else .ok { s with queue := q, stack := parent :: st }
          | _ => .panic
    else
      (cloneAttr s.heap filter item.1).bind fun r =>
      (childrenNodes s.heap item.1).bind fun cs =>
        .ok { heap := r.1, queue := pushAll cs q, stack := r.2 :: s.stack, stopped := false }

/-- End of the loop of `CountDescendants` (pkg/burl_links/node_count.go:132, 147-149). -/
def countDone (s : CountState) : Bool := s.stopped || s.queue.isEmpty

/-- `CountDescendants` (pkg/burl_links/node_count.go:126-168) for a non-nil tree; on success the
result is the bottom of the stack and the new memory. -/
def CountDescendants (h : Heap) (inputTree : Addr) (filter : Link → Bool)
    (r : Res Empty (Heap × Option Addr)) : Prop :=
  ∃ r', Loop countDone (countBody filter) ⟨h, [(inputTree, false)], [], false⟩ r' ∧
    r = r'.bind fun s => match s.stack.getLast? with
      | some b => .ok (s.heap, b)
      | none => .panic

/-! ### LimitChildrenCount -/

/-- The loop over links (pkg/burl_links/link_tree.go:116-125); `n` is `len(links)`. -/
def dedupLoop (target : Int) : List Link → List Str → Int → List Link
  | [], _, _ => []
  | l :: ls, seen, n =>
    if l.url ∈ seen then dedupLoop target ls seen n
    else l :: (if n + 1 ≥ target then [] else dedupLoop target ls (l.url :: seen) (n + 1))

/-- `(*TreeLeafNode).LimitChildrenCount` (pkg/burl_links/link_tree.go:106-128): the new links.
`make` with a negative capacity panics. -/
def limitLeaf (links : List Link) (target : Int) : Res Empty (List Link) :=
  if links.length = 0 then .ok links
  else
    let target := if (links.length : Int) < target then (links.length : Int) else target
    if target < 0 then .panic
    else .ok (dedupLoop target links [] 0)

/-- 64-bit two's complement wrap-around. -/
def wrap64 (x : Int) : Int := (x + 2 ^ 63) % 2 ^ 64 - 2 ^ 63

/-- Insertion into a list sorted by descending count, before equal ones. -/
def insertDesc (x : Nat × Int) : List (Nat × Int) → List (Nat × Int)
  | [] => [x]
  | y :: ys => if x.2 ≥ y.2 then x :: y :: ys else y :: insertDesc x ys

/-- `sort.SliceStable(sorted, treeNodeGreater)` (pkg/burl_links/link_tree.go:209-217) on pairs of
index and count.  The result of a stable sort is unique; it is modelled by insertion. -/
def sortStable : List (Nat × Int) → List (Nat × Int)
  | [] => []
  | x :: xs => insertDesc x (sortStable xs)

/-- The loop handing out shares from the last to the first item
(pkg/burl_links/link_tree.go:233-245); the list is `sorted` reversed.  Integer division truncates
towards zero; `sum` is positive inside the loop. -/
def handOut : List (Nat × Int) → Int → Int → List (Nat × Int)
  | [], _, _ => []
  | (index, count) :: rest, sum, target =>
    let itemCount := Int.tdiv (wrap64 (count * target)) sum
    let itemCount := if itemCount = 0 then 1 else itemCount
    (index, itemCount) :: handOut rest (sum - count) (target - itemCount)

/-- The computation of kept indices and their shares (pkg/burl_links/link_tree.go:209-245).
Slicing with a negative bound panics. -/
def limitShares (counts : List Int) (target : Int) : Res Empty (List (Nat × Int)) :=
  let sorted := sortStable ((List.range counts.length).zip counts)
  let cut : Res Empty (List (Nat × Int)) :=
    if target < (sorted.length : Int) then
      if target < 0 then .panic else .ok (sorted.take target.toNat)
    else .ok sorted
  cut.bind fun sorted =>
    let sorted := sorted.takeWhile fun x => x.2 > 0
    let sum := (sorted.map (·.2)).sum
    .ok (handOut sorted.reverse sum target)

/-- `attrs := node.(*LimitCountNode).Attrs` for all children
(pkg/burl_links/link_tree.go:213-216). -/
def readCounts (h : Heap) : List Addr → Res Empty (List Int)
  | [] => .ok []
  | a :: as => (load h a).bind fun
    | .count c _ _ => (readCounts h as).bind fun cs => .ok (c :: cs)
    | _ => .panic

/-- `attr.TargetCount = itemCount` for one kept child (pkg/burl_links/link_tree.go:243). -/
def writeShare (children : List Addr) (h : Heap) (s : Nat × Int) : Heap :=
  match children[s.1]? with
  | none => h
  | some a => match h[a]? with
    | some (.count c _ n) => h.set a (.count c s.2 n)
    | _ => h

/-- The children with `keep[i]` set (pkg/burl_links/link_tree.go:246-251). -/
def keepChildren (shares : List (Nat × Int)) : Nat → List Addr → List Addr
  | _, [] => []
  | i, a :: as =>
    if (shares.lookup i).isSome then a :: keepChildren shares (i + 1) as
    else keepChildren shares (i + 1) as

/-- `LimitChildrenCount` of the node `n` (pkg/burl_links/link_tree.go:106-128, 203-254). -/
def limitChildrenCount (h : Heap) (n : Addr) (target : Int) : Res Empty Heap :=
  (load h n).bind fun
    | .leaf ls => (limitLeaf ls target).bind fun ls => .ok (h.set n (.leaf ls))
    | .node props cs =>
      if cs.length = 0 then .ok h
      else
        (readCounts h cs).bind fun counts =>
        (limitShares counts target).bind fun shares =>
          let h := shares.foldl (writeShare cs) h
          .ok (h.set n (.node props (keepChildren shares 0 cs)))
    | .count _ _ _ => .panic

/-! ### FilterChildrenCount -/

/-- `node.Attrs.TargetCount += child.(*LimitCountNode).Attrs.TargetCount` over the children
(pkg/burl_links/node_count.go:178-180). -/
def sumTargets (h : Heap) : List Addr → Int → Res Empty Int
  | [], acc => .ok acc
  | a :: as, acc => (load h a).bind fun
    | .count _ t _ => sumTargets h as (acc + t)
    | _ => .panic

/-- Loop body of `FilterChildrenCount` (pkg/burl_links/node_count.go:173-188); children are pushed
in forward order (184-186), so the last one is on top. -/
def filterBody (s : Heap × Queue) : Res Empty (Heap × Queue) :=
  (pop s.2).bind fun (item, q) =>
  (load s.1 item.1).bind fun
    | .count c t n =>
      if item.2 then
        (ownLinksCount s.1 n).bind fun own =>
        (childrenNodes s.1 n).bind fun cs =>
        (sumTargets s.1 cs own).bind fun t' =>
          .ok (s.1.set item.1 (.count c t' n), q)
      else
        (limitChildrenCount s.1 n t).bind fun h =>
        (childrenNodes h n).bind fun cs =>
          .ok (h, pushAll cs.reverse q)
    | _ => .panic

/-- End of the loop of `FilterChildrenCount` (pkg/burl_links/node_count.go:173). -/
def filterDone (s : Heap × Queue) : Bool := s.2.isEmpty

/-- `FilterChildrenCount` (pkg/burl_links/node_count.go:170-190). -/
def FilterChildrenCount (h : Heap) (tree : Addr) (target : Int) (r : Res Empty Heap) : Prop :=
  match h[tree]? with
  | some (.count c _ n) =>
    ∃ r', Loop filterDone filterBody (h.set tree (.count c target n), [(tree, false)]) r' ∧
      r = r'.bind fun s => .ok s.1
  | _ => r = .panic

/-! ### UrlMentions -/

/-- The part of `UrlMentionsQuery` used (pkg/burl_rpc/burl_rpc.go:33-44). -/
structure MentionsQuery where
  variants : List Str
  countLimit : Option Int   -- `Options` may be absent

/-- Errors of `UrlMentions` (cmd/burl_backend/burl_backend.go:173-179). -/
inductive MentionsErr where
  | noUrls      -- "No URLs in the query"
  | backend     -- initialisation error
  deriving Repr, DecidableEq

/-- `variants` of the handler (cmd/burl_backend/burl_backend.go:165-172).  `order` is the map
iteration order, which may differ for every URL. -/
def mentionVariants (order : Str → List (Str × Str)) (q : MentionsQuery) : List Str :=
  (q.variants.filter (fun u => !u.isEmpty)).flatMap fun u => Url.urlVariants (order u) u

/-- `(*BurlBackend).UrlMentions` (cmd/burl_backend/burl_backend.go:164-196); `root` is
`b.fileGroup` after initialisation, `none` if it failed. -/
def UrlMentions (order : Str → List (Str × Str)) (h : Heap) (root : Option Addr)
    (q : MentionsQuery) (r : Res MentionsErr (Heap × Addr)) : Prop :=
  if q.variants.all (·.isEmpty) then r = .err .noUrls
  else match root with
    | none => r = .err .backend
    | some root =>
      ∃ r1, CountDescendants h root (fun l => decide (l.url ∈ mentionVariants order q)) r1 ∧
        match r1 with
        | .ok (h1, some a) =>
          ∃ r2, FilterChildrenCount h1 a (q.countLimit.getD 8) r2 ∧
            match r2 with
            | .ok h2 => r = .ok (h2, a)
            | .panic => r = .panic
        | _ => r = .panic

end Burl.Tree
