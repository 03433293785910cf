import Verif.Tree.Model
import Verif.Extract.Spec
/-! Model of `OrgLinkSource.Extract`, `TxtLinkSource.Extract` (as far as the tree is concerned) and
`ExtractLinksFromFileGroup`, on the memory of `Verif.Tree.Model`. -/
namespace Burl.Extract
open Burl.Tree (Heap Addr Obj load)
open Burl.Tree.Spec (Link Props)

/-! ### Building a tree (pkg/burl_links/link_tree.go) -/

/-- `NewTreeChildrenNode` (pkg/burl_links/link_tree.go:158-160). -/
def newNode (h : Heap) (p : Props) : Heap × Addr := (h ++ [.node p []], h.length)

/-- `AddChild` and `AppendChild` (pkg/burl_links/link_tree.go:174-176, 183-185). -/
def addChild (h : Heap) (a c : Addr) : Res Empty Heap :=
  (load h a).bind fun
    | .node p cs => .ok (h.set a (.node p (cs ++ [c])))
    | _ => .panic

/-- `AddLink` (pkg/burl_links/link_tree.go:187-196); the type assertion panics if the first child
is not a `TreeLeafNode`. -/
def addLink (h : Heap) (a : Addr) (link : Link) : Res Empty Heap :=
  (load h a).bind fun
    | .node _ (c :: _) => (load h c).bind fun
      | .leaf ls => .ok (h.set c (Obj.leaf (ls ++ [link])))
      | _ => .panic
    | .node p [] => .ok ((h ++ [Obj.leaf [link]]).set a (.node p [h.length]))
    | _ => .panic

/-! ### Org (pkg/burl_links/extract_org.go:128-171) -/

/-- `\s` of the regexp package. -/
def isSpaceRe (c : Char) : Bool := c = '\t' || c = '\n' || c = '\x0c' || c = '\r' || c = ' '

/-- `reHeading.FindStringSubmatch`, regexp `^(\*+)\s+(\S(?:.*\S)?)?$`
(pkg/burl_links/extract_org.go:28): length of the first group and the second group.  Blanks cannot
be given back to `\S`, so `\s+` takes all of them. -/
def orgHeading (line : Str) : Option (Nat × Str) :=
  let stars := line.takeWhile (· == '*')
  let rest := line.dropWhile (· == '*')
  if stars.isEmpty then none
  else if (rest.takeWhile isSpaceRe).isEmpty then none
  else
    let text := rest.dropWhile isSpaceRe
    match text.getLast? with
    | none => some (stars.length, [])
    | some c => if isSpaceRe c || decide ('\n' ∈ text) then none else some (stars.length, text)

/-- `*Heading`, nil if absent. -/
abbrev Slot := Option (Int × Str)

/-- `NewTreeChildrenNode(headings[i])` (pkg/burl_links/extract_org.go:159): a nil pointer is
stored as properties of the node. -/
def slotProps : Slot → Props
  | none => .missingHeading
  | some (n, t) => .heading n t

/-- Variables of `Extract`.  `slots` is the backing array of `headings` (capacity 10, never
exceeded), `len` its length. -/
structure OrgState where
  heap : Heap
  nodes : List Addr       -- treeNodes
  slots : List Slot
  len : Nat
  lineNo : Int

/-- `headings = append(headings, v)`: writes behind the end of the slice into the backing array. -/
def appendSlot (s : OrgState) (v : Slot) : OrgState :=
  { s with slots := s.slots.set s.len v, len := s.len + 1 }

/-- `for i := len(headings); i < level-1; i++ { headings = append(headings, nil) }`
(pkg/burl_links/extract_org.go:148-150). -/
def fillSlots : Nat → OrgState → OrgState
  | 0, s => s
  | k + 1, s => fillSlots k (appendSlot s none)

/-- A heading line (pkg/burl_links/extract_org.go:139-152): `headings[0 : level-1]` is not checked
against the length but against the capacity, so it may make old elements of the backing array
visible again. -/
def onHeading (s : OrgState) (stars : Nat) (text : Str) : OrgState :=
  let level := if stars > 10 then 9 else stars
  let s := { s with len := level - 1 }
  let s := if s.nodes.length ≥ level then { s with nodes := s.nodes.take level } else s
  let s := fillSlots (level - 1 - s.len) s
  appendSlot s (some (s.lineNo, text))

/-- `for i := len(treeNodes) - 1; i < len(headings); i++` (pkg/burl_links/extract_org.go:158-162);
the first argument is the number of iterations. -/
def growNodes : Nat → OrgState → Res Empty OrgState
  | 0, s => .ok s
  | k + 1, s =>
    match s.slots[s.nodes.length - 1]?, s.nodes[s.nodes.length - 1]? with
    | some slot, some parent =>
      let (h, b) := newNode s.heap (slotProps slot)
      (addChild h parent b).bind fun h => growNodes k { s with heap := h, nodes := s.nodes ++ [b] }
    | _, _ => .panic

/-- An accepted link (pkg/burl_links/extract_org.go:158-165). -/
def onLink (s : OrgState) (link : Link) : Res Empty OrgState :=
  (growNodes (s.len - (s.nodes.length - 1)) s).bind fun s =>
    match s.nodes[s.nodes.length - 1]? with
    | none => .panic
    | some tip => (addLink s.heap tip { link with lineNo := s.lineNo }).bind fun h =>
        .ok { s with heap := h }

/-- The loop over links of a line; `links` are the results of `OrgLinkMatchIsUrl` that are not nil,
`LineNo` of which is still 0 when the filter is called
(pkg/burl_links/extract_org.go:153-167). -/
def onLinks (filter : Link → Bool) : List Link → OrgState → Res Empty OrgState
  | [], s => .ok s
  | l :: ls, s =>
    if filter l then (onLink s l).bind fun s => onLinks filter ls s else onLinks filter ls s

/-- Body of the loop over lines (pkg/burl_links/extract_org.go:136-169); `find` gives the links of
a line.  A heading line is searched for links too. -/
def onLine (find : Str → List Link) (filter : Link → Bool) (s : OrgState) (line : Str) :
    Res Empty OrgState :=
  let s := { s with lineNo := s.lineNo + 1 }
  let s := match orgHeading line with
    | some (stars, text) => onHeading s stars text
    | none => s
  onLinks filter (find line) s

/-- The loop over lines (pkg/burl_links/extract_org.go:136-169). -/
def onLines (find : Str → List Link) (filter : Link → Bool) :
    List Str → OrgState → Res Empty OrgState
  | [], s => .ok s
  | l :: ls, s => (onLine find filter s l).bind fun s => onLines find filter ls s

/-- `OrgLinkSource.Extract` (pkg/burl_links/extract_org.go:128-171) on the lines delivered by the
scanner; the result is the tree. -/
def orgExtract (find : Str → List Link) (filter : Link → Bool) (h : Heap) (lines : List Str) :
    Res Empty (Heap × Addr) :=
  let (h, root) := newNode h .unset
  (onLines find filter lines ⟨h, [root], List.replicate 10 none, 0, 0⟩).bind fun s =>
    .ok (s.heap, root)

/-! ### Text (pkg/burl_links/extract_txt.go:46-78) -/

/-- Accepted links of a line are added to the root; `links` have `LineNo` set before the filter is
called. -/
def txtLinks (filter : Link → Bool) (root : Addr) : List Link → Heap → Res Empty Heap
  | [], h => .ok h
  | l :: ls, h =>
    if filter l then (addLink h root l).bind fun h => txtLinks filter root ls h
    else txtLinks filter root ls h

/-- The loop over lines (pkg/burl_links/extract_txt.go:52-76). -/
def txtLines (find : Str → List Link) (filter : Link → Bool) (root : Addr) :
    Int → List Str → Heap → Res Empty Heap
  | _, [], h => .ok h
  | n, l :: ls, h =>
    (txtLinks filter root ((find l).map fun k => { k with lineNo := n + 1 }) h).bind fun h =>
      txtLines find filter root (n + 1) ls h

/-- `TxtLinkSource.Extract` (pkg/burl_links/extract_txt.go:46-78) on the lines delivered by the
scanner; `find` gives the links of the words of a line. -/
def txtExtract (find : Str → List Link) (filter : Link → Bool) (h : Heap) (lines : List Str) :
    Res Empty (Heap × Addr) :=
  let (h, root) := newNode h .unset
  (txtLines find filter root 0 lines h).bind fun h => .ok (h, root)

/-! ### Files (pkg/burl_links/link_source.go:34-78) -/

/-- Kind of a source (pkg/burl_links/flag.go:54-61). -/
inductive Kind where
  | org | txt
  deriving Repr, DecidableEq

/-- `TextLinkSource`: `OrgLinkSource` or `TxtLinkSource` with a file name
(pkg/burl_links/link_source.go:25-32, extract_org.go:84-99, extract_txt.go:29-44). -/
structure Source where
  kind : Kind
  name : Str
  deriving Repr, DecidableEq

/-- Errors of `ExtractLinksFromFile` (pkg/burl_links/link_source.go:39-46). -/
inductive FileErr where
  | open_     -- os.Open failed
  | scan      -- reading or a too long line
  deriving Repr, DecidableEq

/-- What the file system has under a name: nothing that can be opened, or lines followed by a
possible failure of the scanner.  The name `-` is standard input and is always open. -/
abbrev Files := Str → Option (List Str × Option FileErr)

/-- Links of a line for each kind of source. -/
structure Finder where
  org : Str → List Link
  txt : Str → List Link

/-- `src.Extract` by the kind of the source (pkg/burl_links/link_source.go:46). -/
def extract (find : Finder) (filter : Link → Bool) (k : Kind) (h : Heap) (lines : List Str) :
    Res Empty (Heap × Addr) :=
  match k with
  | .org => orgExtract find.org filter h lines
  | .txt => txtExtract find.txt filter h lines

/-- `ExtractLinksFromFile` (pkg/burl_links/link_source.go:35-55): an empty tree becomes nil. -/
def extractFile (find : Finder) (filter : Link → Bool) (files : Files) (h : Heap) (src : Source) :
    Res Empty (Heap × Option Addr × Option FileErr) :=
  match files src.name with
  | none => .ok (h, none, some .open_)
  | some (lines, err) =>
    (extract find filter src.kind h lines).bind fun (h, a) =>
    (load h a).bind fun
      | .node _ [] => .ok (h, none, err)
      | .node _ cs => .ok (h.set a (.node (.file src.name) cs), some a, err)
      | _ => .panic

/-- `if tree != nil { group.AppendChild(tree) }` (pkg/burl_links/link_source.go:67-69). -/
def appendTree (h : Heap) (group : Addr) : Option Addr → Res Empty Heap
  | some a => addChild h group a
  | none => .ok h

/-- The loop over files (pkg/burl_links/link_source.go:65-73); `used` records the files opened. -/
def groupLoop (find : Finder) (filter : Link → Bool) (files : Files) (group : Addr) :
    List Source → Heap → Res Empty (Heap × Option FileErr × List Source)
  | [], h => .ok (h, none, [])
  | src :: rest, h =>
    (extractFile find filter files h src).bind fun (h, tree, err) =>
    (appendTree h group tree).bind fun h =>
      match err with
      | some e => .ok (h, some e, [src])
      | none => (groupLoop find filter files group rest h).bind fun (h, e, used) =>
          .ok (h, e, src :: used)

/-- `ExtractLinksFromFileGroup` (pkg/burl_links/link_source.go:57-78). -/
def extractGroup (find : Finder) (filter : Link → Bool) (files : Files) (h : Heap)
    (list : List Source) : Res Empty (Heap × Option Addr × Option FileErr × List Source) :=
  if list.isEmpty then .ok (h, none, none, [])
  else
    let (h, group) := newNode h .fileGroup
    (groupLoop find filter files group list h).bind fun (h, err, used) =>
    (load h group).bind fun
      | .node _ [] => .ok (h, none, err, used)
      | .node _ _ => .ok (h, some group, err, used)
      | _ => .panic

/-- Outcome of the initialiser of the backend (cmd/burl_backend/burl_backend.go:107-119). -/
inductive InitErr where
  | noFiles | file (e : FileErr) | noLinks
  deriving Repr, DecidableEq

/-- `backend.initializer` (cmd/burl_backend/burl_backend.go:107-119). -/
def initBackend (find : Finder) (files : Files) (list : List Source) :
    Res Empty (Heap × Option Addr × Option InitErr) :=
  if list.isEmpty then .ok ([], none, some .noFiles)
  else (extractGroup find (fun _ => true) files [] list).bind fun (h, group, err, _) =>
    match err with
    | some e => .ok (h, group, some (.file e))
    | none => match group with
      | none => .ok (h, none, some .noLinks)
      | some g => .ok (h, some g, none)

end Burl.Extract
