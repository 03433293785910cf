import Verif.Tree.Model
import Verif.Json.Spec
/-! Model of `(*LimitCountNode).MarshalJSON`, `reflectFlatten` and `(*Link).MarshalJSON`.

`encoding/json` itself is trusted: a map is written with sorted keys, a slice element by element in
order, a pointer to a type with `MarshalJSON` by calling that method; a panic of the method that is
not a `jsonError` is not recovered. -/
namespace Burl.Json
open Burl.Tree (Heap Addr Obj load)
open Burl.Tree.Spec (Link Props)

/-- What `reflectFlatten` stores in the map. -/
inductive Val where
  | str (s : Str)
  | int (n : Int)
  | links (ls : List Link)
  | nodes (as : List Addr)

/-- Order of strings used by `encoding/json` for keys (all keys here are ASCII). -/
def keyLt : Str → Str → Bool
  | [], [] => false
  | [], _ :: _ => true
  | _ :: _, [] => false
  | a :: as, b :: bs => a.toNat < b.toNat || (a == b && keyLt as bs)

/-- `m[name] = v`; the map is kept sorted by key. -/
def put (name : Str) (v : Val) : List (Str × Val) → List (Str × Val)
  | [] => [(name, v)]
  | (k, w) :: rest =>
    if k = name then (name, v) :: rest
    else if keyLt name k then (name, v) :: (k, w) :: rest
    else (k, w) :: put name v rest

/-- Text of a literal; there is nothing of the kind in /repo. -/
def lit (s : String) : Str := s.toList

/-- `reflectFlatten` on the value of `Props`: `BurlType` and the fields of the structure it points
to (pkg/burl_links/link_tree.go:130-146, extract_org.go:101-110, node_count.go:57-73).
`reflect.ValueOf(p).Elem()` panics if the interface is nil, and `.Type()` of the zero `Value`
panics if the pointer is nil. -/
def flattenProps (p : Props) (m : List (Str × Val)) : Res Empty (List (Str × Val)) :=
  match p with
  | .unset => .panic
  | .missingHeading => .panic
  | .fileGroup => .ok (put (lit "_type") (.str (lit "FileGroup")) m)
  | .file path => .ok (put (lit "path") (.str path) (put (lit "_type") (.str (lit "File")) m))
  | .heading n text => .ok (put (lit "rawText") (.str text) (put (lit "lineNo") (.int n)
      (put (lit "_type") (.str (lit "Heading")) m)))

/-- `reflectFlatten` on `LimitCountNode.Node` (pkg/burl_links/node_count.go:51-75): the fields of a
`TreeLeafNode`, or those of a `TreeChildrenNode` and then, from the top of the stack, its `Props`.
A `LimitCountNode` directly inside of a `LimitCountNode` does not occur. -/
def flattenNode (h : Heap) (n : Addr) (m : List (Str × Val)) : Res Empty (List (Str × Val)) :=
  (load h n).bind fun
    | .leaf ls => .ok (put (lit "links") (.links ls) (put (lit "_type") (.str (lit "Body")) m))
    | .node p cs => flattenProps p (put (lit "children") (.nodes cs) m)
    | .count _ _ _ => .panic

/-- `reflectFlatten` on a `LimitCountNode` (pkg/burl_links/node_count.go:51-75): `Attrs` and `Node`
are pushed and `Node` is popped first. -/
def flatten (h : Heap) (a : Addr) : Res Empty (List (Str × Val)) :=
  (load h a).bind fun
    | .count c t n => (flattenNode h n []).bind fun m =>
        .ok (put (lit "filtered") (.int t) (put (lit "total") (.int c) m))
    | _ => .panic

/-- `(*Link).MarshalJSON` (pkg/burl_links/link_tree.go:51-65): members in the order of the fields
of the anonymous structure, `descr` with `omitempty`. -/
def marshalLink (l : Link) : Json :=
  .obj ([(lit "url", .str l.url)] ++
    (if l.descr.isEmpty then [] else [(lit "descr", .str l.descr)]) ++
    [(lit "lineNo", .num l.lineNo)] ++ [(lit "_type", .str (lit "Link"))])

/-- A group of exactly one file (pkg/burl_links/node_count.go:78-84). -/
def onlyChild (h : Heap) (a : Addr) : Option Addr :=
  match h[a]? with
  | some (.count _ _ n) => match h[n]? with
    | some (.node .fileGroup [x]) => some x
    | _ => none
  | _ => none

mutual
/-- `(*LimitCountNode).MarshalJSON` (pkg/burl_links/node_count.go:77-88). -/
inductive Marshal (h : Heap) : Addr → Res Empty Json → Prop where
  | child {a x r} : onlyChild h a = some x → Marshal h x r → Marshal h a r
  | fields {a m r} : onlyChild h a = none → flatten h a = .ok m → MarshalMap h m r →
      Marshal h a (r.bind fun o => .ok (.obj o))
  | panic {a} : onlyChild h a = none → flatten h a = .panic → Marshal h a .panic
/-- `json.Marshal(fields)`. -/
inductive MarshalMap (h : Heap) : List (Str × Val) → Res Empty (List (Str × Json)) → Prop where
  | nil : MarshalMap h [] (.ok [])
  | str {k s m r} : MarshalMap h m r →
      MarshalMap h ((k, .str s) :: m) (r.bind fun o => .ok ((k, .str s) :: o))
  | int {k n m r} : MarshalMap h m r →
      MarshalMap h ((k, .int n) :: m) (r.bind fun o => .ok ((k, .num n) :: o))
  | links {k ls m r} : MarshalMap h m r →
      MarshalMap h ((k, .links ls) :: m)
        (r.bind fun o => .ok ((k, .arr (ls.map marshalLink)) :: o))
  | nodes {k as m js r} : MarshalAll h as (.ok js) → MarshalMap h m r →
      MarshalMap h ((k, .nodes as) :: m) (r.bind fun o => .ok ((k, .arr js) :: o))
  | panic {k as m} : MarshalAll h as .panic → MarshalMap h ((k, .nodes as) :: m) .panic
/-- Elements of `Children`. -/
inductive MarshalAll (h : Heap) : List Addr → Res Empty (List Json) → Prop where
  | nil : MarshalAll h [] (.ok [])
  | cons {a as j r} : Marshal h a (.ok j) → MarshalAll h as r →
      MarshalAll h (a :: as) (r.bind fun js => .ok (j :: js))
  | panic {a as} : Marshal h a .panic → MarshalAll h (a :: as) .panic
end

end Burl.Json
