import Verif.Backend.Model
import Verif.Tree.Model
import Verif.Emacs.Model
import Verif.Json.Spec
import Verif.Rpc.Dispatch
/-! Model of what the backend makes of `params` of a request: `ReadRequestBody` of
`net/rpc/jsonrpc` and `json.Unmarshal` for the types of pkg/burl_rpc/burl_rpc.go.

Standard library, package `encoding/json`: `null` leaves strings, numbers and structures as they are
and sets slices, maps, pointers and interfaces to nil; a value of a wrong type is skipped, decoding
goes on and the error is returned at the end; names of members are compared with
`bytes.EqualFold`.  If a member is repeated, then the library decodes elements of the new list into
the array of the old one: an element that is `null`, or a field that is absent, has the old value. -/
namespace Burl.Backend
open Burl.Json (Json)
open Burl.Rpc (Method)

/-- Simple case folding of letters that fold to ASCII. -/
def foldChar (c : Char) : Char :=
  if 'A' ≤ c ∧ c ≤ 'Z' then Char.ofNat (c.toNat + 32)
  else if c = Char.ofNat 0x17F then 's'
  else if c = Char.ofNat 0x212A then 'k'
  else c

/-- `bytes.EqualFold` for a name that consists of ASCII letters. -/
def sameName (field name : Str) : Bool := decide (name.map foldChar = field.map foldChar)

/-- Decoding into a variable of the type `α`: whether there is no error, and the new value for the
old one. -/
structure Dec (α : Type) where
  ok : Json → Bool
  apply : Json → α → α

/-- `string`. -/
def decString : Dec Str where
  ok
    | .null => true
    | .str _ => true
    | _ => false
  apply
    | .str s, _ => s
    | _, old => old

/-- `int`. -/
def decInt : Dec Int where
  ok
    | .null => true
    | .num n => decide (-2 ^ 63 ≤ n ∧ n < 2 ^ 63)
    | _ => false
  apply
    | .num n, _ => n
    | _, old => old

/-- `interface{}`; all that matters is whether it is nil. -/
def decAny : Dec Bool where
  ok _ := true
  apply
    | .null, _ => false
    | _, _ => true

/-- `map[string]interface{}`, which is not used. -/
def decMap : Dec Unit where
  ok
    | .null => true
    | .obj _ => true
    | _ => false
  apply _ _ := ()

/-- A slice: elements that are seen and those that are left behind them in the array.  Elements that
have never been written are zero, so it does not matter how the capacity grows: an array is replaced
with a larger one when all of its elements are seen. -/
structure Slice (α : Type) where
  shown : List α
  behind : List α

/-- A nil slice or one without an array. -/
def Slice.empty {α : Type} : Slice α := ⟨[], []⟩

/-- The loop of `array` in `encoding/json`: elements of a list are put into the elements of the array,
which is extended with zeros. -/
def putElems {α : Type} (d : Dec α) (zero : α) : List Json → List α → List α
  | [], _ => []
  | v :: vs, [] => d.apply v zero :: putElems d zero vs []
  | v :: vs, a :: as => d.apply v a :: putElems d zero vs as

/-- `array` in `encoding/json` for a slice.  An empty list makes a new slice. -/
def decSlice {α : Type} (d : Dec α) (zero : α) : Dec (Slice α) where
  ok
    | .null => true
    | .arr vs => vs.all d.ok
    | _ => false
  apply
    | .null, _ => .empty
    | .arr [], _ => .empty
    | .arr (v :: vs), old =>
      ⟨putElems d zero (v :: vs) (old.shown ++ old.behind),
        (old.shown ++ old.behind).drop (v :: vs).length⟩
    | _, old => old

/-- A pointer. -/
def decPtr {α : Type} (d : Dec α) (zero : α) : Dec (Option α) where
  ok
    | .null => true
    | v => d.ok v
  apply
    | .null, _ => none
    | v, old => some (d.apply v (old.getD zero))

/-- A field of a structure. -/
structure Field (σ : Type) where
  name : Str
  dec : Dec σ

/-- A field with its part of the structure. -/
def field {σ α : Type} (name : String) (d : Dec α) (get : σ → α) (set : σ → α → σ) : Field σ :=
  ⟨name.toList, d.ok, fun v s => set s (d.apply v (get s))⟩

/-- A field that nothing depends on. -/
def unused {σ α : Type} (name : String) (d : Dec α) : Field σ := ⟨name.toList, d.ok, fun _ s => s⟩

/-- The field for a member. -/
def fieldOf {σ : Type} (fields : List (Field σ)) (k : Str) : Option (Field σ) :=
  fields.find? fun f => sameName f.name k

/-- Members of an object, one after another. -/
def applyMembers {σ : Type} (fields : List (Field σ)) : List (Str × Json) → σ → σ
  | [], s => s
  | (k, v) :: ms, s =>
    match fieldOf fields k with
    | none => applyMembers fields ms s
    | some f => applyMembers fields ms (f.dec.apply v s)

/-- A structure. -/
def decStruct {σ : Type} (fields : List (Field σ)) : Dec σ where
  ok
    | .null => true
    | .obj ms => ms.all fun m =>
        match fieldOf fields m.1 with
        | none => true
        | some f => f.dec.ok m.2
    | _ => false
  apply
    | .obj ms, s => applyMembers fields ms s
    | _, s => s

/-- `UrlMentionsOptions` (pkg/burl_rpc/burl_rpc.go:34-36). -/
def optionsFields : List (Field Int) :=
  [field "countLimit" decInt id fun _ n => n]

/-- The same. -/
def decMentionsOptions : Dec Int := decStruct optionsFields

/-- `UrlMentionsQuery` (pkg/burl_rpc/burl_rpc.go:29-32). -/
structure MentionsArg where
  variants : Slice Str
  options : Option Int

/-- What a method sees of it. -/
def MentionsArg.query (q : MentionsArg) : Tree.MentionsQuery := ⟨q.variants.shown, q.options⟩

/-- Fields of `UrlMentionsQuery` (pkg/burl_rpc/burl_rpc.go:29-32). -/
def mentionsFields : List (Field MentionsArg) :=
  [field "variants" (decSlice decString []) (·.variants) fun q x => { q with variants := x },
   field "options" (decPtr decMentionsOptions 0) (·.options) fun q x => { q with options := x }]

/-- The same. -/
def decMentions : Dec MentionsArg := decStruct mentionsFields

/-- `Location` (pkg/burl_rpc/burl_rpc.go:38-41). -/
def locationFields : List (Field Emacs.Location) :=
  [field "file" decString (·.filePath) fun q x => { q with filePath := x },
   field "lineNo" decInt (·.lineNo) fun q x => { q with lineNo := x }]

/-- The same. -/
def decLocation : Dec Emacs.Location := decStruct locationFields

/-- `HelloFormat` (pkg/burl_rpc/burl_rpc.go:43-47). -/
def formatFields : List (Field HelloFormat) :=
  [field "format" decString (·.format) fun q x => { q with format := x },
   field "version" decString (·.version) fun q x => { q with version := x },
   unused "options" decMap]

/-- The same. -/
def decHelloFormat : Dec HelloFormat := decStruct formatFields

/-- `HelloQuery` (pkg/burl_rpc/burl_rpc.go:49-52). -/
def helloFields : List (Field (Slice HelloFormat)) :=
  [field "formats" (decSlice decHelloFormat ⟨[], []⟩) id fun _ x => x,
   unused "version" decString]

/-- The same. -/
def decHello : Dec (Slice HelloFormat) := decStruct helloFields

/-- `CaptureData` (pkg/burl_rpc/burl_rpc.go:61-65). -/
def dataFields : List (Field Str) :=
  [field "url" decString id fun _ x => x, unused "title" decString, unused "body" decAny]

/-- The same. -/
def decCaptureData : Dec Str := decStruct dataFields

/-- `CaptureQuery` (pkg/burl_rpc/burl_rpc.go:67-73). -/
def captureFields : List (Field Emacs.CaptureQuery) :=
  [field "format" decString (·.format) fun q x => { q with format := x },
   unused "version" decString,
   unused "options" decAny,
   field "data" decCaptureData (·.url) fun q x => { q with url := x },
   field "error" decAny (·.hasError) fun q x => { q with hasError := x }]

/-- The same. -/
def decCapture : Dec Emacs.CaptureQuery := decStruct captureFields

/-- `LinkSetQuery` (pkg/burl_rpc/burl_rpc.go:82-84). -/
def linkSetFields : List (Field (Slice Str)) :=
  [field "prefix" (decSlice decString []) id fun _ x => x]

/-- The same. -/
def decLinkSet : Dec (Slice Str) := decStruct linkSetFields

/-- `SearchQuery` (pkg/burl_rpc/burl_rpc.go:18-22). -/
structure SearchQuery where
  query : Str
  limit : Option Int
  tolerance : Option Int

/-- Fields of `SearchQuery` (pkg/burl_rpc/burl_rpc.go:18-22). -/
def searchFields : List (Field SearchQuery) :=
  [field "q" decString (·.query) fun q x => { q with query := x },
   field "limit" (decPtr decInt 0) (·.limit) fun q x => { q with limit := x },
   field "tol" (decPtr decInt 0) (·.tolerance) fun q x => { q with tolerance := x }]

/-- The same. -/
def decSearch : Dec SearchQuery := decStruct searchFields

/-- Arguments of methods (cmd/burl_backend/burl_backend.go:123,148,164,198,216,266). -/
inductive Arg where
  | hello (formats : List HelloFormat)
  | capture (q : Emacs.CaptureQuery)
  | urlMentions (q : Tree.MentionsQuery)
  | visit (q : Emacs.Location)
  | search (q : SearchQuery)
  | linkSet (prefixes : List Str)

/-- `ReadRequestBody` of `net/rpc/jsonrpc`: `params` are decoded into an array of one element, which
holds a pointer to the argument; `null` in its place leaves the argument as it is.  (`params` that
are `null` do not get here, see `Rpc.Server.prepare`.) -/
def decParams {α : Type} (d : Dec α) (zero : α) : Json → Option α
  | .null => some zero
  | .arr [] => some zero
  | .arr (.null :: _) => some zero
  | .arr (v :: _) => if d.ok v then some (d.apply v zero) else none
  | _ => none

/-- The argument of a method.  `net/rpc` allocates it and sets to zero. -/
def argument (m : Method) (p : Json) : Option Arg :=
  match m with
  | .hello => (decParams decHello .empty p).map fun s => .hello s.shown
  | .capture => (decParams decCapture ⟨[], [], false⟩ p).map .capture
  | .urlMentions => (decParams decMentions ⟨.empty, none⟩ p).map fun q => .urlMentions q.query
  | .visit => (decParams decLocation ⟨[], 0⟩ p).map .visit
  | .search => (decParams decSearch ⟨[], none, none⟩ p).map .search
  | .linkSet => (decParams decLinkSet .empty p).map fun s => .linkSet s.shown

end Burl.Backend
