import Verif.Backend.Decode
import Verif.Rpc.Server
import Verif.Json.Model
import Verif.Extract.Model
/-! Model of the methods of the backend between parameters of a request and its result: the part of
`Verif.Rpc.Server` that was left open there.

Simplifications.  The index is that of one scan of the files: the scan happens once
(`Verif.Backend.Model`), and concurrent calls do not change it (`Verif.Tree.Concurrent`).  A panic
of `MarshalJSON`, which happens when a response is written, is attributed to the method: both end
the process.  JSON is a value, not text (texts: `Verif.JsonText`).  Texts of errors of the operating system and of the editor
are arbitrary but not empty. -/
namespace Burl.Backend
open Burl.Json (Json)
open Burl.Rpc (Method)

/-- What methods depend on: `files` are contents of files at the time of the scan, `now` are
possible contents when `linkSet` is called. -/
structure Env where
  find : Extract.Finder
  letter : Char → Bool
  sources : List Extract.Source
  disableLinkSet : Bool
  files : Extract.Files
  now : Extract.Files → Prop

/-- `NewBurlBackendPtr` (cmd/burl_backend/burl_backend.go:102-121). -/
def Env.backend (e : Env) : Backend := newBackend e.sources e.disableLinkSet

/-- Name of a member. -/
def mem (name : String) (v : Json) : Str × Json := (name.toList, v)

/-- A slice that is nil if nothing has been appended to it. -/
def strings (l : List Str) : Json := if l = [] then .null else .arr (l.map .str)

/-- JSON of `HelloResponse` (pkg/burl_rpc/burl_rpc.go:54-59). -/
def helloJson (r : HelloResponse) : Json :=
  .obj [mem "format" (.str r.format), mem "version" (.str r.version),
    mem "capabilities" (strings r.capabilities),
    mem "options" (.obj [mem "clipboardForBody" (.bool r.clipboardForBody)])]

/-- JSON of `CaptureResponse` (pkg/burl_rpc/burl_rpc.go:75-78). -/
def captureJson (r : Emacs.CaptureResponse) : Json :=
  .obj [mem "preview" (.bool r.preview), mem "status" (.str r.status)]

/-- JSON of `LinkSetResponse` (pkg/burl_rpc/burl_rpc.go:86-88), `Urls` has been made by
`LinkSetReal` (cmd/burl_backend/burl_backend.go:257). -/
def linkSetJson (urls : List Str) : Json := .obj [mem "urls" (.arr (urls.map .str))]

/-- Texts of errors stored in `b.err` (cmd/burl_backend/burl_backend.go:109,113,117). -/
def initText : Extract.InitErr → Str → Prop
  | .noFiles, t => t = "No files specified for backend".toList
  | .noLinks, t => t = "No link in source files".toList
  | .file _, t => t ≠ []

/-- `b.fileGroup` as it is seen by methods: they look at `b.err` before
(cmd/burl_backend/burl_backend.go:177-179). -/
def rootOf (group : Option Tree.Addr) (err : Option Extract.InitErr) : Option Tree.Addr :=
  match err with
  | none => group
  | some _ => none

/-- A method returns a value, or an error with a text.  There is no rule for `Search`: no name of a
method leads to it (cmd/burl_backend/burl_backend.go:324-337). -/
inductive Returns (e : Env) : Method → Arg → Json → Option Str → Prop where
  /-- burl_backend.go:123-146 -/
  | hello {fs r} : hello e.backend fs = .ok r → Returns e .hello (.hello fs) (helloJson r) none
  | tooOld {fs x} : hello e.backend fs = .err x → Returns e .hello (.hello fs) .null
      (some "Extension is too old: 'org-protocol' format is not offered".toList)
  /-- burl_backend.go:148-162 -/
  | capture {q ed cfg w r w'} : (Emacs.capture q).run ed cfg w = (.ok r, w') →
      Returns e .capture (.capture q) (captureJson r) none
  | captureErr {q ed cfg w x w' t} : (Emacs.capture q).run ed cfg w = (.error x, w') → t ≠ [] →
      Returns e .capture (.capture q) .null (some t)
  /-- burl_backend.go:164-196 and pkg/burl_links/node_count.go:77-88 -/
  | mentions {order h group err q h' a v} : (∀ u, (order u).Perm Url.replacements) →
      Extract.initBackend e.find e.files e.sources = .ok (h, group, err) →
      Tree.UrlMentions order h (rootOf group err) q (.ok (h', a)) → Json.Marshal h' a (.ok v) →
      Returns e .urlMentions (.urlMentions q) v none
  | noUrls {q : Tree.MentionsQuery} : q.variants.all (·.isEmpty) →
      Returns e .urlMentions (.urlMentions q) .null (some "No URLs in the query".toList)
  | mentionsErr {h group err q t} : ¬ (q : Tree.MentionsQuery).variants.all (·.isEmpty) →
      Extract.initBackend e.find e.files e.sources = .ok (h, group, some err) → initText err t →
      Returns e .urlMentions (.urlMentions q) .null (some t)
  /-- burl_backend.go:198-214 -/
  | visit {q ed cfg w b w'} :
      (Emacs.visit (e.sources.map (·.name)) q).run ed cfg w = (.ok b, w') →
      Returns e .visit (.visit q) (.bool b) none
  | visitErr {q ed cfg w x w' t} :
      (Emacs.visit (e.sources.map (·.name)) q).run ed cfg w = (.error x, w') → t ≠ [] →
      Returns e .visit (.visit q) .null (some t)
  /-- burl_backend.go:252-275 -/
  | linkSet {files ps urls opened} : e.now files →
      Links.LinkSet e.letter e.backend.linkSetImpl files e.sources ps (.ok urls) opened →
      Returns e .linkSet (.linkSet ps) (linkSetJson urls) none
  | linkSetErr {files ps x opened t} : e.now files →
      Links.LinkSet e.letter e.backend.linkSetImpl files e.sources ps (.err x) opened → t ≠ [] →
      Returns e .linkSet (.linkSet ps) .null (some t)

/-- A method ends the process. -/
inductive Panics (e : Env) : Method → Arg → Prop where
  | scan {q} : Extract.initBackend e.find e.files e.sources = .panic →
      Panics e .urlMentions (.urlMentions q)
  | mentions {order h group err q} : (∀ u, (order u).Perm Url.replacements) →
      Extract.initBackend e.find e.files e.sources = .ok (h, group, err) →
      Tree.UrlMentions order h (rootOf group err) q .panic →
      Panics e .urlMentions (.urlMentions q)
  | marshal {order h group err q h' a} : (∀ u, (order u).Perm Url.replacements) →
      Extract.initBackend e.find e.files e.sources = .ok (h, group, err) →
      Tree.UrlMentions order h (rootOf group err) q (.ok (h', a)) → Json.Marshal h' a .panic →
      Panics e .urlMentions (.urlMentions q)
  | linkSet {files ps opened} : e.now files →
      Links.LinkSet e.letter e.backend.linkSetImpl files e.sources ps .panic opened →
      Panics e .linkSet (.linkSet ps)

/-- Methods as they are seen by `net/rpc`: an error of `json.Unmarshal` has some text,
`invalidRequest` is an empty structure, all results can be written. -/
def world (e : Env) : Rpc.Server.World Json Arg Json where
  unmarshal m p :=
    match argument m p with
    | some a => .ok a
    | none => .error "json: cannot unmarshal".toList
  returns := Returns e
  panics := Panics e
  invalid := .obj []
  encodes _ := true

end Burl.Backend
