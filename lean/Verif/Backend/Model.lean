import Verif.Links.Model
/-! Model of the life cycle of `BurlBackend` (cmd/burl_backend/burl_backend.go): construction,
`Hello`, and the lazy scan of source files by concurrent calls. -/
namespace Burl.Backend

/-- `BurlBackend` (burl_backend.go:93-100) without the index; `linkSetImpl` is
`linkSetImpl != nil`. -/
structure Backend where
  srcFiles : List Extract.Source
  linkSetImpl : Bool

/-- `NewBurlBackendPtr` (burl_backend.go:102-121). -/
def newBackend (linkSources : List Extract.Source) (disableLinkSet : Bool) : Backend :=
  ⟨linkSources, if disableLinkSet then false else true⟩

/-- `burl_rpc.HelloFormat` (pkg/burl_rpc/burl_rpc.go:43-47), options are not used. -/
structure HelloFormat where
  format : Str
  version : Str

/-- `burl_rpc.HelloResponse` (pkg/burl_rpc/burl_rpc.go:54-59); the only option is
`clipboardForBody`. -/
structure HelloResponse where
  format : Str
  version : Str
  capabilities : List Str
  clipboardForBody : Bool
  deriving Repr, DecidableEq

/-- Error of `Hello` (cmd/burl_backend/burl_backend.go:133-135). -/
inductive HelloErr where
  | tooOld
  deriving Repr, DecidableEq

/-- The loop of `Hello` (burl_backend.go:126-132). -/
def helloVersion (format : Str) : List HelloFormat → Str
  | [] => []
  | d :: ds => if d.format ≠ format then helloVersion format ds else d.version

/-- Capabilities appended to the reply (burl_backend.go:139-144).  `net/rpc` passes a zero
response. -/
def capabilities (b : Backend) : List Str :=
  if b.srcFiles.length > 0 then
    let caps := [] ++ ["visit".toList, "urlMentions".toList]
    if b.linkSetImpl then caps ++ ["linkSet".toList] else caps
  else []

/-- `Hello` (burl_backend.go:123-146). -/
def hello (b : Backend) (formats : List HelloFormat) : Res HelloErr HelloResponse :=
  if helloVersion "org-protocol".toList formats = [] then .err .tooOld
  else .ok ⟨"org-protocol".toList, helloVersion "org-protocol".toList formats, capabilities b,
    false⟩

/-! ### The lazy scan

`sync.Once.Do` (standard library): an atomic load of `done`; if it is not set, a mutex is locked,
`done` is checked again, the function is called and then `done` is set and the mutex is unlocked by
deferred calls. -/

/-- Errors stored in `b.err`: burl_backend.go:109, an error of reading of files, 117. -/
inductive StoredErr (ε : Type) where
  | noFiles
  | file (e : ε)
  | noLinks
  deriving DecidableEq

/-- What a call has seen: no URLs in the query (burl_backend.go:173-175, only `UrlMentions`), the
stored error (177-179, 218-220), or the stored tree. -/
inductive Answer (γ ε : Type) where
  | noUrls
  | error (e : StoredErr ε)
  | tree (g : Option γ)

/-- Where a call is. -/
inductive Pc (γ ε : Type) where
  | entry (mentions hasUrl : Bool)   -- UrlMentions or Search begins
  | fast                             -- `atomic.LoadUint32(&o.done)`
  | lock                             -- `o.m.Lock()`
  | check                            -- `if o.done == 0`
  | init                             -- the initializer begins
  | scanning                         -- in `ExtractLinksFromFileGroup`
  | assigned                         -- fileGroup and err are assigned, lines 112-113
  | store                            -- `atomic.StoreUint32(&o.done, 1)`
  | unlock                           -- `o.m.Unlock()`
  | read                             -- `if b.err != nil`
  | answered (a : Answer γ ε)

/-- The backend: `once`, the fields assigned by the initializer, calls.  `started` counts scans,
`scans` are results of finished scans (neither is read by the code). -/
structure State (γ ε : Type) where
  done : Bool
  owner : Option Nat
  group : Option γ
  err : Option (StoredErr ε)
  calls : List (Pc γ ε)
  started : Nat
  scans : List (Option γ × Option ε)

/-- State after `NewBurlBackendPtr` (cmd/burl_backend/burl_backend.go:102-121), before any call. -/
def fresh {γ ε : Type} : State γ ε := ⟨false, none, none, none, [], 0, []⟩

/-- Steps of the call `i`.  The result of a scan is arbitrary, so files may change at any time. -/
inductive Step {γ ε : Type} (noFiles : Bool) : State γ ε → State γ ε → Prop where
  /-- a new call -/
  | call {s} (mentions hasUrl : Bool) :
      Step noFiles s { s with calls := s.calls ++ [.entry mentions hasUrl] }
  /-- burl_backend.go:165-175 -/
  | refuse {s i} : s.calls[i]? = some (.entry true false) →
      Step noFiles s { s with calls := s.calls.set i (.answered .noUrls) }
  | enter {s i m u} : s.calls[i]? = some (.entry m u) → ¬ (m = true ∧ u = false) →
      Step noFiles s { s with calls := s.calls.set i .fast }
  | fastDone {s i} : s.calls[i]? = some .fast → s.done = true →
      Step noFiles s { s with calls := s.calls.set i .read }
  | slow {s i} : s.calls[i]? = some .fast → s.done = false →
      Step noFiles s { s with calls := s.calls.set i .lock }
  | lock {s i} : s.calls[i]? = some .lock → s.owner = none →
      Step noFiles s { s with owner := some i, calls := s.calls.set i .check }
  | checkDone {s i} : s.calls[i]? = some .check → s.done = true →
      Step noFiles s { s with calls := s.calls.set i .unlock }
  | checkNot {s i} : s.calls[i]? = some .check → s.done = false →
      Step noFiles s { s with calls := s.calls.set i .init }
  /-- burl_backend.go:108-111 -/
  | noFiles {s i} : s.calls[i]? = some .init → noFiles = true →
      Step noFiles s { s with err := some .noFiles, calls := s.calls.set i .store }
  | scan {s i} : s.calls[i]? = some .init → noFiles = false →
      Step noFiles s { s with started := s.started + 1, calls := s.calls.set i .scanning }
  /-- burl_backend.go:112-113 -/
  | assign {s i} (g : Option γ) (e : Option ε) : s.calls[i]? = some .scanning →
      Step noFiles s { s with
        group := g, err := e.map .file, scans := s.scans ++ [(g, e)],
        calls := s.calls.set i .assigned }
  /-- burl_backend.go:114-118 -/
  | conclude {s i} : s.calls[i]? = some .assigned →
      Step noFiles s { s with
        err := if s.err.isNone && s.group.isNone then some .noLinks else s.err,
        calls := s.calls.set i .store }
  | store {s i} : s.calls[i]? = some .store →
      Step noFiles s { s with done := true, calls := s.calls.set i .unlock }
  | unlock {s i} : s.calls[i]? = some .unlock →
      Step noFiles s { s with owner := none, calls := s.calls.set i .read }
  /-- burl_backend.go:177-179 and 192, 218-220 and 227 -/
  | answer {s i} : s.calls[i]? = some .read →
      Step noFiles s { s with calls := s.calls.set i (.answered
        (match s.err with
          | some e => .error e
          | none => .tree s.group)) }

/-- Any number of steps of concurrent calls (goroutines of `net/rpc`,
cmd/burl_backend/burl_backend.go:338-340). -/
inductive Steps {γ ε : Type} (noFiles : Bool) : State γ ε → State γ ε → Prop where
  | refl {s} : Steps noFiles s s
  | step {s s' s''} : Steps noFiles s s' → Step noFiles s' s'' → Steps noFiles s s''

end Burl.Backend
