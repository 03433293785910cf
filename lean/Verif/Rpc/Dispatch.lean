import Verif.Base
/-! Model of request dispatch: `MappedServerCodec` (pkg/webextensions/server.go:70-87), the
method map (cmd/burl_backend/burl_backend.go:324-337) and the service lookup of `net/rpc`
(standard library, `(*Server).readRequestHeader` and `register`). -/
namespace Burl.Rpc

/-- Exported methods of `*BurlBackend` suitable for `net/rpc`
(cmd/burl_backend/burl_backend.go:123,148,164,198,216,266). -/
inductive Method where
  | hello | capture | urlMentions | visit | search | linkSet
  deriving Repr, DecidableEq

/-- `methodMap` (cmd/burl_backend/burl_backend.go:324-337). -/
def methodMap : List (Str × Str) :=
  [("hello".toList, "Burl.Hello".toList),
   ("linkremark.hello".toList, "Burl.Hello".toList),
   ("burl.hello".toList, "Burl.Hello".toList),
   ("capture".toList, "Burl.Capture".toList),
   ("linkremark.capture".toList, "Burl.Capture".toList),
   ("burl.capture".toList, "Burl.Capture".toList),
   ("burl.visit".toList, "Burl.Visit".toList),
   ("linkremark.visit".toList, "Burl.Visit".toList),
   ("burl.urlMentions".toList, "Burl.UrlMentions".toList),
   ("linkremark.urlMentions".toList, "Burl.UrlMentions".toList),
   ("burl.linkSet".toList, "Burl.LinkSet".toList),
   ("linkremark.linkSet".toList, "Burl.LinkSet".toList)]

/-- The part of `MappedServerCodec.ReadRequestHeader` after the parent codec has read the
request (pkg/webextensions/server.go:79-85), for any map. -/
def mapName (m : List (Str × Str)) (name : Str) : Str :=
  match m.lookup name with
  | some n => n
  | none => "unknown.".toList ++ name

/-- `strings.LastIndex(s, ".")` and the two parts around it. -/
def splitLastDot : Str → Option (Str × Str)
  | [] => none
  | c :: cs =>
    match splitLastDot cs with
    | some (a, b) => some (c :: a, b)
    | none => if c = '.' then some ([], cs) else none

/-- Methods registered under the name "Burl" (cmd/burl_backend/burl_backend.go:317). -/
def burlMethods : List (Str × Method) :=
  [("Hello".toList, .hello), ("Capture".toList, .capture), ("UrlMentions".toList, .urlMentions),
   ("Visit".toList, .visit), ("Search".toList, .search), ("LinkSet".toList, .linkSet)]

/-- Registered services: `rpc.RegisterName("Burl", backend)`. -/
def services : List (Str × List (Str × Method)) := [("Burl".toList, burlMethods)]

/-- Errors of `readRequestHeader` of `net/rpc`. -/
inductive DispatchErr where
  | illFormed     -- rpc: service/method request ill-formed
  | noService     -- rpc: can't find service
  | noMethod      -- rpc: can't find method
  deriving Repr, DecidableEq

/-- `net/rpc` `readRequestHeader`: find the method to call. -/
def lookup {M : Type} (svcs : List (Str × List (Str × M))) (serviceMethod : Str) :
    Except DispatchErr M :=
  match splitLastDot serviceMethod with
  | none => .error .illFormed
  | some (svc, meth) =>
    match svcs.lookup svc with
    | none => .error .noService
    | some ms =>
      match ms.lookup meth with
      | none => .error .noMethod
      | some m => .ok m

/-- What a request with the given method name reaches. -/
def dispatch (name : Str) : Except DispatchErr Method := lookup services (mapName methodMap name)

end Burl.Rpc
