import Verif.Tool.ClientProps
import Verif.Backend.SaysProps
import Verif.JsonText.ExactProps
/-! Queries of the command-line client and replies to them, with the meaning of parameters of C61
(C63, C72). -/
namespace Burl.Tool.Client
open Burl
open Burl.Json (Json)
open Burl.Backend (Arg Env)
open Burl.Backend.Spec (Given Says RightFor Greeting member)
open Burl.Rpc.Server (Request Answers reached)
open Spec

/-- C63: a query is sent as a call of its method, and parameters of this call mean exactly what is written in
the query. -/
theorem c63_given {parse : Str → Option Json} {queries : List Str} {c : Rpc.Spec.Call} {arg : Arg}
    (h : Query queries c arg) : ∃ m d, subcommand parse queries = .ok (m, d) ∧ c.Name m ∧
      ∀ a, Given (reached c) (.arr [d]) a ↔ a = arg := by
  obtain ⟨m, d, h1, h2, h3⟩ := c63_query (parse := parse) h
  refine ⟨m, d, h1, h2, fun a => ?_⟩
  rw [← Backend.c61_exact, h3]
  exact ⟨fun h => (Option.some.inj h).symm, fun h => h ▸ rfl⟩

/-- C63: what is sent to capture an address says nothing else about the page: the title is empty, there is no
body and no error. -/
theorem c63_capture_data (parse : Str → Option Json) (url : Str) :
    ∃ m d, subcommand parse ["capture".toList, url] = .ok (m, .obj d) ∧
      (member "data" (.obj d)).bind (member "url") = some (.str url) ∧
      (member "data" (.obj d)).bind (member "title") = some (.str []) ∧
      (member "data" (.obj d)).bind (member "body") = some .null ∧ member "error" (.obj d) = some .null :=
  ⟨_, _, rfl, rfl, rfl, rfl, rfl⟩

/-- What is sent for an address. -/
example : (subcommand (fun _ => none) ["capture".toList, "http://a".toList]).toOption.map (·.2) =
    some (.obj [("format".toList, .str "org-protocol".toList), ("version".toList, .str "0.2".toList),
      ("data".toList, .obj [("url".toList, .str "http://a".toList), ("title".toList, .str []), ("body".toList, .null)]),
      ("error".toList, .null)]) := rfl

/-- C63: what is printed is right for a request that says what is written in the query. -/
theorem c63_says {e : Env} {w : World} (hw : Connected e w.call) {args : List Str} {cmd : Str}
    {b q : List Str} {c : Rpc.Spec.Call} {arg : Arg} {v : Json} (hl : Line args cmd b q)
    (hq : Query q c arg) (h : (run w args).printed = some v) :
    ∃ r : Request Json Json, c.Name r.method ∧ (∀ a, Says r (reached c) a ↔ a = arg) ∧ RightFor e r v := by
  obtain ⟨r, p, h1, h2, h3, h4⟩ := c63_reply hw hl hq h
  refine ⟨r, h1, fun a => ⟨fun ha => ?_, fun ha => ha ▸ Backend.says_of h2 h3⟩, Backend.c62_says h4⟩
  obtain ⟨p', g1, g2⟩ := Backend.argument_says ha
  rw [h2] at g1
  injection g1 with g1
  rw [← g1, h3] at g2
  exact (Option.some.inj g2).symm

/-- C63: if `capture` prints something, then the address on the command line is one of the protocol, and the
reply tells that it has been passed to the editor. -/
theorem c63_capture {e : Env} {w : World} (hw : Connected e w.call) {args : List Str} {cmd : Str}
    {b : List Str} {u : Str} {v : Json} (hl : Line args cmd b ["capture".toList, u])
    (h : (run w args).printed = some v) :
    "org-protocol:".toList <+: u ∧ member "preview" v = some (.bool false) ∧
      member "status" v = some (.str "success".toList) := by
  obtain ⟨r, h1, h2, h3⟩ := c63_says hw hl .capture h
  obtain ⟨q, g1, g2⟩ := h3.capture h1
  have hq := (h2 _).1 g1
  injection hq with hq
  subst hq
  obtain ⟨-, h | ⟨-, g3, g4, g5⟩⟩ := g2
  · cases h.1
  · exact ⟨g3, g4, g5⟩

/-- C63: the reply printed by `hello` is for the only offer of the protocol in the query, with its version,
and tells what the backend has been configured with. -/
theorem c63_hello {e : Env} {w : World} (hw : Connected e w.call) {args : List Str} {cmd : Str}
    {b : List Str} {v : Json} (hl : Line args cmd b ["hello".toList]) (h : (run w args).printed = some v) :
    member "format" v = some (.str "org-protocol".toList) ∧ member "version" v = some (.str "0.2".toList) ∧
      member "capabilities" v = some (
        if e.sources = [] then .null
        else if e.disableLinkSet then .arr [.str "visit".toList, .str "urlMentions".toList]
        else .arr [.str "visit".toList, .str "urlMentions".toList, .str "linkSet".toList]) := by
  obtain ⟨r, h1, h2, h3⟩ := c63_says hw hl .hello h
  obtain ⟨fs, g1, g2⟩ := h3.hello h1
  have hq := (h2 _).1 g1
  injection hq with hq
  subst hq
  obtain ⟨f, ⟨l, l', e1, e2, -⟩, hf⟩ := g2.version
  refine ⟨g2.format, ?_, g2.capabilities⟩
  have hm : f ∈ [⟨"org".toList, "0.2".toList⟩, ⟨"object".toList, "0.2".toList⟩,
      (⟨"org-protocol".toList, "0.2".toList⟩ : Backend.HelloFormat)] := by rw [e1]; simp
  rw [hf]
  simp only [List.mem_cons, List.not_mem_nil, or_false] at hm
  rcases hm with rfl | rfl | rfl <;> rfl

/-- C63: whatever the argument of `hello` is, the reply is a right one for its parameters: they say offers,
and one of them is taken. -/
theorem c63_hello_any {e : Env} {w : World} (hw : Connected e w.call) {args : List Str} {cmd : Str}
    {b : List Str} {t : Str} {d v : Json} (hl : Line args cmd b ["hello".toList, t]) (ht : w.parse t = some d)
    (h : (run w args).printed = some v) :
    ∃ fs, Given .hello (.arr [d]) (.hello fs) ∧ Greeting e fs v := by
  obtain ⟨m, d', hcalled, hc⟩ := (c63_called.2.1 v).mp h
  obtain ⟨cmd', b', q', hl', -, hsub⟩ := (c63_called.1 m d').mp hcalled
  have := c63_split.mpr hl
  rw [c63_split.mpr hl'] at this
  simp only [Except.ok.injEq, Prod.mk.injEq] at this
  obtain ⟨-, -, rfl⟩ := this
  rw [c63_helloText ht] at hsub
  simp only [Except.ok.injEq, Prod.mk.injEq] at hsub
  obtain ⟨rfl, rfl⟩ := hsub
  obtain ⟨short, short', s, t, i, cl, x, s1, s2, s3, s4, s5, s6, s7⟩ := hw _ _ _ hc
  obtain ⟨n, v', hx, hn, -⟩ := JsonText.joined_reply s1 s2 s3 s6
  rw [s7] at hx
  injection hx with hx
  subst hx
  obtain ⟨fs, ⟨p, g1, g2⟩, g3⟩ := (Backend.c62_says hn).hello (by
    rw [show (JsonText.Spec.asked n cl).method = _ from s4]; exact .inr (.inl (by decide +kernel)))
  have : p = .arr [d] := by
    have : (JsonText.Spec.asked n cl).params = some (.arr [d]) := by rw [← s5]; rfl
    rw [this] at g1
    exact (Option.some.inj g1).symm
  subst this
  exact ⟨fs, g2, g3⟩

/-- Hypotheses of `c63_hello` are met. -/
example : ∃ w v, Connected Backend.exTwo w.call ∧
    (run w [k "burl_backend", k "--", k "hello"]).printed = some v ∧
    member "version" v = some (.str (k "0.2")) := by
  have hl : Line [k "burl_backend", k "--", k "hello"] (k "burl_backend") [] [k "hello"] :=
    .bare (cmd := k "burl_backend") (args := []) (queries := [k "hello"]) (.inr (.inr (by decide +kernel))) (by simp)
      (by simp)
  obtain ⟨h7, -⟩ := only_run (v := Backend.helloJson ⟨k "org-protocol", k "0.2",
    Backend.capabilities Backend.exTwo.backend, false⟩) hl rfl
  exact ⟨_, _, only_connected (meth := .hello) (arg := .hello [⟨k "org", k "0.2"⟩, ⟨k "object", k "0.2"⟩,
      ⟨k "org-protocol", k "0.2"⟩]) rfl rfl (.hello rfl)
    (JsonText.plain_of _ _ (by decide +kernel)) (JsonText.plain_of _ _ (by decide +kernel))
    (by simp [Backend.helloJson]) (by decide +kernel) (by decide +kernel), h7, rfl⟩

/-- Hypotheses of `c63_capture` are met: the editor succeeds. -/
example : ∃ w v, Connected Backend.exTwo w.call ∧
    (run w [k "burl_backend", k "--", k "capture", k "org-protocol:/capture?url=x"]).printed = some v := by
  have hl : Line [k "burl_backend", k "--", k "capture", k "org-protocol:/capture?url=x"] (k "burl_backend") []
      [k "capture", k "org-protocol:/capture?url=x"] :=
    .bare (cmd := k "burl_backend") (args := []) (queries := [k "capture", k "org-protocol:/capture?url=x"])
      (.inr (.inr (by decide +kernel))) (by simp) (by simp)
  obtain ⟨h7, -⟩ := only_run (v := Backend.captureJson ⟨false, k "success"⟩) hl rfl
  have hret : ((Emacs.capture ⟨k "org-protocol", k "org-protocol:/capture?url=x", false⟩).run
      (fun _ _ => ⟨Emacs.Spec.bytesOf (k "org-protocol\n"), .success⟩) ⟨k "emacsclient", []⟩ []).1 =
      .ok ⟨false, k "success"⟩ := by rfl
  exact ⟨_, _, only_connected (meth := .capture)
      (arg := .capture ⟨k "org-protocol", k "org-protocol:/capture?url=x", false⟩) rfl rfl
      (.capture (Prod.ext hret rfl))
    (JsonText.plain_of _ _ (by decide +kernel)) (JsonText.plain_of _ _ (by decide +kernel))
    (by simp [Backend.captureJson]) (by decide +kernel) (by decide +kernel), h7⟩

end Burl.Tool.Client

namespace Burl.JsonText
open Burl
open Burl.Json (Json)
open Burl.JsonText.Spec
open Burl.Rpc.Spec (Padded)

/-- C72: the result of a call is a text of a value that is right for what its parameter says. -/
theorem c72_says {short short' : Bool} {e : Backend.Env} {s : Rpc.Client.State Json Bytes}
    {t : Rpc.Server.State Bytes Bytes Backend.Arg Json} (h : Joined short short' (Backend.world e) s t)
    (hu : Usual short short' s t) {i : Nat} {c : Rpc.Client.Call Json Bytes} (hc : s.calls[i]? = some c)
    {x : Bytes} (ho : (i, .reply x) ∈ s.log) :
    ∃ n v, Padded (TextFor 10000 v) x ∧ Backend.Spec.RightFor e (asked n c) v := by
  obtain ⟨n, v, h1, h2, -⟩ := joined_reply h hu hc ho
  exact ⟨n, v, c68_exact.1 h1, Backend.c62_says h2⟩

end Burl.JsonText
