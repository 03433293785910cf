import Verif.Backend.ServeProps
import Verif.Backend.RepeatedProps
/-! Answers to requests: what the parameters mean is told by the relation `Spec.Given`, without the
functions that read them (C62). -/
namespace Burl.Backend
open Burl.Json (Json)
open Burl.Rpc (Method)
open Burl.Rpc.Spec (Call)
open Burl.Rpc.Server (Request Answers)
open Spec

namespace Spec

/-- A request for the method has parameters, and this is their meaning. -/
def Says {Id : Type} (r : Request Id Json) (m : Method) (a : Arg) : Prop :=
  ∃ p, r.params = some p ∧ Given m p a

/-- A result is right for what a request says. -/
structure RightFor {Id : Type} (e : Env) (r : Request Id Json) (v : Json) : Prop where
  mentions : Call.urlMentions.Name r.method → ∃ q, Says r .urlMentions (.urlMentions q) ∧
    ∀ path url n, (path, url, n) ∈ seen v → Written e path url n ∧ Asked q url
  visit : Call.visit.Name r.method → ∃ q, Says r .visit (.visit q) ∧ v = .bool true ∧
    ∃ src ∈ e.sources, src.name = q.filePath
  linkSet : Call.linkSet.Name r.method → ∃ ps us, Says r .linkSet (.linkSet ps) ∧
    member "urls" v = some (.arr us) ∧ e.disableLinkSet = false ∧ ps.length ≤ 16 ∧ Listed e ps us
  hello : Call.hello.Name r.method → ∃ fs, Says r .hello (.hello fs) ∧ Greeting e fs v
  capture : Call.capture.Name r.method → ∃ q, Says r .capture (.capture q) ∧ Captured q v

end Spec

theorem says_of {Id : Type} {r : Request Id Json} {m : Method} {p : Json} {a : Arg}
    (hp : r.params = some p) (ha : argument m p = some a) : Says r m a := ⟨p, hp, c61_exact.1 ha⟩

theorem argument_says {Id : Type} {r : Request Id Json} {m : Method} {a : Arg} (h : Says r m a) :
    ∃ p, r.params = some p ∧ argument m p = some a := by
  obtain ⟨p, hp, ha⟩ := h
  exact ⟨p, hp, c61_exact.2 ha⟩

theorem right_for {Id : Type} {e : Env} {r : Request Id Json} {v : Json} (hx : Right e r v) : RightFor e r v := by
  constructor
  · intro hc
    obtain ⟨p, q, hp, ha, h⟩ := hx.mentions hc
    exact ⟨q, says_of hp ha, h⟩
  · intro hc
    obtain ⟨p, q, hp, ha, h⟩ := hx.visit hc
    exact ⟨q, says_of hp ha, h⟩
  · intro hc
    obtain ⟨p, ps, us, hp, ha, h⟩ := hx.linkSet hc
    exact ⟨ps, us, says_of hp ha, h⟩
  · intro hc
    obtain ⟨p, fs, hp, ha, h⟩ := hx.hello hc
    exact ⟨fs, says_of hp ha, h⟩
  · intro hc
    obtain ⟨p, q, hp, ha, h⟩ := hx.capture hc
    exact ⟨q, says_of hp ha, h⟩

/-- C62: the result of a request is right for what the request says. -/
theorem c62_says {Id : Type} {e : Env} {r : Request Id Json} {v : Json}
    (h : Answers (world e) r (.result v)) : RightFor e r v := right_for (right_of h)

/-- C62: a request gets links within its limit; if the limit allows as many as there are, then
every file with an address that is asked for is shown with this address, and `total` is the number
of links. -/
theorem c62_says_links {Id : Type} {e : Env} {r : Request Id Json} {v : Json}
    (hc : Call.urlMentions.Name r.method)
    (h : Answers (world e) r (.result v)) {q : Tree.MentionsQuery}
    (hq : Says r .urlMentions (.urlMentions q)) {f : Str → Bool}
    (hf : ∀ u, f u = true ↔ Asked q u) :
    (0 ≤ q.limit → demand e f < 2 ^ 31 → ((inside "Link" v).length : Int) ≤ q.limit) ∧
    (demand e f ≤ q.limit → demand e f * q.limit < 2 ^ 63 →
      numberOf "total" v = demand e f ∧
      ∀ path url n, Written e path url n → Asked q url → ∃ n', (path, url, n') ∈ seen v) := by
  obtain ⟨p, hp, ha⟩ := argument_says hq
  exact ⟨fun hL hm => c62_limit hf hc h hp ha hL hm, fun hm hlt =>
    ⟨c62_total_partial hf hc h hp ha hm hlt, fun path url n hw hasked =>
      c62_complete hf hc h hp ha hm hlt hw hasked⟩⟩

/-- C62: a request that says nothing a method understands is answered with an error, whatever the
method. -/
theorem c62_says_refused {Id : Type} {e : Env} {r : Request Id Json}
    {c : Call} (hc : c.Name r.method) (hn : ∀ a, ¬Says r (Rpc.Server.reached c) a)
    {b : Rpc.Server.Body Json} (h : Answers (world e) r b) : ∃ msg, msg ≠ [] ∧ b = .error msg := by
  have none_of : ∀ {c' : Call} {p}, c'.Name r.method → r.params = some p →
      argument (Rpc.Server.reached c') p = none := by
    intro c' p hc' hp
    have hcc : c' = c := by
      have h1 := (Rpc.c09_exact r.method (Rpc.target c')).mpr ⟨c', hc', rfl⟩
      have h2 := (Rpc.c09_exact r.method (Rpc.target c)).mpr ⟨c, hc, rfl⟩
      rw [h1] at h2
      injection h2 with h2
      cases c <;> cases c' <;> first | rfl | cases h2
    subst hcc
    cases ha : argument (Rpc.Server.reached c') p with
    | none => rfl
    | some a => exact absurd (says_of hp ha) (hn a)
  cases h with
  | unknown _ hm => exact ⟨_, hm, rfl⟩
  | noParams _ hm => exact ⟨_, hm, rfl⟩
  | badParams _ _ _ hm => exact ⟨_, hm, rfl⟩
  | badParamsSilent h1 h2 h3 =>
    have := none_of h1 h2
    simp only [world] at h3
    erw [this] at h3
    cases h3
  | result h1 h2 h3 _ =>
    have := none_of h1 h2
    simp only [world] at h3
    erw [this] at h3
    cases h3
  | failed _ _ _ _ hm => exact ⟨_, hm, rfl⟩
  | failedSilent h1 h2 h3 _ =>
    have := none_of h1 h2
    simp only [world] at h3
    erw [this] at h3
    cases h3

/-- C62: in any session, with requests served in any order and at the same time, every response to
a request has the identifier of this request, and a result is right for what it says. -/
theorem c62_says_session {Id : Type} {e : Env} {reqs : List (Request Id Json)}
    {n : Nat} {s : Rpc.Server.State Id Json Arg Json}
    (h : Rpc.Server.Steps (world e) (Rpc.Server.start reqs) n s) :
    ∃ ks : List Nat, ks.length = s.out.length ∧ ks.Nodup ∧
      ∀ (i k : Nat) p, ks[i]? = some k → s.out[i]? = some p →
        ∃ r, reqs[k]? = some r ∧ p.id = r.id ∧
          (∀ v, p.body = .result v → RightFor e r v) ∧
          (∀ c : Call, c.Name r.method → (∀ a, ¬Says r (Rpc.Server.reached c) a) →
            ∃ msg, msg ≠ [] ∧ p.body = .error msg) := by
  obtain ⟨ks, hm⟩ := Rpc.Server.c59_replies h
  refine ⟨ks, hm.length, hm.once, ?_⟩
  intro i k p hi hp
  obtain ⟨r, h1, h2, h3⟩ := hm.answers i k p hi hp
  refine ⟨r, h1, h2, fun v hv => ?_, fun c hc hn => c62_says_refused hc hn h3⟩
  rw [hv] at h3
  exact c62_says h3

/-- Non-vacuity: a request that says something, and one that says nothing. -/
example : Says (⟨some 1, "linkremark.visit".toList,
      some (.arr [.obj [("file".toList, .str "/o/a.org".toList), ("lineNo".toList, .num 3)]])⟩ :
      Request Nat Json) .visit (.visit ⟨"/o/a.org".toList, 3⟩) ∧
    ∀ a, ¬Says (⟨some 2, "linkremark.visit".toList, some (.arr [.str "x".toList])⟩ :
      Request Nat Json) .visit a := by
  refine ⟨⟨_, rfl, c61_exact.1 rfl⟩, ?_⟩
  rintro a ⟨p, h, ha⟩
  injection h with h
  subst h
  cases ha

/-- `c62_every_request_partial` in terms of what requests say.  Missing: outlines that skip a level, see
`Extract.c26_violation_skipped_level`. -/
theorem c62_says_every_request_partial {Id : Type} {e : Env}
    (hst : Extract.StepwiseFiles e.files e.sources) (hnow : ∃ files, e.now files)
    {reqs : List (Request Id Json)}
    (hmod : ∀ r ∈ reqs, ∀ q, Says r .urlMentions (.urlMentions q) → Modest e q)
    {n : Nat} {s : Rpc.Server.State Id Json Arg Json}
    (h : Rpc.Server.Steps (world e) (Rpc.Server.start reqs) n s) :
    s.crashed = false ∧
    ((∀ s', Rpc.Server.Step (world e) s s' → s'.broken ≠ s.broken) → s.loop = .closed ∧
      ∃ ks, Rpc.Server.Matched (world e) reqs s.out ks ∧
        ∀ k r, reqs[k]? = some r → k ∈ ks ∨ s.broken = true) :=
  c62_every_request_partial hst hnow (fun r hr p q hp ha => hmod r hr q ⟨p, hp, c61_exact.1 ha⟩) h

end Burl.Backend
