import Verif.JsonText.AnyProps
import Verif.Backend.EndProps
/-! Sessions with arbitrary input that end the process (C80): only requests of one kind do. -/
namespace Burl.JsonText
open Burl
open Burl.Json (Json)
open Burl.Rpc.Spec (Call Padded)
open Burl.Rpc.Server (Request State start)
open Burl.Frame.Spec (stream frame)
open Burl.Extract (All₂)
open Burl.JsonText.Spec
open Burl.Backend.Spec (Deadly Written Asked AsksBelowGap demand)

theorem mentions_arg {c : Call} {p : Json} {q : Tree.MentionsQuery}
    (ha : Backend.argument (Rpc.Server.reached c) p = some (.urlMentions q)) :
    c = .urlMentions ∧ Backend.argument .urlMentions p = some (.urlMentions q) := by
  cases c <;> simp only [Backend.argument, Rpc.Server.reached, Option.map_eq_some_iff] at ha <;>
    obtain ⟨_, h1, h2⟩ := ha <;> cases h2
  exact ⟨rfl, by simp only [Backend.argument, h1, Option.map_some]⟩

theorem panics_deadly {head : Str → Option (Nat × Str)} (hh : Extract.Spec.Reads head) {e : Backend.Env}
    {m : Rpc.Method} {a : Backend.Arg} (h : Backend.Panics e m a) : ∃ q, a = .urlMentions q ∧ Deadly head e q := by
  have key : ∀ q, Backend.Panics e .urlMentions (.urlMentions q) → Deadly head e q := fun q h =>
    Classical.byContradiction fun hn => (Backend.c62_harmless hh hn).2 h
  cases h with
  | scan h => exact ⟨_, rfl, key _ (.scan h)⟩
  | mentions h1 h2 h3 => exact ⟨_, rfl, key _ (.mentions h1 h2 h3)⟩
  | marshal h1 h2 h3 h4 => exact ⟨_, rfl, key _ (.marshal h1 h2 h3 h4)⟩
  | linkSet _ h => exact absurd rfl (Links.c29_prefix h).1

/-- C80: whatever the bytes of the input and the files are, the process ends before its input does only if a
request of `urlMentions` is written in the input whose query is deadly. -/
theorem c80_crash {head : Str → Option (Nat × Str)} (hh : Extract.Spec.Reads head) {e : Backend.Env}
    (data : Bytes) {sched : List Nat} {fin : Frame.SrcErr} {n : Nat} {s : State Bytes Bytes Backend.Arg Json}
    (h : Rpc.Server.Steps (textWorld e) (start (requests ⟨data, sched, fin⟩)) n s) (hc : s.crashed = true) :
    ∃ rs, Heard data rs ∧ ∃ r ∈ rs, ∃ q, Call.urlMentions.Name r.method ∧
      Backend.Spec.Says r .urlMentions (.urlMentions q) ∧ Deadly head e q := by
  obtain ⟨rs, hr, hsame⟩ := c80_requests data sched fin
  obtain ⟨b, hb, c, p, a, h1, h2, h3, h4⟩ := Rpc.Server.c59_crash h hc
  obtain ⟨r, hr', hs⟩ := all₂_back hsame hb
  have hpar := hs.params
  rw [h2] at hpar
  cases hv : r.params with
  | none => rw [hv] at hpar; exact hpar.elim
  | some v =>
    rw [hv] at hpar
    rw [unmarshal_text hpar] at h3
    have ha : Backend.argument (Rpc.Server.reached c) v = some a := by
      simp only [Backend.world] at h3
      split at h3
      · rename_i x hx; injection h3 with h3; exact hx.trans (congrArg some h3)
      · cases h3
    obtain ⟨q, rfl, hd⟩ := panics_deadly hh h4
    obtain ⟨rfl, ha⟩ := mentions_arg ha
    exact ⟨rs, hr, r, hr', q, by rw [← hs.method]; exact h1, Backend.says_of hv ha, hd⟩

/-- C80: if no query in the input is deadly, then no bytes end the process, and if nothing more happens, the
session is over and every request has got its reply unless the output is closed. -/
theorem c80_served (short : Bool) {head : Str → Option (Nat × Str)} (hh : Extract.Spec.Reads head)
    {e : Backend.Env} (hnow : ∃ files, e.now files) (data : Bytes)
    (hd : ∀ rs, Heard data rs → ∀ r ∈ rs, ∀ q, Backend.Spec.Says r .urlMentions (.urlMentions q) → ¬Deadly head e q)
    {sched : List Nat} {fin : Frame.SrcErr} {n : Nat} {s : State Bytes Bytes Backend.Arg Json}
    (h : Rpc.Server.Steps (textWorld e) (start (requests ⟨data, sched, fin⟩)) n s) :
    s.crashed = false ∧
    ((∀ s', Rpc.Server.Step (textWorld e) s s' → s'.broken ≠ s.broken) →
      (∀ p ∈ s.out, (replyText short p).length < 2 ^ 32) → s.loop = .closed ∧
      ∃ rs us ks, Heard data rs ∧ written short s.out = stream (us.map fun u => u.text ++ [10]) ∧
        Replied (Backend.world e) rs us ks ∧ ∀ k, k < rs.length → k ∈ ks ∨ s.broken = true) := by
  obtain ⟨rs, hr, hsame⟩ := c80_requests data sched fin
  obtain ⟨h1, h2⟩ := every_of short hsame (fun r hr' c p a hp _ ha => Backend.returns_of hnow ha fun q hq =>
    Backend.c62_harmless hh (hd rs hr r hr' q (by
      subst hq
      exact Backend.says_of hp (mentions_arg ha).2))) h
  refine ⟨h1, fun h3 h4 => ?_⟩
  obtain ⟨h5, us, ks, h6, h7, h8⟩ := h2 h3 h4
  exact ⟨h5, rs, us, ks, hr, h6, h7, h8⟩

/-- C69: if no query in texts of requests is deadly, then they do not end the process, and each of them gets the
text of its reply unless the output is closed. -/
theorem c69_served (short : Bool) {head : Str → Option (Nat × Str)} (hh : Extract.Spec.Reads head)
    {e : Backend.Env} (hnow : ∃ files, e.now files) {xs : List Bytes} {rs : List (Request Json Json)}
    (hr : Sent xs rs)
    (hd : ∀ r ∈ rs, ∀ q, Backend.Spec.Says r .urlMentions (.urlMentions q) → ¬Deadly head e q)
    {sched : List Nat} {fin : Frame.SrcErr} {n : Nat} {s : State Bytes Bytes Backend.Arg Json}
    (h : Rpc.Server.Steps (textWorld e) (start (requests ⟨stream xs, sched, fin⟩)) n s) :
    s.crashed = false ∧
    ((∀ s', Rpc.Server.Step (textWorld e) s s' → s'.broken ≠ s.broken) →
      (∀ p ∈ s.out, (replyText short p).length < 2 ^ 32) → s.loop = .closed ∧
      ∃ us ks, written short s.out = stream (us.map fun u => u.text ++ [10]) ∧ Replied (Backend.world e) rs us ks ∧
        ∀ k, k < rs.length → k ∈ ks ∨ s.broken = true) :=
  every_of short (c69_requests hr sched fin) (fun r hr' c p a hp _ ha => Backend.returns_of hnow ha fun q hq =>
    Backend.c62_harmless hh (hd r hr' q (by
      subst hq
      exact Backend.says_of hp (mentions_arg ha).2))) h

theorem found_name {c : Call} {name : Str} (h : c.Name name) :
    (Rpc.Server.Methods.find name : Except Str Rpc.Method) = .ok (Rpc.Server.reached c) := by
  cases hf : (Rpc.Server.Methods.find name : Except Str Rpc.Method) with
  | error t => exact absurd h ((Rpc.Server.Calls.missing hf).2 c)
  | ok m =>
    obtain ⟨c', h1, rfl⟩ := Rpc.Server.Calls.found hf
    exact congrArg _ (Backend.name_unique h1 h)

theorem crashing {A M : Type} [Rpc.Server.Methods M] {w : Rpc.Server.World Bytes A Json M}
    {r : Request Bytes Bytes} {rest : List (Request Bytes Bytes)} {m : M} {a : A}
    (p : Rpc.Server.prepare w r = .ok (m, a)) (q : w.panics m a) :
    ∃ n s, Rpc.Server.Steps w (start (r :: rest)) n s ∧ s.crashed = true ∧ s.out = [] := by
  have h : Rpc.Server.Steps w (start (r :: rest)) 0 (start (r :: rest)) := .refl
  have h : Rpc.Server.Steps w (start (r :: rest)) 1
      ⟨rest, 1, [(1, r.id)], (Rpc.Server.set (fun _ => .idle) 1 .got), .busy 1, none, [], false, false, [r], []⟩ :=
    h.step (.read rfl rfl rfl)
  have h : Rpc.Server.Steps w (start (r :: rest)) 2
      ⟨rest, 1, [(1, r.id)], (Rpc.Server.set (Rpc.Server.set (fun _ => .idle) 1 .got) 1 (.running m a)), .ready, none, [],
        false, false, [r], []⟩ :=
    h.step (.spawn (k := 1) rfl rfl rfl rfl p)
  exact ⟨_, _, h.step (.panic (k := 1) rfl rfl q), rfl, rfl⟩

/-- C80 is violated: whatever requests follow, the process may end without a reply to the first one, if this
is a query of `urlMentions` for some links in readable files and its limit is negative, or the limit allows
all of these links and one of them is below a gap in levels of headings. -/
theorem c80_violation {head : Str → Option (Nat × Str)} (hh : Extract.Spec.Reads head) {e : Backend.Env}
    {xs : List Bytes} {r : Request Json Json} {rs : List (Request Json Json)} (hs : Sent xs (r :: rs))
    (hc : Call.urlMentions.Name r.method) {q : Tree.MentionsQuery}
    (hq : Backend.Spec.Says r .urlMentions (.urlMentions q))
    (hread : ∀ src ∈ e.sources, Extract.fileErr e.files src = none)
    (hd : (q.limit < 0 ∧ ∃ path url n, Written e path url n ∧ Asked q url) ∨
      ∃ f : Str → Bool, (∀ u, f u = true ↔ Asked q u) ∧ demand e f ≤ q.limit ∧ demand e f * q.limit < 2 ^ 63 ∧
        AsksBelowGap head e q)
    (sched : List Nat) (fin : Frame.SrcErr) :
    ∃ n s, Rpc.Server.Steps (textWorld e) (start (requests ⟨stream xs, sched, fin⟩)) n s ∧ s.crashed = true ∧
      s.out = [] := by
  have hp : Backend.Panics e .urlMentions (.urlMentions q) := by
    rcases hd with ⟨hL, hw⟩ | ⟨f, hf, h1, h2, h3⟩
    · exact (Backend.c62_negative hL).1.2 ⟨hread, hw⟩
    · exact (Backend.c26_crash_exact hh hf h1 h2).2 ⟨hread, h3⟩
  have hsame := c69_requests hs sched fin
  generalize requests ⟨stream xs, sched, fin⟩ = as at hsame
  cases hsame with
  | @cons b _ as _ hb _ =>
    obtain ⟨v, hv, ha⟩ := Backend.argument_says hq
    have hpar := hb.params
    rw [hv] at hpar
    cases hbp : b.params with
    | none => rw [hbp] at hpar; exact hpar.elim
    | some x =>
      rw [hbp] at hpar
      refine crashing (m := .urlMentions) (a := .urlMentions q) ?_ hp
      have hu : (textWorld e).unmarshal .urlMentions x = .ok (.urlMentions q) := by
        rw [textWorld, unmarshal_text hpar]
        simp only [Backend.world, ha]
      have hfd : (Rpc.Server.Methods.find b.method : Except Str Rpc.Method) = .ok .urlMentions := by
        rw [hb.method]; exact found_name hc
      simp only [Rpc.Server.prepare, hfd, hbp, hu]

/-- A query with a negative limit. -/
def exNegative : Json :=
  .arr [.obj [("variants".toList, .arr [.str "http://a/".toList]),
    ("options".toList, .obj [("countLimit".toList, .num (-1))])]]

/-- Hypotheses of `c80_violation` are met by the text of a request and a file with one link, so the process
may end. -/
example (sched : List Nat) (fin : Frame.SrcErr) : ∃ n s, Rpc.Server.Steps (textWorld Backend.exGap)
    (start (requests ⟨stream [enc true (object (.num 1) exNegative "burl.urlMentions".toList) ++ [10]], sched, fin⟩)) n s ∧
    s.crashed = true ∧ s.out = [] := by
  refine c80_violation Extract.orgHeading_reads (rs := [])
    (c69_sendable true (by simp [exNegative, Plain, AllPlain, MembersPlain]) (by simp [Plain])
      (by simp [exNegative]) (by simp) (by simp [Rpc.Spec.Blank]) (by decide +kernel))
    (.inl (by decide)) (q := Tree.exQuery (some (-1))) ?_ (fun _ _ => rfl) (.inl ⟨by decide, ?_⟩) sched fin
  · exact Backend.says_of rfl (by rfl)
  · exact ⟨"a.org".toList, "http://a".toList, 2, ⟨⟨.org, "a.org".toList⟩, by decide, rfl, 1, "http://a".toList,
      Tree.exLink "http://a" 0, rfl, by decide, rfl, rfl⟩, (Backend.exTwo_decides (some (-1)) _).1 (by decide +kernel)⟩

/-- Hypotheses of `c80_served` are met by all bytes if there are no files. -/
example (head : Str → Option (Nat × Str)) (data : Bytes) : ∀ rs, Heard data rs → ∀ r ∈ rs, ∀ q,
    Backend.Spec.Says r .urlMentions (.urlMentions q) → ¬Deadly head { Backend.exTwo with sources := [] } q := by
  rintro _ _ _ _ _ _ ⟨-, ⟨_, _, _, ⟨_, h, -⟩, -⟩, -⟩
  cases h

/-- A query with the limit 8. -/
def exHarmless : Json :=
  .arr [.obj [("variants".toList, .arr [.str "http://a/".toList]),
    ("options".toList, .obj [("countLimit".toList, .num 8)])]]

/-- Hypotheses of `c69_served` are met by the text of a query with the limit 8 and two text files with links, so
the process does not end. -/
example {sched : List Nat} {fin : Frame.SrcErr} {n : Nat} {s : State Bytes Bytes Backend.Arg Json}
    (h : Rpc.Server.Steps (textWorld Backend.exTwo)
      (start (requests ⟨stream [enc true (object (.num 1) exHarmless "burl.urlMentions".toList) ++ [10]], sched, fin⟩)) n s) :
    s.crashed = false := by
  refine (c69_served true Extract.orgHeading_reads ⟨_, rfl⟩
    (c69_sendable true (by simp [exHarmless, Plain, AllPlain, MembersPlain]) (by simp [Plain])
      (by simp [exHarmless]) (by simp) (by simp [Rpc.Spec.Blank]) (by decide +kernel)) ?_ h).1
  intro r hr q hq
  rw [List.mem_singleton] at hr
  subst hr
  obtain ⟨v, hv, ha⟩ := Backend.argument_says hq
  cases hv
  have : Backend.argument .urlMentions exHarmless = some (.urlMentions (Tree.exQuery (some 8))) := by rfl
  rw [this] at ha
  cases ha
  exact Backend.exTwo_harmless

end Burl.JsonText
