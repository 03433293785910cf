import Verif.Example.Props
import Verif.JsonText.AnyReplyProps
import Verif.Example.ClientProps
/-! The example backend and its client with arbitrary bytes on their inputs (C77, C78). -/
namespace Burl.Example
open Burl
open Burl.Json (Json)
open Burl.Rpc.Server (Request Reply Body State Answers Methods Calls Matched start)
open Burl.Frame.Spec (stream)
open Burl.JsonText
open Burl.JsonText.Spec (Text Heard Told FirstFor)
open Burl.Example.Spec

/-- C77: no bytes on the input end the program before its input ends.  The output is frames with JSON texts,
every text is a reply to a request of its own that is written in the input.  If nothing more happens, all
of these requests have got replies unless nobody reads them. -/
theorem c77_any (short : Bool) {f : Floats} (hf : Lawful f) (data : Bytes) {sched : List Nat}
    {fin : Frame.SrcErr} {n : Nat} {s : State Bytes Bytes (Arg f) Json Method}
    (h : Rpc.Server.Steps (textOf (world f)) (start (requests ⟨data, sched, fin⟩)) n s)
    (hlen : ∀ p ∈ s.out, (replyText short p).length < 2 ^ 32) :
    s.crashed = false ∧ ∃ (rs : List (Request Json Json)) (us : List Text) (ks : List Nat),
      Heard data rs ∧ n ≤ 5 * rs.length + 4 ∧ written short s.out = stream (us.map fun u => u.text ++ [10]) ∧
      ks.length = us.length ∧ ks.Nodup ∧
      (∀ (i k : Nat) (u : Text), ks[i]? = some k → us[i]? = some u →
        ∃ r b, rs[k]? = some r ∧ Says f r b ∧ JsonText.Spec.Means u (JsonText.Spec.replyValue r.id b)) ∧
      ((∀ s', Rpc.Server.Step (textOf (world f)) s s' → s'.broken ≠ s.broken) → s.loop = .closed ∧
        ∀ k, k < rs.length → k ∈ ks ∨ s.broken = true) := by
  have hcr : s.crashed = false := by
    cases hc : s.crashed with
    | false => rfl
    | true =>
      obtain ⟨r, hr, c, p, a, h1, h2, h3, h4⟩ := Rpc.Server.c59_crash h hc
      exact h4.elim
  refine ⟨hcr, ?_⟩
  obtain ⟨rs, hh, hsame⟩ := c80_requests data sched fin
  have hn := Rpc.Server.c59_ends h
  rw [all₂_length hsame] at hn
  have key : ∀ ks, Matched (textOf (world f)) (requests ⟨data, sched, fin⟩) s.out ks → ∃ us : List Text,
      written short s.out = stream (us.map fun u => u.text ++ [10]) ∧ ks.length = us.length ∧ ks.Nodup ∧
      ∀ (i k : Nat) (u : Text), ks[i]? = some k → us[i]? = some u →
        ∃ r b, rs[k]? = some r ∧ Says f r b ∧ JsonText.Spec.Means u (JsonText.Spec.replyValue r.id b) := by
    intro ks hm
    obtain ⟨us, h1, h2⟩ := reply_texts short (whole_result hf) hsame hm
    refine ⟨us, ?_, h2.length, h2.once, fun i k u hk hu => ?_⟩
    · rw [written, Frame.c01_wire _ _ (by
        intro m hm
        obtain ⟨p, hp, rfl⟩ := List.mem_map.mp hm
        exact hlen p hp), h1]
      simp
    · obtain ⟨-, r, b, h3, h4, h5⟩ := h2.answers i k u hk hu
      exact ⟨r, b, h3, c77_reply hf h4, h5⟩
  by_cases hstuck : ∀ s', Rpc.Server.Step (textOf (world f)) s s' → s'.broken ≠ s.broken
  · have hends : ∀ r ∈ requests ⟨data, sched, fin⟩, ¬Rpc.Server.NeverEnds (textOf (world f)) r := by
      rintro r hr ⟨c, p, a, h1, h2, h3, h4, _⟩
      simp only [textOf] at h3
      split at h3
      · cases h3
      · obtain ⟨v, t, h5⟩ := returns_some f h3
        exact h4 v t h5
    obtain ⟨⟨ks, hm, hall⟩, hclosed⟩ := Rpc.Server.c59_progress h hcr hstuck
    obtain ⟨us, k1, k2, k3, k4⟩ := key ks hm
    refine ⟨rs, us, ks, hh, hn, k1, k2, k3, k4, fun _ => ⟨hclosed hends, fun k hk => ?_⟩⟩
    have hk' : k < (requests ⟨data, sched, fin⟩).length := by rw [all₂_length hsame]; exact hk
    rcases hall k _ (List.getElem?_eq_getElem hk') with h1 | h1 | ⟨v, _, h1⟩ | h1
    · exact .inl h1
    · exact .inr h1
    · cases h1
    · exact absurd h1 (hends _ (List.getElem_mem hk'))
  · obtain ⟨ks, hm⟩ := Rpc.Server.c59_replies h
    obtain ⟨us, k1, k2, k3, k4⟩ := key ks hm
    exact ⟨rs, us, ks, hh, hn, k1, k2, k3, k4, fun hs => absurd hs hstuck⟩

theorem latest_some {vs : List Json} {o p : Option Json}
    (h : Backend.Spec.Latest (fun _ v o => o = some v) (fun _ => none) o vs p) (ho : o ≠ some .null) :
    p ≠ some .null := by
  induction h with
  | done => exact ho
  | null _ ih => exact ih (by simp)
  | value hv ht _ ih => subst ht; exact ih (fun h => hv (Option.some.inj h))

/-- A result that is told is not `null`. -/
theorem told_some {data : Bytes} {ms : List (Rpc.Client.Message Json)} (h : Told data ms)
    {m : Rpc.Client.Message Json} (hm : m ∈ ms) : m.result ≠ some .null := by
  obtain ⟨xs, rest, -, h⟩ := h
  induction h with
  | nil => cases hm
  | cons hr _ ih =>
    rcases List.mem_cons.1 hm with rfl | hm
    · obtain ⟨v, -, hr⟩ := hr
      cases hr with
      | null => simp
      | obj _ h2 _ => exact latest_some h2 (by simp)
    · exact ih hm

theorem reply_accepted {s : Rpc.Client.State Json Bytes} (h : Rpc.Client.Steps Rpc.Client.start s) {i : Nat}
    {c : Rpc.Client.Call Json Bytes} {x : Bytes} (hc : s.calls[i]? = some c) (ho : (i, .reply x) ∈ s.log) :
    c.accepts x = true := by
  cases Rpc.Client.c60_outcome h ho with
  | told _ hc' _ ht =>
    cases ht with
    | result _ _ h3 => exact Option.some.inj (hc.symm.trans hc') ▸ h3

theorem query_accepts {f : Floats} {q : f.F} {x : Bytes} {v : Json} (hu : unmarshal x = some v)
    (h : (query f q).accepts x = true) : (decFloat f).ok v = true := by
  unfold query at h
  simp only [hu] at h
  exact h

/-- C78: whatever the backend writes, a number in a line of the output is written there as the result in the
first reply for the call that came after the call had got its number, and this reply has no error. -/
theorem c78_any {f : Floats} {s : Rpc.Client.State Json Bytes} (h : Rpc.Client.Steps Rpc.Client.start s)
    {data : Bytes} {sched : List Nat} {fin : Frame.SrcErr} (hr : s.received <+: responses ⟨data, sched, fin⟩)
    {i : Nat} {q y z : f.F} (hc : s.calls[i]? = some (query f q)) {o : Rpc.Client.Outcome Bytes}
    (ho : (i, o) ∈ s.log) (hp : printed f q o = .result y z) :
    y = q ∧ ∃ n d ms m v, Rpc.Client.Numbered s i n ∧ s.since[n]? = some d ∧ Told data ms ∧
      FirstFor n d ms m ∧ m.error = .absent ∧ m.result = some v ∧ f.read v = some z := by
  cases o with
  | reply x =>
    rw [printed] at hp
    injection hp with h1 h2
    refine ⟨h1.symm, ?_⟩
    obtain ⟨n, d, ms, m, v, g1, g2, g3, g4, g5, g6, g7⟩ := c82_result h hr ho
    refine ⟨n, d, ms, m, v, g1, g2, g3, g4, g5, g6, ?_⟩
    have hu : unmarshal x = some v := by
      obtain ⟨t, t1, t2, t3⟩ := g7
      exact c68_decode ⟨[], x, [], by simp [Rpc.Spec.Blank],
        ⟨t, ok_mono _ _ _ (by omega) t1, t2, t3⟩, by simp [Rpc.Spec.Blank], by simp⟩
    have hne : v ≠ .null := by
      intro e
      obtain ⟨a, b, e1, -⟩ := g4
      have hm : m ∈ ms := List.mem_of_mem_drop (by rw [e1]; simp)
      exact told_some g3 hm (by rw [g6, e])
    have hacc : (decFloat f).ok v = true := by
      exact query_accepts hu (reply_accepted h hc ho)
    rw [stored, hu] at h2
    cases v with
    | null => exact absurd rfl hne
    | _ =>
      simp only [decFloat] at hacc h2
      obtain ⟨w, hw⟩ := Option.isSome_iff_exists.1 hacc
      rw [hw, Option.getD_some] at h2
      rw [hw, h2]
  | _ => cases hp

/-- Hypotheses of `c77_any`: the program gets something that is not a request, then anything at all, and ends. -/
example (rest : Bytes) (sched : List Nat) (fin : Frame.SrcErr) :
    ∃ (n : Nat) (s : State Bytes Bytes (Arg exFloats) Json Method), Rpc.Server.Steps (textOf (world exFloats))
      (start (requests ⟨stream [] ++ Frame.Spec.frame (utf8 "[{}x".toList) ++ rest, sched, fin⟩)) n s ∧
      s.loop = .closed ∧ s.out = [] := by
  have hy : ∀ x r, x <+: utf8 "[{}x".toList → ¬JsonText.Spec.AsksText r x := by
    rintro x r hx ⟨v, hv, -⟩
    have hall : ∀ y ∈ (utf8 "[{}x".toList).inits, (unmarshal y).isNone = true := by decide +kernel
    have := hall x ((List.mem_inits _ _).2 hx)
    rw [c68_exact.2 hv] at this
    cases this
  have he := c80_ends (xs := []) (rs := []) .nil hy (by decide +kernel) rest sched fin
  generalize requests ⟨stream [] ++ Frame.Spec.frame (utf8 "[{}x".toList) ++ rest, sched, fin⟩ = reqs at he ⊢
  cases he
  have h0 := (Rpc.Server.Steps.refl (w := textOf (world exFloats)) (s := start ([] : List (Request Bytes Bytes)))).step (.eof rfl rfl rfl)
  have h1 := h0.step (.close rfl rfl (by intro k h1 h2; simp only [start] at h2; omega))
  exact ⟨_, _, h1, rfl, rfl⟩

/-- Hypotheses of `c78_any`: the number 7 in place of the square root of 2. -/
example : ∃ (s : Rpc.Client.State Json Bytes) (data : Bytes), Rpc.Client.Steps Rpc.Client.start s ∧
    s.received <+: responses ⟨data, [], .eof⟩ ∧ s.calls[0]? = some (query exFloats (Num.int 2)) ∧
    (0, .reply (enc true (.num 7))) ∈ s.log ∧
    printed exFloats (Num.int 2) (.reply (enc true (.num 7))) = .result (Num.int 2) (Num.int 7) := by
  have hl : (replyText true ⟨some (encNat 0), .result (.num 7)⟩).length ≤ 512 := by decide +kernel
  have hu : unmarshal (enc true (.num 7)) = some (.num 7) := c68_roundtrip true (by simp [JsonText.Spec.Plain])
  obtain ⟨s, hs, s1, -, s3, s4, -⟩ := one_call (P := Json) (query exFloats (Num.int 2))
    (enc true (.num 7)) (by unfold query; simp only [hu]; rfl)
  refine ⟨s, written true [⟨some (encNat 0), .result (.num 7)⟩], hs, ⟨[], ?_⟩, by rw [s1]; rfl,
    by rw [s4]; exact List.mem_singleton_self _, ?_⟩
  · rw [List.append_nil, s3, written_eq true (by
      intro p hp; rw [List.mem_singleton] at hp; subst hp; exact Nat.lt_of_le_of_lt hl (by omega))]
    exact ((responses_one true (n := 0) (p := ⟨some (encNat 0), .result (.num 7)⟩) (by omega) rfl
      (by intro v hv; cases hv; simp [JsonText.Spec.Plain]) (Nat.le_trans hl (by omega)) [] .eof)).symm
  · unfold Burl.Example.printed stored
    simp only [hu]
    rfl

end Burl.Example
