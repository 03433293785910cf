import Verif.JsonText.AnyLemmas
import Verif.Backend.SaysProps
import Mathlib.Data.List.Infix
/-! Sessions with arbitrary input (C80). -/
namespace Burl.JsonText
open Burl
open Burl.Json (Json)
open Burl.Rpc (Decoder readValue serve)
open Burl.Rpc.Spec (Blank Padded)
open Burl.Rpc.Server (Request State start)
open Burl.Frame (Reader)
open Burl.Frame.Spec (le32 stream frame)
open Burl.Extract (All₂)
open Burl.JsonText.Spec

namespace Spec

/-- Requests that are written in bytes: texts of them one after another, interrupted by headers of frames
only. -/
def Heard (data : Bytes) (rs : List (Request Json Json)) : Prop :=
  ∃ xs rest, Payload 0 data (xs.flatten ++ rest) ∧ All₂ (fun x r => AsksText r x) xs rs

end Spec

theorem text_of {x : Bytes} (h : checkValid Rpc.json.start x = true) : ∃ v, Padded (TextFor 10000 v) x := by
  obtain ⟨t, ht, w, y, w', h1, h2, h3, rfl⟩ := text_of_valid h
  obtain ⟨v, hm⟩ := means_total t _ ht
  exact ⟨v, w, y, w', h1, ⟨t, ht, hm, h2⟩, h3, rfl⟩

/-- C80: whatever the bytes of the input are and however they arrive, requests that are served are
written there, in this order and once each. -/
theorem c80_requests (data : Bytes) (sched : List Nat) (fin : Frame.SrcErr) :
    ∃ rs, Heard data rs ∧ All₂ SameRequest (requests ⟨data, sched, fin⟩) rs := by
  obtain ⟨p, hp, ⟨rest, hf⟩, hall⟩ := serve_any (fun s => (request s).isSome) (data.length + 1) Decoder.new
    (Frame.newReader ⟨data, sched, fin⟩)
  rw [requests, Rpc.session]
  generalize (serve Rpc.json (fun s => (request s).isSome) (data.length + 1) Decoder.new
    (Frame.newReader ⟨data, sched, fin⟩)).1 = ms at hf hall ⊢
  have key : ∃ rs, All₂ (fun x r => AsksText r x) ms rs ∧ All₂ SameRequest (ms.filterMap request) rs := by
    clear hf
    induction ms with
    | nil => exact ⟨[], .nil, .nil⟩
    | cons m ms ih =>
      obtain ⟨rs, h1, h2⟩ := ih fun x hx => hall x (by simp [hx])
      obtain ⟨ha, hv⟩ := hall m (by simp)
      obtain ⟨v, hv⟩ := text_of hv
      obtain ⟨b, hb⟩ := Option.isSome_iff_exists.1 ha
      obtain ⟨r, g1, g2⟩ := request_back hv hb
      rw [List.filterMap_cons, hb]
      exact ⟨r :: rs, .cons ⟨v, hv, g1⟩ h1, .cons g2 h2⟩
  obtain ⟨rs, h1, h2⟩ := key
  refine ⟨rs, ⟨ms, rest, ?_, h1⟩, h2⟩
  rw [hf]
  exact hp

/-- C80: whatever the input is, in whatever order calls end, the output is frames with JSON texts.  Every
text is a reply to a request of its own that is written in the input, it has the identifier of this
request and says what the method returns. -/
theorem c80_session (short : Bool) {e : Backend.Env} (data : Bytes) {sched : List Nat} {fin : Frame.SrcErr}
    {n : Nat} {s : State Bytes Bytes Backend.Arg Json}
    (h : Rpc.Server.Steps (textWorld e) (start (requests ⟨data, sched, fin⟩)) n s)
    (hlen : ∀ p ∈ s.out, (replyText short p).length < 2 ^ 32) :
    ∃ rs us ks, Heard data rs ∧ written short s.out = stream (us.map fun u => u.text ++ [10]) ∧
      Replied (Backend.world e) rs us ks ∧
      (s.loop = .closed → s.broken = false → ∀ k, k < rs.length → k ∈ ks) := by
  obtain ⟨rs, hh, hsame⟩ := c80_requests data sched fin
  have hw : ∀ us : List Text, s.out.map (replyText short) = us.map (fun u => u.text ++ [10]) →
      written short s.out = stream (us.map fun u => u.text ++ [10]) := by
    intro us h1
    rw [written, Frame.c01_wire _ _ (by
      intro m hm
      obtain ⟨p, hp, rfl⟩ := List.mem_map.mp hm
      exact hlen p hp), h1]
    simp
  by_cases hc : s.loop = .closed ∧ s.broken = false
  · obtain ⟨ks, hm, hall⟩ := Rpc.Server.c59_complete h hc.1 hc.2
    obtain ⟨us, h1, h2⟩ := reply_texts short whole_answers hsame hm
    refine ⟨rs, us, ks, hh, hw us h1, h2, fun _ _ k hk => ?_⟩
    have hk' : k < (requests ⟨data, sched, fin⟩).length := by rw [all₂_length hsame]; exact hk
    rcases hall k _ (List.getElem?_eq_getElem hk') with h | ⟨v, -, h⟩
    · exact h
    · cases h
  · obtain ⟨ks, hm⟩ := Rpc.Server.c59_replies h
    obtain ⟨us, h1, h2⟩ := reply_texts short whole_answers hsame hm
    exact ⟨rs, us, ks, hh, hw us h1, h2, fun h3 h4 => absurd ⟨h3, h4⟩ hc⟩

/-- C80, for files with outlines that go deeper step by step and queries with limits that are not
negative: no bytes end the process, and if nothing more happens, the session is over and every request
has got its reply unless the output is closed.  Missing: outlines that skip a level, see
`Extract.c26_violation_skipped_level`. -/
theorem c80_alive_partial (short : Bool) {e : Backend.Env}
    (hst : Extract.StepwiseFiles e.files e.sources) (hnow : ∃ files, e.now files) (data : Bytes)
    (hmod : ∀ rs, Heard data rs → ∀ r ∈ rs, ∀ q, Backend.Spec.Says r .urlMentions (.urlMentions q) →
      Backend.Spec.Modest e q)
    {sched : List Nat} {fin : Frame.SrcErr} {n : Nat} {s : State Bytes Bytes Backend.Arg Json}
    (h : Rpc.Server.Steps (textWorld e) (start (requests ⟨data, sched, fin⟩)) n s) :
    s.crashed = false ∧
    ((∀ s', Rpc.Server.Step (textWorld e) s s' → s'.broken ≠ s.broken) →
      (∀ p ∈ s.out, (replyText short p).length < 2 ^ 32) → s.loop = .closed ∧
      ∃ rs us ks, Heard data rs ∧ written short s.out = stream (us.map fun u => u.text ++ [10]) ∧
        Replied (Backend.world e) rs us ks ∧ ∀ k, k < rs.length → k ∈ ks ∨ s.broken = true) := by
  obtain ⟨rs, hh, hsame⟩ := c80_requests data sched fin
  obtain ⟨h1, h2⟩ := every_request short hst hnow hsame
    (fun r hr p q hp ha => hmod rs hh r hr q ⟨p, hp, Backend.c61_exact.1 ha⟩) h
  refine ⟨h1, fun h3 h4 => ?_⟩
  obtain ⟨h5, us, ks, h6, h7, h8⟩ := h2 h3 h4
  exact ⟨h5, rs, us, ks, hh, h6, h7, h8⟩

/-! ### Texts that are not requests -/

theorem request_asks {v : Json} {x : Bytes} (hx : Padded (TextFor 10000 v) x) {r : Request Json Json}
    (h : Asks v r) : ∃ b, request x = some b ∧ SameRequest b r := by
  rcases h with ⟨rfl, rfl⟩ | ⟨ms, rfl, hs⟩
  · obtain ⟨w, y, w', hw, ⟨t, ht, hm, hy⟩, -, rfl⟩ := hx
    cases t with
    | null =>
      rw [Rpc.Spec.Json.Writes] at hy
      subst hy
      refine ⟨⟨none, [], none⟩, ?_, rfl, trivial, trivial⟩
      rw [request, skip_blank hw, show Rpc.Spec.bytesOf "null" = 110 :: [117, 108, 108] from rfl,
        List.cons_append, skip_head (by decide)]
      simp
    | num n => rw [Means, numValue] at hm; split at hm <;> cases hm
    | _ => simp [Means] at hm
  · exact request_of ⟨ms, hx, hs⟩

/-- C80: a JSON text is accepted as a request just if it says one. -/
theorem c80_accepted {x : Bytes} (hx : JsonText x) : (request x).isSome = true ↔ ∃ r, AsksText r x := by
  constructor
  · intro h
    obtain ⟨b, hb⟩ := Option.isSome_iff_exists.1 h
    obtain ⟨t, ht, w, y, w', h1, h2, h3, rfl⟩ := hx
    obtain ⟨v, hm⟩ := means_total t _ ht
    have hv : Padded (TextFor 10000 v) (w ++ (y ++ w')) := ⟨w, y, w', h1, ⟨t, ht, hm, h2⟩, h3, rfl⟩
    obtain ⟨r, g, -⟩ := request_back hv hb
    exact ⟨r, v, hv, g⟩
  · rintro ⟨r, v, hv, ha⟩
    obtain ⟨b, hb, -⟩ := request_asks hv ha
    rw [hb]; rfl

theorem serve_after (accept : Bytes → Bool) (fin : Frame.SrcErr) (tail : Bytes) : ∀ (ms : List Bytes)
    (fuel cap : Nat) (sched : List Nat),
    (∀ m ∈ ms, Rpc.Completes Rpc.json Rpc.json.start m ∧ accept m = true ∧ m.length ≤ Frame.maxInSize) →
    ∃ cap' sched', serve Rpc.json accept (ms.length + fuel) ⟨[], cap⟩ ⟨⟨stream ms ++ tail, sched, fin⟩, 0⟩ =
      (ms ++ (serve Rpc.json accept fuel ⟨[], cap'⟩ ⟨⟨tail, sched', fin⟩, 0⟩).1,
        (serve Rpc.json accept fuel ⟨[], cap'⟩ ⟨⟨tail, sched', fin⟩, 0⟩).2) := by
  have hm30 : Frame.maxInSize = 1073741824 := by decide
  intro ms
  induction ms with
  | nil => intro fuel cap sched _; exact ⟨cap, sched, by simp [stream]⟩
  | cons m ms ih =>
    intro fuel cap sched hm
    obtain ⟨h1, h2, h3⟩ := hm m (by simp)
    have hstream : stream (m :: ms) ++ tail = le32 m.length ++ (m ++ (stream ms ++ tail)) := by
      simp [stream, frame]
    obtain ⟨s', hh⟩ := Frame.readHeader_ok ⟨⟨stream (m :: ms) ++ tail, sched, fin⟩, 0⟩
      rfl m.length (m ++ (stream ms ++ tail)) (by omega) hstream
    rw [if_neg (by omega)] at hh
    obtain ⟨i, sched', cap', i1, i2, i3, _⟩ := Rpc.readValue_spec Rpc.json m [] (stream ms ++ tail) m.length
      (m.length + 3) Rpc.json.start [] m 0 cap s' fin rfl h1 (by simp) (by simp) (by simp)
      (by omega) (by simp)
    have hi : i = 0 := by simpa using i1
    subst hi
    simp at i3
    obtain ⟨cap2, sched2, e⟩ := ih fuel cap' sched' fun m' hm' => hm m' (by simp [hm'])
    refine ⟨cap2, sched2, ?_⟩
    rw [List.length_cons, Nat.add_right_comm]
    rw [serve]
    simp only [hh]
    rw [i3]
    simp only [h2, if_true]
    rw [e]
    rfl

/-- C80: a frame with anything that does not begin with a text of a request ends the session.  Requests
before it are read, anything after it is not. -/
theorem c80_ends {xs : List Bytes} {rs : List (Request Json Json)} (h : Tight xs rs) {y : Bytes}
    (hy : ∀ x r, x <+: y → ¬AsksText r x) (hl : y.length ≤ 2 ^ 30)
    (rest : Bytes) (sched : List Nat) (fin : Frame.SrcErr) :
    All₂ SameRequest (requests ⟨stream xs ++ frame y ++ rest, sched, fin⟩) rs := by
  have hx : ∀ m ∈ xs, Rpc.Completes Rpc.json Rpc.json.start m ∧ (request m).isSome = true ∧
      m.length ≤ 2 ^ 30 := by
    intro m hm
    obtain ⟨r, -, w, y, vs, h1, h2, h3, rfl, h4⟩ := all₂_back h hm
    obtain ⟨b, hb, -⟩ := request_of (r := r) (x := w ++ y) ⟨vs, ⟨w, y, [], h1, h2, Rpc.blank_nil, by simp⟩, h3⟩
    exact ⟨completes_text h1 h2, by rw [hb]; rfl, h4⟩
  have hs := c69_requests (tight_sent h) sched fin
  rw [requests, Rpc.c08_session_partial Rpc.json _ fin xs sched hx] at hs
  have hlen : xs.length ≤ (stream xs).length := by
    clear hs hx h
    induction xs with
    | nil => simp
    | cons m ms ih => simp [stream, frame, le32] at ih ⊢; omega
  have key : (Rpc.session Rpc.json (fun s => (request s).isSome)
      ⟨stream xs ++ frame y ++ rest, sched, fin⟩).1 = xs := by
    unfold Rpc.session
    obtain ⟨f, hf⟩ : ∃ f, (stream xs ++ frame y ++ rest).length + 1 = xs.length + (f + 1) :=
      ⟨(stream xs ++ frame y ++ rest).length - xs.length, by simp only [List.length_append]; omega⟩
    simp only [hf]
    rw [List.append_assoc]
    obtain ⟨cap, sched', e⟩ := serve_after (fun s => (request s).isSome) fin (frame y ++ rest) xs (f + 1) 0 sched
      (fun m hm => ⟨(hx m hm).1, (hx m hm).2.1, by simpa [Frame.maxInSize] using (hx m hm).2.2⟩)
    have e' := e
    simp only [Decoder.new, Frame.newReader]
    rw [e']
    suffices hz : (serve Rpc.json (fun s => (request s).isSome) (f + 1) ⟨[], cap⟩
        ⟨⟨frame y ++ rest, sched', fin⟩, 0⟩).1 = [] by
      simp only [hz, List.append_nil]
    obtain ⟨s', hh⟩ := Frame.readHeader_ok ⟨⟨frame y ++ rest, sched', fin⟩, 0⟩ rfl y.length (y ++ rest)
      (by omega) (by simp [frame])
    rw [if_neg (by simp only [Frame.maxInSize]; omega)] at hh
    rw [serve]
    simp only [hh]
    cases hv : readValue Rpc.json (y.length + 3) Rpc.json.start 0 none ⟨[], cap⟩ ⟨⟨y ++ rest, s', fin⟩, y.length⟩ with
    | mk d' z =>
      obtain ⟨r', o⟩ := z
      cases o with
      | error e => rfl
      | ok v =>
        obtain ⟨got, g1, g2, -, g4, g5⟩ := readValue_any _ _ _ _ _ _ _ _ _ hv (Nat.zero_le _) rfl
        simp only
        split
        · rename_i hacc
          exfalso
          simp only [List.nil_append] at g1
          simp only at g2 g4
          obtain ⟨b, hb⟩ := Option.isSome_iff_exists.1 hacc
          obtain ⟨u, hu⟩ := text_of g5
          obtain ⟨r, ha, -⟩ := request_back hu hb
          refine hy v r ?_ ⟨u, hu, ha⟩
          have h1 : v <+: got := ⟨_, g1⟩
          have h2 : got <+: y := by
            have : got <+: y ++ rest := ⟨_, g2.symm⟩
            exact List.prefix_of_prefix_length_le this (List.prefix_append _ _) g4
          exact h1.trans h2
        · rfl
  rw [requests, key]
  exact hs

/-! ### Hypotheses are met -/

theorem payload_frame {x p : Bytes} (h : Payload 0 (le32 x.length ++ x) p) (hl : x.length < 2 ^ 32) : p <+: x := by
  have key : ∀ {n : Nat} {x p : Bytes}, Payload n x p → n = x.length → p <+: x := by
    intro n x p h
    induction h with
    | stop => intro _; exact List.nil_prefix
    | byte _ ih => intro hn; exact (List.prefix_cons_inj _).2 (ih (by simpa using hn))
    | header _ _ _ => intro hn; simp [le32] at hn
  generalize hz : le32 x.length ++ x = z at h
  generalize hn : 0 = n at h
  cases h with
  | stop => exact List.nil_prefix
  | byte _ => cases hn
  | @header k y p hk hp =>
    have e : ∀ (m : Nat) (b : Bytes), m < 2 ^ 32 → Frame.getU32 ((le32 m ++ b).take 4) = m := by
      intro m b hm
      rw [show (le32 m ++ b).take 4 = le32 m from rfl]
      simp only [le32, Frame.getU32, UInt8.toNat_ofNat']
      omega
    have hlen : k = x.length := by
      have := congrArg (fun z => Frame.getU32 (z.take 4)) hz
      rw [e _ _ hl, e _ _ (by omega)] at this
      exact this.symm
    subst hlen
    have := List.append_cancel_left hz
    subst this
    exact key hp rfl

theorem heard_part {data : Bytes} {rs : List (Request Json Json)} (h : Heard data rs) {r : Request Json Json}
    (hr : r ∈ rs) : ∃ p x, Payload 0 data p ∧ x <:+: p ∧ AsksText r x := by
  obtain ⟨xs, rest, hp, ha⟩ := h
  have : ∃ x, x <:+: xs.flatten ++ rest ∧ AsksText r x := by
    clear hp
    induction ha with
    | nil => cases hr
    | @cons x r' xs rs hx _ ih =>
      rcases List.mem_cons.1 hr with rfl | hr
      · exact ⟨x, ⟨[], xs.flatten ++ rest, by simp⟩, hx⟩
      · obtain ⟨y, ⟨a, b, e⟩, hy⟩ := ih hr
        exact ⟨y, ⟨x ++ a, b, by rw [List.flatten_cons, List.append_assoc x xs.flatten, ← e]; simp⟩, hy⟩
  obtain ⟨x, h1, h2⟩ := this
  exact ⟨_, x, hp, h1, h2⟩

/-- Two requests in bytes with a frame that is cut, one of them in two frames. -/
example : Heard (frame (utf8 "{\"id\":".toList) ++ (frame (utf8 "1} null".toList) ++ [9, 0]))
    [⟨some (.num 1), [], none⟩, ⟨none, [], none⟩] := by
  refine ⟨[utf8 "{\"id\":1}".toList, utf8 " null".toList], [], ?_, .cons ⟨_, says_this (v := .obj [("id".toList, .num 1)])
    (by decide +kernel), .inr ⟨_, rfl, ?_⟩⟩ (.cons ⟨_, says_this (v := .null) (by decide +kernel), .inl ⟨rfl, rfl⟩⟩ .nil)⟩
  · have e : [utf8 "{\"id\":1}".toList, utf8 " null".toList].flatten ++ [] =
        utf8 "{\"id\":".toList ++ (utf8 "1} null".toList ++ []) := by decide +kernel
    rw [e, frame, List.append_assoc]
    refine .header (by decide +kernel) (payload_append (Nat.le_refl _) ?_)
    rw [Nat.sub_self, frame, List.append_assoc]
    exact .header (by decide +kernel) (payload_append (Nat.le_refl _) .stop)
  · refine ⟨?_, ?_, ?_⟩
    · rw [show membersNamed "method" [("id".toList, .num 1)] = [] from rfl]; exact .done
    · rw [show membersNamed "params" [("id".toList, .num 1)] = [] from rfl]; exact .done
    · rw [show membersNamed "id" [("id".toList, .num 1)] = [.num 1] from rfl]; exact .value (by simp) rfl .done

/-- Bytes for `c80_alive_partial`: requests in `nullx` have no parameters. -/
example (e : Backend.Env) : ∀ rs, Heard (frame (utf8 "nullx".toList)) rs → ∀ r ∈ rs, ∀ q,
    Backend.Spec.Says r .urlMentions (.urlMentions q) → Backend.Spec.Modest e q := by
  intro rs h r hr q hq
  obtain ⟨p, x, hp, hx, v, hv, ha⟩ := heard_part h hr
  have hx : x <:+: utf8 "nullx".toList := hx.trans (payload_frame hp (by decide +kernel)).isInfix
  have hall : ∀ y ∈ (utf8 "nullx".toList).tails.flatMap List.inits, (unmarshal y).all (same .null) = true := by
    decide +kernel
  obtain ⟨t, ht, hs⟩ := List.infix_iff_prefix_suffix.1 hx
  have := hall x (List.mem_flatMap.2 ⟨t, (List.mem_tails _ _).2 hs, (List.mem_inits _ _).2 ht⟩)
  rw [c68_exact.2 hv] at this
  have := same_eq (by simpa using this)
  subst this
  rcases ha with ⟨-, rfl⟩ | ⟨ms, h, -⟩
  · obtain ⟨p, h, -⟩ := hq; cases h
  · cases h

/-- A frame for `c80_ends`: nothing at the beginning of `[{}x` is a request. -/
example : ∀ x r, x <+: utf8 "[{}x".toList → ¬AsksText r x := by
  rintro x r hx ⟨v, hv, -⟩
  have hall : ∀ y ∈ (utf8 "[{}x".toList).inits, (unmarshal y).isNone = true := by decide +kernel
  have := hall x ((List.mem_inits _ _).2 hx)
  rw [c68_exact.2 hv] at this
  cases this

end Burl.JsonText
