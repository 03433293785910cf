import Verif.JsonText.SessionProps
import Verif.Rpc.BeginningProps
/-! Sessions whose input may be cut, with white space after any request (C69). -/
namespace Burl.JsonText
open Burl
open Burl.Json (Json)
open Burl.Rpc.Spec (Blank Padded)
open Burl.Rpc.Server (Request Reply Body Answers Matched State start)
open Burl.Frame.Spec (stream)
open Burl.Extract (All₂)
open Burl.JsonText.Spec

namespace Spec

/-- Frames with texts of requests; there may be white space anywhere. -/
def Framed (xs : List Bytes) (rs : List (Request Json Json)) : Prop :=
  All₂ (fun x r => RequestText r x ∧ x.length < 2 ^ 32) xs rs

end Spec

/-- Texts without white space after them, this white space. -/
theorem framed_split {xs : List Bytes} {rs : List (Request Json Json)} (h : Framed xs rs) :
    ∃ ms : List (Bytes × Bytes), xs = ms.map (fun m => m.1 ++ m.2) ∧
      (∀ m ∈ ms, Rpc.Completes Rpc.json Rpc.json.start m.1 ∧ m.2.all Rpc.isSpace = true ∧
        m.1.length + m.2.length < 2 ^ 32) ∧
      ∀ lead, Blank lead → All₂ (fun y r => RequestText r y) (Rpc.withLead lead ms) rs := by
  induction h with
  | nil => exact ⟨[], rfl, by simp, fun _ _ => .nil⟩
  | @cons x r xs rs hx _ ih =>
    obtain ⟨ms, rfl, h1, h2⟩ := ih
    obtain ⟨⟨vs, ⟨w, y, w', hw, hy, hw', rfl⟩, hs⟩, hl⟩ := hx
    simp only [List.length_append] at hl
    refine ⟨(w ++ y, w') :: ms, by simp, ?_, fun lead hlead => ?_⟩
    · intro m hm
      rcases List.mem_cons.1 hm with rfl | hm
      · exact ⟨completes_text hw hy, Rpc.Blank.all hw', by simp only [List.length_append]; omega⟩
      · exact h1 m hm
    · rw [Rpc.withLead]
      refine .cons ⟨vs, ⟨lead ++ w, y, [], ?_, hy, Rpc.blank_nil, by simp⟩, hs⟩ (h2 w' hw')
      intro b hb
      rcases List.mem_append.1 hb with hb | hb
      · exact hlead b hb
      · exact hw b hb

theorem all₂_take {α β : Type} {R : α → β → Prop} {as : List α} {bs : List β} (h : All₂ R as bs) (n : Nat) :
    All₂ R (as.take n) (bs.take n) := by
  induction h generalizing n with
  | nil => simpa using All₂.nil
  | cons hr _ ih =>
    cases n with
    | zero => exact .nil
    | succ n => exact .cons hr (ih n)

/-- Requests that are read are a beginning of those that have been sent. -/
theorem c69_requests_beginning {xs : List Bytes} {rs : List (Request Json Json)} (h : Framed xs rs)
    {data : Bytes} (hd : data <+: stream xs) (sched : List Nat) (fin : Frame.SrcErr) :
    ∃ n, All₂ SameRequest (requests ⟨data, sched, fin⟩) (rs.take n) := by
  obtain ⟨ms, rfl, h1, h2⟩ := framed_split h
  have hp := Rpc.c08_beginning (fun s => (request s).isSome) fin ms h1 hd sched
  have h3 := all₂_take (h2 [] Rpc.blank_nil)
    (Rpc.session Rpc.json (fun s => (request s).isSome) ⟨data, sched, fin⟩).1.length
  rw [← List.prefix_iff_eq_take.1 hp] at h3
  refine ⟨(Rpc.session Rpc.json (fun s => (request s).isSome) ⟨data, sched, fin⟩).1.length, ?_⟩
  rw [requests]
  generalize rs.take _ = qs at h3
  generalize (Rpc.session Rpc.json (fun s => (request s).isSome) ⟨data, sched, fin⟩).1 = ys at h3
  induction h3 with
  | nil => exact .nil
  | cons hs _ ih =>
    obtain ⟨b, hb, hsame⟩ := request_of hs
    rw [List.filterMap_cons, hb]
    exact .cons hsame ih

/-- C69, whatever white space there is in frames, wherever the input has been cut and however long requests
are: what the backend has written is frames with JSON texts.  Every text is a reply to a request of its
own, it has the identifier of this request and says what the method returns. -/
theorem c69_beginning (short : Bool) {e : Backend.Env} {xs : List Bytes}
    {rs : List (Request Json Json)} (hr : Framed xs rs) {data : Bytes} (hd : data <+: stream xs)
    {sched : List Nat} {fin : Frame.SrcErr} {n : Nat} {s : State Bytes Bytes Backend.Arg Json}
    (h : Rpc.Server.Steps (textWorld e) (start (requests ⟨data, sched, fin⟩)) n s)
    (hlen : ∀ p ∈ s.out, (replyText short p).length < 2 ^ 32) :
    ∃ us ks, written short s.out = stream (us.map fun u => u.text ++ [10]) ∧ Replied (Backend.world e) rs us ks := by
  obtain ⟨m, hsame⟩ := c69_requests_beginning hr hd sched fin
  obtain ⟨ks, hm⟩ := Rpc.Server.c59_replies h
  obtain ⟨us, h1, h2⟩ := reply_texts short whole_answers hsame hm
  refine ⟨us, ks, ?_, h2.length, h2.once, fun i k u hk hu => ?_⟩
  · rw [written, Frame.c01_wire _ _ (by
      intro m hm
      obtain ⟨p, hp, rfl⟩ := List.mem_map.mp hm
      exact hlen p hp), h1]
    simp
  · obtain ⟨h3, r, b, h4, h5⟩ := h2.answers i k u hk hu
    refine ⟨h3, r, b, ?_, h5⟩
    have hlt := (List.getElem?_eq_some_iff.1 h4).1
    rw [List.length_take] at hlt
    rwa [List.getElem?_take_of_lt (by omega)] at h4

/-- Hypotheses are met: a request with a newline, the next one has been cut. -/
example : ∃ xs rs data n s, Framed xs rs ∧ rs.length = 2 ∧ data <+: stream xs ∧ data ≠ stream xs ∧
    Rpc.Server.Steps (textWorld Backend.exTwo) (start (requests ⟨data, [], .eof⟩)) n s ∧
    s.out.map (replyText true) =
      ["{\"id\":9,\"result\":true,\"error\":null}\n".toList.flatMap putRune] := by
  obtain ⟨n, s, -, h2, h3, h4, h5, h6⟩ := example_visit
  have ht : enc true (object (.num 9) exParams "burl.visit".toList) = exText := by decide +kernel
  have hf : RequestText ⟨some (.num 9), "burl.visit".toList, some exParams⟩ (exText ++ [10]) := by
    rw [← ht]
    refine ⟨_, ⟨[], _, [10], Rpc.blank_nil, c68_encode true (d := 10000)
      (by simp [exParams, Plain, AllPlain, MembersPlain]), by simp [Blank], rfl⟩,
      .value (by simp) rfl .done, .value (by simp [exParams]) rfl .done, .value (by simp) rfl .done⟩
  have hl : (exText ++ [10]).length < 2 ^ 32 := by decide +kernel
  refine ⟨[exText ++ [10], exText ++ [10]], _, (stream [exText ++ [10], exText ++ [10]]).take 90, n, s,
    .cons ⟨hf, hl⟩ (.cons ⟨hf, hl⟩ .nil), rfl, List.take_prefix _ _, ?_, ?_, h6⟩
  · intro h
    exact absurd (congrArg List.length h) (by decide +kernel)
  · have hx : ∀ a b : List (Request Bytes Bytes),
        a.map (fun r => (r.id, r.method, r.params)) = b.map (fun r => (r.id, r.method, r.params)) → a = b := by
      intro a b h
      induction a generalizing b with
      | nil => cases b with
        | nil => rfl
        | cons => simp at h
      | cons x a ih => cases b with
        | nil => simp at h
        | cons y b =>
          simp only [List.map_cons, List.cons.injEq, Prod.mk.injEq] at h
          obtain ⟨⟨h1, h2, h3⟩, h4⟩ := h
          obtain ⟨i, m, p⟩ := x
          obtain ⟨i', m', p'⟩ := y
          simp only at h1 h2 h3
          rw [h1, h2, h3, ih b h4]
    rw [hx (requests ⟨(stream [exText ++ [10], exText ++ [10]]).take 90, [], .eof⟩)
      (requests ⟨stream [exText], [], .eof⟩) (by decide +kernel)]
    exact h2

end Burl.JsonText
