import Verif.JsonText.BeginningProps
import Verif.Rpc.RejectProps
/-! JSON texts that are not requests (C69). -/
namespace Burl.JsonText
open Burl
open Burl.Json (Json)
open Burl.Rpc.Spec (Blank Padded)
open Burl.Rpc.Server (Request Reply Body Answers Matched State start)
open Burl.Frame.Spec (stream frame)
open Burl.Extract (All₂)
open Burl.JsonText.Spec

namespace Spec

/-- Frames with texts of requests; nothing follows a request in its frame. -/
def Tight (xs : List Bytes) (rs : List (Request Json Json)) : Prop :=
  All₂ (fun x r => ∃ w y vs, Blank w ∧ TextFor 10000 (.obj vs) y ∧ Says vs r ∧ x = w ++ y ∧
    x.length ≤ 2 ^ 30) xs rs

end Spec

theorem tight_sent {xs : List Bytes} {rs : List (Request Json Json)} (h : Tight xs rs) : Sent xs rs := by
  induction h with
  | nil => exact .nil
  | cons h _ ih =>
    obtain ⟨w, y, vs, h1, h2, h3, rfl, h4⟩ := h
    exact .cons h1 h2 h3 h4 ih

theorem textFor_arr {d : Nat} {vs : List Json} {x : Bytes} (h : TextFor d (.arr vs) x) :
    ∃ ts : List Text, (Rpc.Spec.Json.arr ts).ok d = true ∧ (Rpc.Spec.Json.arr ts).Writes x := by
  obtain ⟨t, h1, h2, h3⟩ := h
  cases t with
  | arr ts => exact ⟨ts, h1, h3⟩
  | num n => rw [Means, numValue] at h2; split at h2 <;> cases h2
  | _ => simp [Means] at h2

theorem request_none {v : Json} {w y w' : Bytes} (hw : Blank w) (hy : TextFor 10000 v y)
    (hv : NoRequest v) : request (w ++ (y ++ w')) = none := by
  rcases hv with ⟨vs, rfl⟩ | ⟨ms, rfl, h⟩
  · obtain ⟨ts, -, h⟩ := textFor_arr hy
    rw [Rpc.Spec.Json.Writes] at h
    obtain ⟨z, -, rfl⟩ := h
    rw [request, skip_blank hw, List.cons_append, skip_head (by decide)]
    simp
  · obtain ⟨xs, e, ht⟩ := request_obj (w' := w') hy hw
    rw [e, header_none ht h]

theorem completes_value {v : Json} {w y : Bytes} (hw : Blank w) (hy : TextFor 10000 v y)
    (hv : NoRequest v) : Rpc.Completes Rpc.json Rpc.json.start (w ++ y) := by
  rcases hv with ⟨vs, rfl⟩ | ⟨ms, rfl, h⟩
  · obtain ⟨ts, h1, h2⟩ := textFor_arr hy
    exact Rpc.completes_lead (Rpc.completes_arr h1 h2) w (Rpc.Blank.all hw)
  · exact completes_text hw hy

/-- C69: an array, or an object whose method is neither a string nor `null`, ends the session.  Requests
before it are read, anything after it is not. -/
theorem c69_refused {xs : List Bytes} {rs : List (Request Json Json)} (h : Tight xs rs) {v : Json}
    (hv : NoRequest v) {y : Bytes} (hy : Padded (TextFor 10000 v) y) (hl : y.length ≤ 2 ^ 30)
    (rest : Bytes) (sched : List Nat) (fin : Frame.SrcErr) :
    All₂ SameRequest (requests ⟨stream xs ++ frame y ++ rest, sched, fin⟩) rs := by
  obtain ⟨w, y, w', hw, hy, -, rfl⟩ := hy
  have hx : ∀ m ∈ xs, Rpc.Completes Rpc.json Rpc.json.start m ∧ (request m).isSome = true ∧
      m.length ≤ 2 ^ 30 := by
    intro m hm
    obtain ⟨r, -, w, y, vs, h1, h2, h3, rfl, h4⟩ := all₂_back h hm
    obtain ⟨b, hb, -⟩ := request_of (r := r) (x := w ++ y) ⟨vs, ⟨w, y, [], h1, h2, Rpc.blank_nil, by simp⟩, h3⟩
    exact ⟨completes_text h1 h2, by rw [hb]; rfl, h4⟩
  have ha : (request (w ++ y)).isSome = false := by
    have := request_none (w' := []) hw hy hv
    rw [List.append_nil] at this
    rw [this]; rfl
  have key := Rpc.c08_reject Rpc.json (fun s => (request s).isSome) fin xs (w ++ y) w' rest sched hx
    (completes_value hw hy hv) ha (by simp only [List.length_append] at hl ⊢; omega)
  have hs := c69_requests (tight_sent h) sched fin
  rw [requests] at hs ⊢
  rw [Rpc.c08_session_partial Rpc.json _ fin xs sched hx] at hs
  rw [List.append_assoc w] at key
  rw [key]
  exact hs

/-- Hypotheses are met: an array after a request with two methods, one of them null. -/
example : ∃ xs rs y, Tight xs rs ∧ Padded (TextFor 10000 (.arr [.num 1])) y ∧ NoRequest (.arr [.num 1]) ∧
    y.length ≤ 2 ^ 30 ∧ rs = [⟨some (.num 9), "burl.hello".toList, none⟩] := by
  refine ⟨[enc true (.obj [("METHOD".toList, .str "burl.visit".toList), ("id".toList, .num 9),
    ("method".toList, .str "burl.hello".toList), ("method".toList, .null)])], _, enc true (.arr [.num 1]),
    .cons ⟨[], _, _, by simp [Blank], c68_encode true (d := 10000) (by simp [Plain, MembersPlain]), ?_, rfl, ?_⟩ .nil,
    Rpc.Padded.self (c68_encode true (by simp [Plain, AllPlain])), .inl ⟨_, rfl⟩, ?_, rfl⟩
  · have e1 : membersNamed "method" [("METHOD".toList, .str "burl.visit".toList), ("id".toList, .num 9),
        ("method".toList, .str "burl.hello".toList), ("method".toList, .null)] =
        [.str "burl.visit".toList, .str "burl.hello".toList, .null] := by rfl
    have e2 : membersNamed "params" [("METHOD".toList, .str "burl.visit".toList), ("id".toList, .num 9),
        ("method".toList, .str "burl.hello".toList), ("method".toList, .null)] = [] := by rfl
    have e3 : membersNamed "id" [("METHOD".toList, .str "burl.visit".toList), ("id".toList, .num 9),
        ("method".toList, .str "burl.hello".toList), ("method".toList, .null)] = [.num 9] := by rfl
    refine ⟨?_, ?_, ?_⟩
    · rw [e1]; exact .value (by simp) rfl (.value (by simp) rfl (.null .done))
    · rw [e2]; exact .done
    · rw [e3]; exact .value (by simp) rfl .done
  · decide +kernel
  · decide +kernel

end Burl.JsonText
