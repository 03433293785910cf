import Verif.JsonText.AnyProps
import Verif.JsonText.ClientProps
/-! Clients in Go given arbitrary bytes by a backend that may be broken or hostile (C82). -/
namespace Burl.JsonText
open Burl
open Burl.Json (Json)
open Burl.Rpc (Decoder readValue serve)
open Burl.Rpc.Spec (Blank Padded)
open Burl.Rpc.Client (Message ErrField Numbered)
open Burl.Frame (Reader)
open Burl.Frame.Spec (frame)
open Burl.Extract (All₂)
open Burl.Backend.Spec (Latest)
open Burl.JsonText.Spec

namespace Spec

/-- A number of a call, whatever was there before. -/
def TakesId (_ : Nat) (v : Json) (n : Nat) : Prop := v = .num n ∧ n < 2 ^ 64

/-- An error, whatever was there before. -/
inductive TakesErr (old : ErrField) : Json → ErrField → Prop where
  | text {s} : TakesErr old (.str s) (.text s)
  | other {v} : (∀ s, v ≠ .str s) → TakesErr old v .other

/-- A value is a reply: an object, or `null` as an object without members.  Letter case of names is
ignored.  The last of members with one name counts; `null` in place of a number changes nothing. -/
inductive Reports : Json → Message Json → Prop where
  | null : Reports .null ⟨0, none, .absent⟩
  | obj {ms m} : Latest TakesId id 0 (membersNamed "id" ms) m.id → MayBe (membersNamed "result" ms) m.result →
      Latest TakesErr (fun _ => .absent) .absent (membersNamed "error" ms) m.error → Reports (.obj ms) m

/-- Bytes are a JSON text of a reply. -/
def ReportsText (m : Message Json) (x : Bytes) : Prop := ∃ v, Padded (TextFor 10000 v) x ∧ Reports v m

/-- Replies that are written in bytes: texts of them one after another, interrupted by headers of frames
only. -/
def Told (data : Bytes) (ms : List (Message Json)) : Prop :=
  ∃ xs rest, Payload 0 data (xs.flatten ++ rest) ∧ All₂ (fun x m => ReportsText m x) xs ms

/-- A reply whose result is a text. -/
structure SameMessage (a : Message Bytes) (b : Message Json) : Prop where
  id : a.id = b.id
  result : TextOf a.result b.result
  error : a.error = b.error

/-- The reply that a call with a number gets: the first one for this number of those that are not among the
given number of replies that came before the number was given. -/
def FirstFor (n before : Nat) (ms : List (Message Json)) (m : Message Json) : Prop :=
  ∃ a b, ms.drop before = a ++ m :: b ∧ m.id = n ∧ ∀ x ∈ a, x.id ≠ n

end Spec

/-! ### Replies -/

theorem minus_head {d : Nat} {n : Int} {x : Bytes} (h : TextFor d (.num n) x) (hn : n < 0) :
    x.head? = some 45 := by
  obtain ⟨t, ht, hm, hx⟩ := h
  cases t with
  | num k =>
    rw [Means, numValue] at hm
    split at hm
    · injection hm with hm
      rw [Rpc.Spec.Json.Writes] at hx
      subst hx
      split at hm
      · rename_i hneg
        rw [Rpc.Spec.Num.text, hneg]
        rfl
      · omega
    · cases hm
  | _ => simp [Means] at hm

theorem fields_back {xs : List (Str × Bytes)} {vs : List (Str × Json)} (hx : Texts xs vs)
    {b : Message Bytes} : ∀ {a : Message Bytes} {o : Option Json}, fields xs a = some b → TextOf a.result o →
    ∃ m : Message Json, Latest TakesId id a.id (membersNamed "id" vs) m.id ∧
      Latest (fun _ v o => o = some v) (fun _ => none) o (membersNamed "result" vs) m.result ∧
      Latest TakesErr (fun _ => .absent) a.error (membersNamed "error" vs) m.error ∧ SameMessage b m := by
  induction hx with
  | nil =>
    intro a o h h1
    cases h
    exact ⟨⟨b.id, o, b.error⟩, .done, .done, .done, rfl, h1, rfl⟩
  | @cons k v x xs vs hok hx ih =>
    intro a o h h1
    simp only [named_cons "id" (by decide), named_cons "result" (by decide), named_cons "error" (by decide)]
    rw [fields] at h
    by_cases g1 : Backend.sameName "id".toList k = true
    · have g2 := sameName_excl (b := "result".toList) (by decide) g1
      have g3 := sameName_excl (b := "error".toList) (by decide) g1
      rw [if_pos g1, uintField, parse_of hok] at h
      simp only [g1, g2, g3, if_true, Bool.false_eq_true, if_false]
      cases v with
      | num n =>
        simp only at h
        split at h
        · cases h
        · rename_i hn
          obtain ⟨m, e1, e2, e3, e4⟩ := ih h h1
          have hneg : 0 ≤ n := by
            refine Classical.byContradiction fun hc => hn (.inl ?_)
            exact minus_head hok (by omega)
          obtain ⟨k, rfl⟩ := Int.eq_ofNat_of_zero_le hneg
          refine ⟨m, .value (by simp) ⟨rfl, ?_⟩ e1, e2, e3, e4⟩
          have := Classical.not_not.1 (not_or.1 hn).2
          exact_mod_cast this
      | null =>
        obtain ⟨m, e1, e2, e3, e4⟩ := ih h h1
        exact ⟨m, .null e1, e2, e3, e4⟩
      | _ => cases h
    rw [if_neg g1] at h
    simp only [g1]
    by_cases g2 : Backend.sameName "result".toList k = true
    · have g3 := sameName_excl (b := "error".toList) (by decide) g2
      rw [if_pos g2] at h
      obtain ⟨p, hp, hl⟩ := mayBe_some hok
      obtain ⟨m, e1, e2, e3, e4⟩ := ih (a := { a with result := rawField x }) h hp
      simp only [g2, g3, if_true, Bool.false_eq_true, if_false]
      exact ⟨m, e1, hl e2, e3, e4⟩
    rw [if_neg g2] at h
    simp only [g2]
    by_cases g3 : Backend.sameName "error".toList k = true
    · rw [if_pos g3, errField, parse_of hok] at h
      simp only [g3, if_true, Bool.false_eq_true, if_false]
      cases v with
      | null =>
        obtain ⟨m, e1, e2, e3, e4⟩ := ih h h1
        exact ⟨m, e1, e2, .null e3, e4⟩
      | str s =>
        obtain ⟨m, e1, e2, e3, e4⟩ := ih h h1
        exact ⟨m, e1, e2, .value (by simp) .text e3, e4⟩
      | _ =>
        obtain ⟨m, e1, e2, e3, e4⟩ := ih h h1
        exact ⟨m, e1, e2, .value (by simp) (.other (by simp)) e3, e4⟩
    rw [if_neg g3] at h
    simp only [g3]
    obtain ⟨m, e1, e2, e3, e4⟩ := ih h h1
    exact ⟨m, by simpa using e1, by simpa using e2, by simpa using e3, e4⟩

theorem response_obj {vs : List (Str × Json)} {x w' : Bytes} (hx : TextFor 10000 (.obj vs) x) {w : Bytes}
    (hw : Blank w) : ∃ xs, response (w ++ (x ++ w')) = fields xs ⟨0, none, .absent⟩ ∧ Texts xs vs := by
  obtain ⟨kvs, hok, hm, hx⟩ := textFor_obj hx
  rw [Rpc.Spec.Json.ok] at hok
  rw [Rpc.Spec.Json.Writes] at hx
  obtain ⟨y, hy, rfl⟩ := hx
  cases kvs with
  | nil =>
    rw [MembersMean] at hm; subst hm
    rw [Rpc.Spec.objWrites] at hy
    refine ⟨[], ?_, .nil⟩
    rw [response, skip_blank hw, List.cons_append, skip_head (by decide)]
    simp only [if_true, List.append_assoc, List.cons_append, List.nil_append]
    rw [skip_blank hy, skip_head (by decide)]
    simp
  | cons m ms =>
    obtain ⟨k, t⟩ := m
    obtain ⟨xs, e, hx⟩ := rawMembers_of k t ms vs hok hm y hy
      (w ++ (123 :: (y ++ [125]) ++ w')).length w'
      (by simp only [List.length_cons, List.length_append]; omega)
    refine ⟨xs, ?_, hx⟩
    obtain ⟨w'', bs, hh1, hh⟩ := Rpc.objWrites_head hy
    rw [response, skip_blank hw, List.cons_append, skip_head (by decide)]
    simp only [if_true, List.append_assoc, List.cons_append, List.nil_append] at e ⊢
    rw [e, if_neg]
    · rfl
    · rw [hh, List.append_assoc, skip_blank hh1, List.cons_append, skip_head (by decide)]
      simp

theorem response_back {v : Json} {x : Bytes} (hx : Padded (TextFor 10000 v) x) {b : Message Bytes}
    (h : response x = some b) : ∃ m, Reports v m ∧ SameMessage b m := by
  obtain ⟨w, y, w', hw, hy, -, rfl⟩ := hx
  cases v with
  | obj vs =>
    obtain ⟨xs, e, ht⟩ := response_obj (w' := w') hy hw
    rw [e] at h
    obtain ⟨m, e1, e2, e3, e4⟩ := fields_back ht (o := none) h trivial
    exact ⟨m, .obj e1 e2 e3, e4⟩
  | arr vs =>
    exfalso
    obtain ⟨ts, -, hy⟩ := textFor_arr hy
    rw [Rpc.Spec.Json.Writes] at hy
    obtain ⟨z, -, rfl⟩ := hy
    rw [response, skip_blank hw, List.cons_append, skip_head (by decide)] at h
    simp at h
  | null =>
    refine ⟨⟨0, none, .absent⟩, .null, ?_⟩
    obtain ⟨t, ht, hm, hy⟩ := hy
    cases t with
    | null =>
      rw [Rpc.Spec.Json.Writes] at hy
      subst hy
      rw [response, skip_blank hw, show Rpc.Spec.bytesOf "null" = 110 :: [117, 108, 108] from rfl,
        List.cons_append, skip_head (by decide)] at h
      simp at h
      subst h
      exact ⟨rfl, trivial, rfl⟩
    | num n => rw [Means, numValue] at hm; split at hm <;> cases hm
    | _ => simp [Means] at hm
  | _ =>
    exfalso
    obtain ⟨t, ht, hm, hy⟩ := hy
    obtain ⟨c, cs, e, -, hs⟩ := Rpc.writes_head ht hy
    rw [response, skip_blank hw, e, List.cons_append, skip_head hs] at h
    cases t with
    | null => simp [Means] at hm
    | arr _ => simp [Means] at hm
    | obj _ => simp [Means] at hm
    | bool x =>
      cases x with
      | true =>
        rw [Rpc.Spec.Json.Writes, e, show Rpc.Spec.bytesOf "true" = 116 :: [114, 117, 101] from rfl] at hy
        injection hy with hy
        subst hy
        simp at h
      | false =>
        rw [Rpc.Spec.Json.Writes, e, show Rpc.Spec.bytesOf "false" = 102 :: [97, 108, 115, 101] from rfl] at hy
        injection hy with hy
        subst hy
        simp at h
    | str ps =>
      rw [Rpc.Spec.Json.Writes, Rpc.Spec.strText] at hy
      rw [e] at hy
      cases hy
      simp at h
    | num n =>
      rw [Rpc.Spec.Json.Writes] at hy
      obtain ⟨b, bs, g1, -, -, g2, -, g3, -⟩ := num_head (n := n) (by simpa [Rpc.Spec.Json.ok] using ht)
      rw [e, g1] at hy
      cases hy
      simp [g2, g3] at h

/-- C82: whatever bytes come from a backend and however they arrive, replies that a client reads are written
there, in this order and once each. -/
theorem c82_replies (data : Bytes) (sched : List Nat) (fin : Frame.SrcErr) :
    ∃ ms, Told data ms ∧ All₂ SameMessage (responses ⟨data, sched, fin⟩) ms := by
  obtain ⟨p, hp, ⟨rest, hf⟩, hall⟩ := serve_any (fun s => (response s).isSome) (data.length + 1) Decoder.new
    (Frame.newReader ⟨data, sched, fin⟩)
  rw [responses, Rpc.session]
  generalize (serve Rpc.json (fun s => (response s).isSome) (data.length + 1) Decoder.new
    (Frame.newReader ⟨data, sched, fin⟩)).1 = xs at hf hall ⊢
  have key : ∃ ms, All₂ (fun x m => ReportsText m x) xs ms ∧ All₂ SameMessage (xs.filterMap response) ms := by
    clear hf
    induction xs with
    | nil => exact ⟨[], .nil, .nil⟩
    | cons x xs ih =>
      obtain ⟨ms, h1, h2⟩ := ih fun x hx => hall x (by simp [hx])
      obtain ⟨ha, hv⟩ := hall x (by simp)
      obtain ⟨v, hv⟩ := text_of hv
      obtain ⟨b, hb⟩ := Option.isSome_iff_exists.1 ha
      obtain ⟨m, g1, g2⟩ := response_back hv hb
      rw [List.filterMap_cons, hb]
      exact ⟨m :: ms, .cons ⟨v, hv, g1⟩ h1, .cons g2 h2⟩
  obtain ⟨ms, h1, h2⟩ := key
  refine ⟨ms, ⟨xs, rest, ?_, h1⟩, h2⟩
  rw [hf]
  exact hp

theorem same_find {as : List (Message Bytes)} {ms : List (Message Json)} (h : All₂ SameMessage as ms)
    {n : Nat} {a : Message Bytes} (hf : as.find? (fun m => m.id == n) = some a) :
    ∃ x m y, ms = x ++ m :: y ∧ m.id = n ∧ (∀ z ∈ x, z.id ≠ n) ∧ SameMessage a m := by
  induction h with
  | nil => cases hf
  | @cons b m as ms hs h ih =>
    rw [List.find?_cons] at hf
    split at hf
    · rename_i hb
      cases hf
      exact ⟨[], m, ms, rfl, by rw [← hs.id]; simpa using hb, by simp, hs⟩
    · rename_i hb
      obtain ⟨x, m', y, rfl, h1, h2, h3⟩ := ih hf
      refine ⟨m :: x, m', y, rfl, h1, ?_, h3⟩
      intro z hz
      rcases List.mem_cons.1 hz with rfl | hz
      · rw [← hs.id]; simpa using hb
      · exact h2 z hz

theorem all₂_drop {α β : Type} {R : α → β → Prop} {as : List α} {bs : List β} (h : All₂ R as bs) (k : Nat) :
    All₂ R (as.drop k) (bs.drop k) := by
  induction k generalizing as bs with
  | zero => exact h
  | succ k ih =>
    cases h with
    | nil => exact .nil
    | cons _ h => exact ih h

/-- The reply that a call has got. -/
theorem heard_first {P : Type} {s : Rpc.Client.State P Bytes} {data : Bytes} {sched : List Nat}
    {fin : Frame.SrcErr} (hr : s.received <+: responses ⟨data, sched, fin⟩) {n : Nat} {a : Message Bytes}
    (h : Rpc.Client.heard s n = some a) :
    ∃ ms m d, Told data ms ∧ s.since[n]? = some d ∧ FirstFor n d ms m ∧ SameMessage a m := by
  obtain ⟨ms, ht, hs⟩ := c82_replies data sched fin
  obtain ⟨d, hd, hf⟩ := Option.bind_eq_some_iff.1 h
  obtain ⟨rest, hrest⟩ := hr
  have hf' : ((responses ⟨data, sched, fin⟩).drop d).find? (fun m => m.id == n) = some a := by
    rw [← hrest, List.drop_append, List.find?_append, hf]
    rfl
  obtain ⟨x, m, y, h1, h2, h3, h4⟩ := same_find (all₂_drop hs d) hf'
  exact ⟨ms, m, d, ht, hd, ⟨x, y, h1, h2, h3⟩, h4⟩

/-- C82: whatever a backend writes, the result of a call is written there: in the first reply with the number
of this call that came after the number had been given, and this reply has no error. -/
theorem c82_result {P : Type} {s : Rpc.Client.State P Bytes} (h : Rpc.Client.Steps Rpc.Client.start s)
    {data : Bytes} {sched : List Nat} {fin : Frame.SrcErr} (hr : s.received <+: responses ⟨data, sched, fin⟩)
    {i : Nat} {x : Bytes} (ho : (i, .reply x) ∈ s.log) :
    ∃ n d ms m v, Numbered s i n ∧ s.since[n]? = some d ∧ Told data ms ∧ FirstFor n d ms m ∧ m.error = .absent ∧
      m.result = some v ∧ TextFor 9999 v x := by
  cases Rpc.Client.c60_outcome h ho with
  | told hn hc hh ht =>
    cases ht with
    | result h1 h2 h3 =>
      obtain ⟨ms, m, d, e1, e2, e3, e4⟩ := heard_first hr hh
      have := e4.result
      rw [h2] at this
      cases hm : m.result with
      | none => rw [hm] at this; cases this
      | some v =>
        rw [hm] at this
        exact ⟨_, d, ms, m, v, hn, e2, e1, e3, e4.error ▸ h1, hm, this⟩

/-- C82: the error of a call is that of its first reply, or tells that it is empty. -/
theorem c82_error {P : Type} {s : Rpc.Client.State P Bytes} (h : Rpc.Client.Steps Rpc.Client.start s)
    {data : Bytes} {sched : List Nat} {fin : Frame.SrcErr} (hr : s.received <+: responses ⟨data, sched, fin⟩)
    {i : Nat} {msg : Str} (ho : (i, .server msg) ∈ s.log) :
    ∃ n d ms m t, Numbered s i n ∧ s.since[n]? = some d ∧ Told data ms ∧ FirstFor n d ms m ∧ m.error = .text t ∧
      msg = if t = [] then "unspecified error".toList else t := by
  cases Rpc.Client.c60_outcome h ho with
  | told hn hc hh ht =>
    obtain ⟨ms, m, d, e1, e2, e3, e4⟩ := heard_first hr hh
    cases ht with
    | error h1 h2 => exact ⟨_, d, ms, m, msg, hn, e2, e1, e3, e4.error ▸ h1, by rw [if_neg h2]⟩
    | unspecified h1 => exact ⟨_, d, ms, m, [], hn, e2, e1, e3, e4.error ▸ h1, by simp⟩

/-- Bytes that no backend of burl writes: a reply to an unknown call, then one with a repeated member and
names in capitals in the same frame. -/
example : ∃ ms m, Told (frame (utf8 "{\"ID\":7,\"result\":2} {\"ID\":0,\"result\":1,\"RESULT\":\"x\"}".toList) ++ [255, 0]) ms ∧
    FirstFor 0 0 ms m ∧ m.error = .absent ∧ m.result = some (.str "x".toList) := by
  refine ⟨[⟨7, some (.num 2), .absent⟩, ⟨0, some (.str "x".toList), .absent⟩], ⟨0, some (.str "x".toList), .absent⟩,
    ⟨[utf8 "{\"ID\":7,\"result\":2}".toList, utf8 " {\"ID\":0,\"result\":1,\"RESULT\":\"x\"}".toList], [], ?_,
      .cons ⟨_, says_this (v := .obj [("ID".toList, .num 7), ("result".toList, .num 2)]) (by decide +kernel), ?_⟩
        (.cons ⟨_, says_this (v := .obj [("ID".toList, .num 0), ("result".toList, .num 1),
          ("RESULT".toList, .str "x".toList)]) (by decide +kernel), ?_⟩ .nil)⟩,
    ⟨[_], [], rfl, rfl, by simp⟩, rfl, rfl⟩
  · have e : [utf8 "{\"ID\":7,\"result\":2}".toList, utf8 " {\"ID\":0,\"result\":1,\"RESULT\":\"x\"}".toList].flatten ++ [] =
        utf8 "{\"ID\":7,\"result\":2} {\"ID\":0,\"result\":1,\"RESULT\":\"x\"}".toList ++ [] := by decide +kernel
    rw [e, frame, List.append_assoc]
    exact .header (by decide +kernel) (payload_append (Nat.le_refl _) .stop)
  · refine .obj ?_ ?_ ?_
    · rw [show membersNamed "id" [("ID".toList, .num 7), ("result".toList, .num 2)] = [.num 7] from rfl]
      exact .value (by simp) ⟨rfl, by decide⟩ .done
    · rw [show membersNamed "result" [("ID".toList, .num 7), ("result".toList, .num 2)] = [.num 2] from rfl]
      exact .value (by simp) rfl .done
    · exact .done
  · refine .obj ?_ ?_ ?_
    · rw [show membersNamed "id" [("ID".toList, .num 0), ("result".toList, .num 1), ("RESULT".toList, .str "x".toList)] =
        [.num 0] from rfl]
      exact .value (by simp) ⟨rfl, by decide⟩ .done
    · rw [show membersNamed "result" [("ID".toList, .num 0), ("result".toList, .num 1),
        ("RESULT".toList, .str "x".toList)] = [.num 1, .str "x".toList] from rfl]
      exact .value (by simp) rfl (.value (by simp) rfl .done)
    · exact .done

/-- Hypotheses of `c82_result`. -/
example (sched : List Nat) : ∃ (s : Rpc.Client.State Json Bytes) (data x : Bytes), Rpc.Client.Steps Rpc.Client.start s ∧
    s.received <+: responses ⟨data, sched, .eof⟩ ∧ (0, .reply x) ∈ s.log := by
  obtain ⟨s, t, k, h1, -, -, -, h5, -, -, -, -, -, -, -, -, h⟩ := example_call [] sched
  exact ⟨s, _, _, h1, ⟨[], by rw [List.append_nil]; exact h5⟩, by rw [h]; exact List.mem_singleton_self _⟩

end Burl.JsonText
