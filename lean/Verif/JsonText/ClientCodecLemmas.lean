import Verif.JsonText.ClientCodec
import Verif.JsonText.SessionProps
import Verif.Rpc.BeginningProps
/-! Texts written by the library are read back. -/
namespace Burl.JsonText
open Burl
open Burl.Json (Json)
open Burl.Rpc.Spec (Piece Num strText Blank Padded)
open Burl.Rpc.Server (Request Reply Body Answers)
open Burl.Rpc.Client (Message ErrField)
open Burl.Frame.Spec (stream)
open Burl.JsonText.Spec

theorem raw_exact {d : Nat} {v : Json} {x : Bytes} (h : TextFor d v x) {rest : Bytes} (hr : Stop rest) :
    raw (x ++ rest) = some (x, rest) := by
  obtain ⟨t, h2, h3, h4⟩ := h
  obtain ⟨b, bs, e, -, hs⟩ := Rpc.writes_head h2 h4
  rw [raw, value_of t d v h2 h3 x h4 _ rest (by simp only [List.length_append]; omega) hr, Option.map_some]
  have : skip (x ++ rest) = x ++ rest := by rw [e, List.cons_append, skip_head hs]
  simp only [this, List.length_append, Nat.add_sub_cancel, List.take_left]

/-- Names of members are written without escapes. -/
def Simple (name : String) : Prop := encStr true name.toList = 34 :: (name.toList.flatMap putRune ++ [34])

theorem named_eq {name : String} (h : Simple name) (x : Bytes) :
    named name x = encStr true name.toList ++ 58 :: x := by
  rw [h, named]; simp

/-- One member. -/
theorem rawMembers_one {name : String} (hn : Simple name) {d : Nat} {v : Json} {x : Bytes}
    (h : TextFor d v x) (f : Nat) (c : UInt8) (hc : c = 44 ∨ c = 125) (rest : Bytes) :
    rawMembers (f + 1) (named name x ++ c :: rest) =
      if c = 44 then (rawMembers f rest).map fun ms => (name.toList, x) :: ms
      else some [(name.toList, x)] := by
  obtain ⟨ps, hp, hs⟩ := encStr_means true name.toList
  obtain ⟨r1, r2, g1, g2, g3⟩ := name_of hs (Rpc.Padded.self rfl) (x ++ c :: rest)
  rw [named_eq hn, List.append_assoc, List.cons_append, ← hp, rawMembers, g1]
  simp only [ne_eq, not_true, if_false]
  rw [g2]
  simp only [Option.bind_some]
  rw [g3]
  simp only [not_true, if_false]
  rw [raw_exact h (Stop.cons (by rcases hc with rfl | rfl <;> decide))]
  simp only [Option.bind_some]
  rw [skip_head (by rcases hc with rfl | rfl <;> decide)]
  rcases hc with rfl | rfl
  · simp
  · simp

/-- An object with three members. -/
def three (a b c : String) (x y z : Bytes) : Bytes :=
  123 :: (named a x ++ 44 :: (named b y ++ 44 :: (named c z ++ [125])))

theorem three_members {a b c : String} (ha : Simple a) (hb : Simple b) (hc : Simple c) {d : Nat}
    {u v w : Json} {x y z : Bytes} (hx : TextFor d u x) (hy : TextFor d v y) (hz : TextFor d w z)
    (f : Nat) : rawMembers (f + 3) (named a x ++ 44 :: (named b y ++ 44 :: (named c z ++ [125]))) =
      some [(a.toList, x), (b.toList, y), (c.toList, z)] := by
  rw [rawMembers_one ha hx _ _ (.inl rfl), if_pos rfl, rawMembers_one hb hy _ _ (.inl rfl), if_pos rfl,
    rawMembers_one hc hz _ _ (.inr rfl), if_neg (by decide)]
  rfl

theorem three_completes {a b c : String} (ha : Simple a) (hb : Simple b) (hc : Simple c)
    {u v w : Json} {x y z : Bytes} (hx : TextFor 9999 u x) (hy : TextFor 9999 v y) (hz : TextFor 9999 w z) :
    Rpc.Completes Rpc.json Rpc.json.start (three a b c x y z) := by
  obtain ⟨p, hp, p1⟩ := encStr_means true a.toList
  obtain ⟨q, hq, q1⟩ := encStr_means true b.toList
  obtain ⟨r, hr, r1⟩ := encStr_means true c.toList
  obtain ⟨s, s1, -, s2⟩ := hx
  obtain ⟨t, t1, -, t2⟩ := hy
  obtain ⟨o, o1, -, o2⟩ := hz
  refine Rpc.completes_writes (kvs := [(p, s), (q, t), (r, o)]) ?_ ?_
  · simp only [Rpc.Spec.Json.ok, Rpc.Spec.objOk, strMeans_ok p1, strMeans_ok q1, strMeans_ok r1, s1, t1, o1,
      Bool.and_self]
  · rw [Rpc.Spec.Json.Writes]
    refine ⟨named a x ++ 44 :: (named b y ++ 44 :: named c z), ?_, by simp [three]⟩
    rw [named_eq ha, named_eq hb, named_eq hc]
    simp only [Rpc.Spec.objWrites]
    exact ⟨_, _, _, Rpc.Padded.self hp.symm, Rpc.Padded.self s2, ⟨_, _, _, Rpc.Padded.self hq.symm,
      Rpc.Padded.self t2, ⟨_, _, Rpc.Padded.self hr.symm, Rpc.Padded.self o2, rfl⟩, rfl⟩, by simp⟩

/-! ### Requests -/

/-- The text of a request without the newline. -/
def requestBody (short : Bool) (q : Request Nat Json) : Bytes :=
  three "method" "params" "id" (encStr short q.method) (enc short (q.params.getD .null)) (encNat (q.id.getD 0))

theorem requestText_eq (short : Bool) (q : Request Nat Json) :
    requestText short q = requestBody short q ++ [10] := by
  simp [requestText, requestBody, three]

theorem encNat_for (n d : Nat) : TextFor d (.num (n : Int)) (encNat n) := by
  have := c68_encode true (d := d) (v := .num (n : Int)) (by simp [Plain])
  have h : ¬ (n : Int) < 0 := by omega
  simpa [enc, encInt, h] using this

theorem encStr_for (short : Bool) (s : Str) (d : Nat) : TextFor d (.str s) (encStr short s) := by
  have := c68_encode short (d := d) (v := .str s) (by simp [Plain])
  simpa [enc] using this

theorem simple_names : Simple "method" ∧ Simple "params" ∧ Simple "id" ∧ Simple "result" ∧ Simple "error" := by
  unfold Simple
  refine ⟨?_, ?_, ?_, ?_, ?_⟩ <;> decide +kernel

/-- A request as it is read by the backend. -/
def asRead (short : Bool) (q : Request Nat Json) : Request Bytes Bytes :=
  ⟨some (encNat (q.id.getD 0)), q.method, rawField (enc short (q.params.getD .null))⟩

theorem rawField_some {d : Nat} {v : Json} {x : Bytes} (h : TextFor d v x) (hv : v ≠ .null) :
    rawField x = some x := by
  have h1 := parse_of h
  have h2 : parse [110, 117, 108, 108] = some .null := rfl
  rw [rawField, if_neg]
  intro e
  rw [e, h2] at h1
  exact hv (Option.some.inj h1).symm

theorem skip_three {w : Bytes} (hw : Blank w) (a b c : String) (x y z : Bytes) :
    skip (w ++ three a b c x y z) = three a b c x y z := by
  rw [skip_blank hw, three, skip_head (by decide)]

theorem head_named (a : String) (x rest : Bytes) : (skip (named a x ++ rest)).head? ≠ some 125 := by
  rw [named, List.cons_append, skip_head (by decide)]
  simp

theorem length_three (a b c : String) (x y z : Bytes) : ∃ f, (three a b c x y z).length = f + 3 :=
  ⟨(three a b c x y z).length - 3, by simp only [three, List.length_cons, List.length_append]; omega⟩

theorem request_exact (short : Bool) {q : Request Nat Json} (hp : Plain 9999 (q.params.getD .null))
    {w : Bytes} (hw : Blank w) : request (w ++ requestBody short q) = some (asRead short q) := by
  obtain ⟨n1, n2, n3, -⟩ := simple_names
  obtain ⟨f, hf⟩ := length_three "method" "params" "id" (encStr short q.method)
    (enc short (q.params.getD .null)) (encNat (q.id.getD 0))
  have hm := three_members n1 n2 n3 (encStr_for short q.method 9999) (c68_encode short hp)
    (encNat_for (q.id.getD 0) 9999) (w.length + f)
  rw [request, requestBody, skip_three hw]
  rw [List.length_append, hf, ← Nat.add_assoc]
  unfold three
  simp only [if_true]
  rw [if_neg (head_named _ _ _), hm]
  simp only [Option.bind_some]
  rw [header, if_pos (by decide), parse_of (encStr_for short q.method 9999)]
  simp only
  rw [header, if_neg (by decide), if_pos (by decide), header, if_neg (by decide), if_neg (by decide),
    if_pos (by decide), header, rawField_some (encNat_for _ 9999) (by simp)]
  rfl

theorem request_completes (short : Bool) {q : Request Nat Json} (hp : Plain 9999 (q.params.getD .null)) :
    Rpc.Completes Rpc.json Rpc.json.start (requestBody short q) := by
  obtain ⟨n1, n2, n3, -⟩ := simple_names
  exact three_completes n1 n2 n3 (encStr_for short q.method 9999) (c68_encode short hp) (encNat_for _ 9999)

theorem prefix_filterMap {α β : Type} (f : α → Option β) {a b : List α} (h : a <+: b) :
    a.filterMap f <+: b.filterMap f := by
  obtain ⟨c, rfl⟩ := h
  rw [List.filterMap_append]
  exact List.prefix_append _ _

theorem withLead_map {α β : Type} (body : α → Bytes) (f : Bytes → Option β) (g : α → β) {t : Bytes}
    (ht : Blank t) (qs : List α)
    (h : ∀ q ∈ qs, ∀ w, Blank w → f (w ++ body q) = some (g q)) {w : Bytes} (hw : Blank w) :
    (Rpc.withLead w (qs.map fun q => (body q, t))).filterMap f = qs.map g := by
  induction qs generalizing w with
  | nil => rfl
  | cons q qs ih =>
    rw [List.map_cons, Rpc.withLead, List.filterMap_cons, h q (by simp) w hw, List.map_cons]
    simp only
    rw [ih (fun q hq => h q (List.mem_cons_of_mem _ hq)) ht]

theorem blank_newline : Blank [10] := by simp [Blank]

/-- Requests that the backend reads from what the client has written. -/
theorem requests_beginning (short : Bool) {qs : List (Request Nat Json)}
    (hq : ∀ q ∈ qs, Plain 9999 (q.params.getD .null) ∧ (requestText short q).length < 2 ^ 32)
    {data : Bytes} (hd : data <+: stream (qs.map (requestText short))) (sched : List Nat)
    (fin : Frame.SrcErr) : requests ⟨data, sched, fin⟩ <+: qs.map (asRead short) := by
  have he : qs.map (requestText short) = (qs.map fun q => (requestBody short q, [10])).map
      fun m => m.1 ++ m.2 := by
    rw [List.map_map]
    exact List.map_congr_left fun q _ => requestText_eq short q
  rw [he] at hd
  have h := Rpc.c08_beginning (fun s => (request s).isSome) fin _ (fun m hm => ?_) hd sched
  · have h := prefix_filterMap request h
    rw [withLead_map (requestBody short) request (asRead short) blank_newline qs
      (fun q hm w hw => request_exact short (hq q hm).1 hw) Rpc.blank_nil] at h
    exact h
  · obtain ⟨q, hq', rfl⟩ := List.mem_map.1 hm
    have := (hq q hq').2
    rw [requestText_eq, List.length_append] at this
    exact ⟨request_completes short (hq q hq').1, by simp [Rpc.isSpace], this⟩

/-! ### Replies -/

/-- The text of a reply without the newline. -/
def replyBody (short : Bool) (p : Reply Bytes Json) : Bytes :=
  match p.body with
  | .result v => three "id" "result" "error" (idText short p.id) (enc short v) (enc short .null)
  | .error t => three "id" "result" "error" (idText short p.id) (enc short .null) (encStr short t)

theorem replyText_eq (short : Bool) (p : Reply Bytes Json) : replyText short p = replyBody short p ++ [10] := by
  obtain ⟨id, body⟩ := p
  cases body <;> simp [replyText, replyBody, three, enc]

theorem encNat_digits (n : Nat) : ∀ b ∈ encNat n, 48 ≤ b.toNat ∧ b.toNat ≤ 57 := by
  induction n using encNat.induct with
  | case1 n h =>
    rw [encNat, if_pos h]
    intro b hb
    simp only [List.mem_singleton] at hb
    subst hb
    rw [UInt8.toNat_ofNat']
    omega
  | case2 n h ih =>
    rw [encNat, if_neg h]
    intro b hb
    rw [List.mem_append, List.mem_singleton] at hb
    rcases hb with hb | rfl
    · exact ih b hb
    · rw [UInt8.toNat_ofNat']
      omega

theorem compact_digits {x : Bytes} (h : ∀ b ∈ x, 48 ≤ b.toNat ∧ b.toNat ≤ 57) : compact false false x = x := by
  induction x with
  | nil => rfl
  | cons b x ih =>
    have hb := h b (by simp)
    have h1 : Rpc.isSpace b = false := by
      simp only [Rpc.isSpace, Bool.or_eq_false_iff, beq_eq_false_iff_ne, ne_eq]
      refine ⟨⟨⟨?_, ?_⟩, ?_⟩, ?_⟩ <;> (rintro rfl; revert hb; decide)
    have h2 : (b == 34) = false := by
      rw [beq_eq_false_iff_ne]
      rintro rfl; revert hb; decide
    rw [compact, h1, h2, if_neg (by decide), ih (fun b hb => h b (by simp [hb]))]

namespace Spec

/-- The text of a result; `null` is not told from an absent one. -/
def resultText (short : Bool) : Json → Option Bytes
  | .null => none
  | v => some (enc short v)

/-- What a client reads in place of a reply. -/
def heard (short : Bool) (n : Nat) : Body Json → Message Bytes
  | .result v => ⟨n, resultText short v, .absent⟩
  | .error t => ⟨n, none, .text t⟩

end Spec

theorem uint_exact {n : Nat} (h : n < 2 ^ 64) (old : Nat) : uintField (encNat n) old = some n := by
  rw [uintField, parse_of (encNat_for n 9999)]
  simp only
  rw [if_neg]
  · simp
  · rintro (h1 | h1)
    · have := encNat_digits n 45 (List.mem_of_mem_head? h1)
      revert this; decide
    · exact h1 (by exact_mod_cast h)

theorem rawField_null : rawField (enc short .null) = none := by simp [rawField, enc]

theorem response_exact (short : Bool) {n : Nat} (hn : n < 2 ^ 64) {p : Reply Bytes Json}
    (hid : p.id = some (encNat n)) (hp : ∀ v, p.body = .result v → Plain 9999 v) {w : Bytes} (hw : Blank w) :
    response (w ++ replyBody short p) = some (heard short n p.body) := by
  obtain ⟨-, -, n1, n2, n3⟩ := simple_names
  obtain ⟨id, body⟩ := p
  simp only at hid hp
  subst hid
  have hi : idText short (some (encNat n)) = encNat n := compact_digits (encNat_digits n)
  have key : ∀ (v w' : Json) (x y : Bytes), TextFor 9999 v x → TextFor 9999 w' y →
      response (w ++ three "id" "result" "error" (encNat n) x y) =
        (errField y).bind fun e => some ⟨n, rawField x, e⟩ := by
    intro v w' x y hx hy
    obtain ⟨f, hf⟩ := length_three "id" "result" "error" (encNat n) x y
    have hm := three_members n1 n2 n3 (encNat_for n 9999) hx hy (w.length + f)
    rw [response, skip_three hw, List.length_append, hf, ← Nat.add_assoc]
    unfold three
    simp only [if_true]
    rw [if_neg (head_named _ _ _), hm]
    simp only [Option.bind_some]
    rw [fields, if_pos (by decide), uint_exact hn, Option.bind_some, fields, if_neg (by decide), if_pos (by decide),
      fields, if_neg (by decide), if_neg (by decide), if_pos (by decide)]
    rfl
  have hnull : TextFor 9999 .null (enc short .null) := c68_encode short (by simp [Plain])
  cases body with
  | result v =>
    rw [replyBody]
    simp only
    rw [hi, key v .null _ _ (c68_encode short (hp v rfl)) hnull]
    simp only [errField, parse_of hnull, Option.bind_some, heard]
    cases v with
    | null => rw [rawField_null]; rfl
    | _ => rw [rawField_some (c68_encode short (hp _ rfl)) (by simp)]; rfl
  | error t =>
    rw [replyBody]
    simp only
    rw [hi, key .null (.str t) _ _ hnull (encStr_for short t 9999)]
    simp only [errField, parse_of (encStr_for short t 9999), Option.bind_some, heard, rawField_null]

theorem reply_completes (short : Bool) {n : Nat} {p : Reply Bytes Json}
    (hid : p.id = some (encNat n)) (hp : ∀ v, p.body = .result v → Plain 9999 v) :
    Rpc.Completes Rpc.json Rpc.json.start (replyBody short p) := by
  obtain ⟨-, -, n1, n2, n3⟩ := simple_names
  obtain ⟨id, body⟩ := p
  simp only at hid hp
  subst hid
  have hi : idText short (some (encNat n)) = encNat n := compact_digits (encNat_digits n)
  have hnull : TextFor 9999 .null (enc short .null) := c68_encode short (by simp [Plain])
  cases body with
  | result v =>
    rw [replyBody]
    simp only
    rw [hi]
    exact three_completes n1 n2 n3 (encNat_for n 9999) (c68_encode short (hp v rfl)) hnull
  | error t =>
    rw [replyBody]
    simp only
    rw [hi]
    exact three_completes n1 n2 n3 (encNat_for n 9999) hnull (encStr_for short t 9999)

/-- Replies that the client reads from what the backend has written. -/
theorem responses_beginning (short : Bool) {out : List (Nat × Reply Bytes Json)}
    (ho : ∀ o ∈ out, o.1 < 2 ^ 64 ∧ o.2.id = some (encNat o.1) ∧ (∀ v, o.2.body = .result v → Plain 9999 v) ∧
      (replyText short o.2).length < 2 ^ 32)
    {data : Bytes} (hd : data <+: stream (out.map fun o => replyText short o.2)) (sched : List Nat)
    (fin : Frame.SrcErr) : responses ⟨data, sched, fin⟩ <+: out.map fun o => heard short o.1 o.2.body := by
  have he : (out.map fun o => replyText short o.2) = (out.map fun o => (replyBody short o.2, [10])).map
      fun m => m.1 ++ m.2 := by
    rw [List.map_map]
    exact List.map_congr_left fun o _ => replyText_eq short o.2
  rw [he] at hd
  have h := Rpc.c08_beginning (fun s => (response s).isSome) fin _ (fun m hm => ?_) hd sched
  · have h := prefix_filterMap response h
    rw [withLead_map (fun o => replyBody short o.2) response (fun o => heard short o.1 o.2.body) blank_newline out
      (fun o hm w hw => response_exact short (ho o hm).1 (ho o hm).2.1 (ho o hm).2.2.1 hw) Rpc.blank_nil] at h
    exact h
  · obtain ⟨o, ho', rfl⟩ := List.mem_map.1 hm
    have := (ho o ho').2.2.2
    rw [replyText_eq, List.length_append] at this
    exact ⟨reply_completes short (ho o ho').2.1 (ho o ho').2.2.1, by simp [Rpc.isSpace], this⟩

end Burl.JsonText
