import Verif.JsonText.CodecLemmas
import Verif.JsonText.Props
import Verif.Rpc.Props
import Verif.Frame.Props
import Verif.Backend.SaysProps
/-! A session from bytes to bytes (C69). -/
namespace Burl.JsonText
open Burl
open Burl.Json (Json)
open Burl.Rpc.Spec (Piece Num strText Call Blank Padded)
open Burl.Rpc.Server (Request Reply Body Answers Matched State start)
open Burl.Frame.Spec (stream)
open Burl.Extract (All₂)
open Burl.JsonText.Spec

/-! ### Values in replies -/

mutual
theorem plain_mono : ∀ (v : Json) (d e : Nat), d ≤ e → Plain d v → Plain e v
  | .null, _, _, _, _ => by simp [Plain]
  | .bool _, _, _, _, _ => by simp [Plain]
  | .num _, _, _, _, _ => by simp [Plain]
  | .str _, _, _, _, _ => by simp [Plain]
  | .real _, _, _, _, h => by simp only [Plain] at h ⊢; exact h
  | .arr _, 0, _, _, h => by simp [Plain] at h
  | .obj _, 0, _, _, h => by simp [Plain] at h
  | .arr vs, d + 1, 0, he, _ => by omega
  | .obj vs, d + 1, 0, he, _ => by omega
  | .arr vs, d + 1, e + 1, he, h => by
    rw [Plain] at h ⊢
    exact allPlain_mono vs d e (by omega) h
  | .obj vs, d + 1, e + 1, he, h => by
    rw [Plain] at h ⊢
    exact membersPlain_mono vs d e (by omega) h
theorem allPlain_mono : ∀ (vs : List Json) (d e : Nat), d ≤ e → AllPlain d vs → AllPlain e vs
  | [], _, _, _, _ => by simp [AllPlain]
  | v :: vs, d, e, he, h => by
    rw [AllPlain] at h ⊢
    exact ⟨plain_mono v d e he h.1, allPlain_mono vs d e he h.2⟩
theorem membersPlain_mono : ∀ (vs : List (Str × Json)) (d e : Nat), d ≤ e → MembersPlain d vs →
    MembersPlain e vs
  | [], _, _, _, _ => by simp [MembersPlain]
  | (k, v) :: vs, d, e, he, h => by
    rw [MembersPlain] at h ⊢
    exact ⟨plain_mono v d e he h.1, membersPlain_mono vs d e he h.2⟩
end

/-- Values of any depth. -/
def Whole (v : Json) : Prop := ∃ d, Plain d v

theorem whole_arr {vs : List Json} (h : ∀ v ∈ vs, Whole v) : Whole (.arr vs) := by
  have : ∃ d, AllPlain d vs := by
    induction vs with
    | nil => exact ⟨0, by simp [AllPlain]⟩
    | cons v vs ih =>
      obtain ⟨d, hd⟩ := ih fun w hw => h w (List.mem_cons_of_mem _ hw)
      obtain ⟨e, he⟩ := h v (by simp)
      exact ⟨max d e, by
        rw [AllPlain]; exact ⟨plain_mono v e _ (by omega) he, allPlain_mono vs d _ (by omega) hd⟩⟩
  obtain ⟨d, hd⟩ := this
  exact ⟨d + 1, by rw [Plain]; exact hd⟩

theorem whole_obj {ms : List (Str × Json)} (h : ∀ m ∈ ms, Whole m.2) : Whole (.obj ms) := by
  have : ∃ d, MembersPlain d ms := by
    induction ms with
    | nil => exact ⟨0, by simp [MembersPlain]⟩
    | cons v vs ih =>
      obtain ⟨d, hd⟩ := ih fun w hw => h w (List.mem_cons_of_mem _ hw)
      obtain ⟨e, he⟩ := h v (by simp)
      exact ⟨max d e, by
        rw [MembersPlain]
        exact ⟨plain_mono v.2 e _ (by omega) he, membersPlain_mono vs d _ (by omega) hd⟩⟩
  obtain ⟨d, hd⟩ := this
  exact ⟨d + 1, by rw [Plain]; exact hd⟩

theorem whole_null : Whole .null := ⟨0, by simp [Plain]⟩
theorem whole_bool (b : Bool) : Whole (.bool b) := ⟨0, by simp [Plain]⟩
theorem whole_num (n : Int) : Whole (.num n) := ⟨0, by simp [Plain]⟩
theorem whole_str (s : Str) : Whole (.str s) := ⟨0, by simp [Plain]⟩

theorem whole_link (l : Tree.Spec.Link) : Whole (Json.Spec.renderLink l) := by
  unfold Json.Spec.renderLink
  apply whole_obj
  intro m hm
  split at hm <;> simp only [List.mem_cons, List.mem_append, List.not_mem_nil, or_false, false_or] at hm
  · rcases hm with rfl | rfl | rfl
    · exact whole_str _
    · exact whole_num _
    · exact whole_str _
  · rcases hm with rfl | rfl | rfl | rfl
    · exact whole_str _
    · exact whole_str _
    · exact whole_num _
    · exact whole_str _

theorem whole_node {type : String} {own : List (Str × Json)} {cs : List Json} {n k : Int}
    (ho : ∀ m ∈ own, Whole m.2) (hc : ∀ c ∈ cs, Whole c) :
    Whole (Json.Spec.nodeObj type own cs n k) := by
  unfold Json.Spec.nodeObj
  apply whole_obj
  intro m hm
  simp only [List.mem_cons, List.mem_append, List.not_mem_nil, or_false] at hm
  rcases hm with ((rfl | rfl | rfl) | hm) | rfl
  · exact whole_str _
  · exact whole_arr hc
  · exact whole_num _
  · exact ho m hm
  · exact whole_num _

mutual
theorem whole_render : ∀ y : Tree.Spec.Annot, Whole (Json.Spec.render y)
  | .body n k ls => by
    rw [Json.Spec.render]
    apply whole_obj
    intro m hm
    simp only [List.mem_cons, List.not_mem_nil, or_false] at hm
    rcases hm with rfl | rfl | rfl | rfl
    · exact whole_str _
    · exact whole_num _
    · apply whole_arr
      intro v hv
      obtain ⟨l, -, rfl⟩ := List.mem_map.mp hv
      exact whole_link l
    · exact whole_num _
  | .node n k p cs => by
    have ih := whole_renderAll cs
    match p, cs with
    | .unset, _ => rw [Json.Spec.render]; exact whole_obj (by simp)
    | .missingHeading, _ => rw [Json.Spec.render]; exact whole_obj (by simp)
    | .file path, cs =>
      rw [Json.Spec.render]
      refine whole_node (fun m hm => ?_) ih
      simp only [List.mem_cons, List.not_mem_nil, or_false] at hm
      subst hm
      exact whole_str _
    | .heading ln t, cs =>
      rw [Json.Spec.render]
      refine whole_node (fun m hm => ?_) ih
      simp only [List.mem_cons, List.not_mem_nil, or_false] at hm
      rcases hm with rfl | rfl
      · exact whole_num _
      · exact whole_str _
    | .fileGroup, [] =>
      rw [Json.Spec.render]
      · exact whole_node (by simp) ih
      · intro c hc; cases hc
    | .fileGroup, [c] => rw [Json.Spec.render]; exact whole_render c
    | .fileGroup, a :: b :: cs =>
      rw [Json.Spec.render]
      · exact whole_node (by simp) ih
      · intro c hc; cases hc
theorem whole_renderAll : ∀ ys : List Tree.Spec.Annot, ∀ v ∈ Json.Spec.renderAll ys, Whole v
  | [], v, hv => by rw [Json.Spec.renderAll] at hv; cases hv
  | y :: ys, v, hv => by
    rw [Json.Spec.renderAll] at hv
    rcases List.mem_cons.mp hv with rfl | hv
    · exact whole_render y
    · exact whole_renderAll ys v hv
end

theorem whole_returns {e : Backend.Env} {m : Rpc.Method} {a : Backend.Arg} {v : Json} {err : Option Str}
    (h : Backend.Returns e m a v err) : Whole v := by
  have hstr : ∀ l : List Str, Whole (.arr (l.map .str)) := fun l => whole_arr (by
    intro v hv
    obtain ⟨x, -, rfl⟩ := List.mem_map.mp hv
    exact whole_str x)
  cases err with
  | some t => cases h <;> exact whole_null
  | none =>
    cases m with
    | urlMentions =>
      cases a with
      | urlMentions q =>
        obtain ⟨order, hp, g, trees, h', a, hs⟩ := Backend.Returns.served h
        have hf : Tree.Decides q fun l => decide (l.url ∈ Tree.mentionVariants order q) := fun l => by
          rw [decide_eq_true_iff, Tree.mentionVariants_mem hs.orders]
        obtain ⟨y, hy, hcount⟩ := Tree.c18_counts hs.orders hs.rep q hs.asks hf hs.reply
        obtain ⟨n, k, ys, -, -, -, -, rfl⟩ := hs.seen hy hcount
        exact whole_render _
      | _ => cases h
    | _ =>
      cases h
      all_goals first
        | exact whole_bool _
        | (apply whole_obj
           intro m hm
           simp only [Backend.mem, List.mem_cons, List.not_mem_nil, or_false] at hm
           first
            | (subst hm; exact hstr _)
            | (rcases hm with rfl | rfl
               · exact whole_bool _
               · exact whole_str _)
            | (rcases hm with rfl | rfl | rfl | rfl
               · exact whole_str _
               · exact whole_str _
               · simp only [Backend.strings]; split
                 · exact whole_null
                 · exact hstr _
               · apply whole_obj
                 intro m hm
                 simp only [List.mem_cons, List.not_mem_nil, or_false] at hm
                 subst hm
                 exact whole_bool _))

/-! ### Replies -/

namespace Spec

/-- A reply as a value. -/
def replyValue (id : Option Json) : Body Json → Json
  | .result v => .obj [("id".toList, id.getD .null), ("result".toList, v), ("error".toList, .null)]
  | .error t => .obj [("id".toList, id.getD .null), ("result".toList, .null), ("error".toList, .str t)]

end Spec

theorem triple_means {d : Nat} {a b c : Text} {u v w : Json} (ha : a.ok d = true) (hb : b.ok d = true)
    (hc : c.ok d = true) (hu : Means a u) (hv : Means b v) (hw : Means c w) :
    ∃ t : Text, t.text = 123 :: (named "id" a.text ++ 44 :: (named "result" b.text ++
        44 :: (named "error" c.text ++ [125]))) ∧ t.ok (d + 1) = true ∧
      Means t (.obj [("id".toList, u), ("result".toList, v), ("error".toList, w)]) := by
  obtain ⟨k1, e1, h1⟩ := encStr_means true "id".toList
  obtain ⟨k2, e2, h2⟩ := encStr_means true "result".toList
  obtain ⟨k3, e3, h3⟩ := encStr_means true "error".toList
  have hn : ∀ (name : String) (x : Bytes), (∀ c ∈ name.toList, encRune true c = putRune c) →
      encStr true name.toList ++ 58 :: x = named name x := by
    intro name x h
    have : name.toList.flatMap (encRune true) = name.toList.flatMap putRune := by
      generalize name.toList = l at h
      induction l with
      | nil => rfl
      | cons c l ih =>
        rw [List.flatMap_cons, List.flatMap_cons, h c (by simp),
          ih fun y hy => h y (List.mem_cons_of_mem _ hy)]
    rw [encStr, this, named]
    simp
  refine ⟨.obj [(k1, a), (k2, b), (k3, c)], ?_, ?_, ?_⟩
  · simp only [Rpc.Spec.Json.text, Rpc.Spec.objText, e1, e2, e3]
    rw [← hn "id" a.text (by decide), ← hn "result" b.text (by decide), ← hn "error" c.text (by decide)]
    simp
  · simp [Rpc.Spec.Json.ok, Rpc.Spec.objOk, ha, hb, hc]
    exact ⟨by simpa using strMeans_ok h1, by simpa using strMeans_ok h2, by simpa using strMeans_ok h3⟩
  · rw [Means]
    refine ⟨_, ?_, rfl⟩
    simp only [MembersMean]
    exact ⟨_, _, _, h1, hu, ⟨_, _, _, h2, hv, ⟨_, _, _, h3, hw, rfl, rfl⟩, rfl⟩, rfl⟩

theorem reply_means (short : Bool) {p : Reply Bytes Json} {id : Option Json} (hid : TextOf p.id id)
    (hb : ∀ v, p.body = .result v → Whole v) :
    ∃ (t : Text) (d : Nat), replyText short p = t.text ++ [10] ∧ t.ok d = true ∧
      Means t (replyValue id p.body) := by
  obtain ⟨pid, body⟩ := p
  have h1 : ∃ a : Text, a.text = idText short pid ∧ a.ok 9999 = true ∧ Means a (id.getD .null) := by
    cases pid with
    | none =>
      cases id with
      | none => exact enc_means short .null 9999 (by simp [Plain])
      | some _ => exact hid.elim
    | some x =>
      cases id with
      | none => exact hid.elim
      | some v =>
        obtain ⟨t, h1, h2, h5⟩ := hid
        obtain ⟨t', e, h3, h4⟩ := compact_of h1 h2 (Rpc.Padded.self h5)
        exact ⟨t', e.symm, h3, h4⟩
  obtain ⟨a, ea, ha, hma⟩ := h1
  have key : ∀ v w : Json, Whole v → Whole w → ∃ (t : Text) (d : Nat),
      123 :: (named "id" a.text ++ 44 :: (named "result" (enc short v) ++
        44 :: (named "error" (enc short w) ++ [125]))) = t.text ∧ t.ok d = true ∧
      Means t (.obj [("id".toList, id.getD .null), ("result".toList, v), ("error".toList, w)]) := by
    rintro v w ⟨d1, h1⟩ ⟨d2, h2⟩
    obtain ⟨b, eb, hb, hmb⟩ := enc_means short v d1 h1
    obtain ⟨c, ec, hc, hmc⟩ := enc_means short w d2 h2
    obtain ⟨t, e, h3, h4⟩ := triple_means (d := max 9999 (max d1 d2)) (ok_mono a _ _ (by omega) ha)
      (ok_mono b _ _ (by omega) hb) (ok_mono c _ _ (by omega) hc) hma hmb hmc
    exact ⟨t, _, by rw [e, eb, ec], h3, h4⟩
  cases body with
  | result v =>
    obtain ⟨t, d, e, h1, h2⟩ := key v .null (hb v rfl) whole_null
    refine ⟨t, d, ?_, h1, h2⟩
    rw [← e, replyText, ea]
    simp
  | error x =>
    obtain ⟨t, d, e, h1, h2⟩ := key .null (.str x) whole_null (whole_str x)
    refine ⟨t, d, ?_, h1, h2⟩
    rw [← e, replyText, ea]
    simp

/-! ### Methods -/

theorem unmarshal_text {A M : Type} {w : Rpc.Server.World Json A Json M} {x : Bytes} {v : Json} (h : TextFor 9999 v x)
    (m : M) : (textOf w).unmarshal m x = w.unmarshal m v := by
  obtain ⟨t, h1, h2, h3⟩ := h
  simp only [textOf]
  rw [unmarshal_writes (ok_mono t 9999 10000 (by omega) h1) h2 (Rpc.Padded.self h3)]

theorem answers_text {A M C : Type} [Rpc.Server.Methods M] [Rpc.Server.Calls M C]
    {w : Rpc.Server.World Json A Json M} {a : Request Bytes Bytes} {r : Request Json Json}
    (hs : SameRequest a r) {b : Body Json} (h : Answers (textOf w) a b) :
    Answers w r b := by
  obtain ⟨hm, hp, -⟩ := hs
  have hpar : ∀ {p}, a.params = some p → ∃ v, r.params = some v ∧
      ∀ m, (textOf w).unmarshal m p = w.unmarshal m v := by
    intro p h
    rw [h] at hp
    cases hr : r.params with
    | none => rw [hr] at hp; exact hp.elim
    | some v =>
      rw [hr] at hp
      exact ⟨v, rfl, unmarshal_text hp⟩
  cases h with
  | unknown h1 h2 => exact .unknown (by rw [← hm]; exact h1) h2
  | noParams h1 h2 =>
    rw [h1] at hp
    cases hr : r.params with
    | none => exact .noParams hr h2
    | some v => rw [hr] at hp; exact hp.elim
  | badParams h1 h2 h3 h4 =>
    obtain ⟨v, hv, hu⟩ := hpar h2
    rw [hu] at h3
    exact .badParams (by rw [← hm]; exact h1) hv h3 h4
  | badParamsSilent h1 h2 h3 =>
    obtain ⟨v, hv, hu⟩ := hpar h2
    rw [hu] at h3
    exact .badParamsSilent (by rw [← hm]; exact h1) hv h3
  | result h1 h2 h3 h4 =>
    obtain ⟨v, hv, hu⟩ := hpar h2
    rw [hu] at h3
    exact .result (by rw [← hm]; exact h1) hv h3 h4
  | failed h1 h2 h3 h4 h5 =>
    obtain ⟨v, hv, hu⟩ := hpar h2
    rw [hu] at h3
    exact .failed (by rw [← hm]; exact h1) hv h3 h4 h5
  | failedSilent h1 h2 h3 h4 =>
    obtain ⟨v, hv, hu⟩ := hpar h2
    rw [hu] at h3
    exact .failedSilent (by rw [← hm]; exact h1) hv h3 h4

theorem whole_answers {Id : Type} {e : Backend.Env} {r : Request Id Json} {v : Json}
    (h : Answers (Backend.world e) r (.result v)) : Whole v := by
  cases h with
  | badParamsSilent => exact whole_obj (by simp)
  | result _ _ _ h => exact whole_returns h
  | failedSilent _ _ _ h => exact whole_returns h

/-! ### Sessions -/

namespace Spec

/-- Bodies of frames with texts of requests.  There may be white space between tokens; after a
request it is allowed in the last frame only (see C08). -/
inductive Sent : List Bytes → List (Request Json Json) → Prop where
  | nil : Sent [] []
  | last {x r} : RequestText r x → x.length ≤ 2 ^ 30 → Sent [x] [r]
  | cons {w x r vs xs rs} : Blank w → TextFor 10000 (.obj vs) x → Says vs r →
      (w ++ x).length ≤ 2 ^ 30 → Sent xs rs → Sent ((w ++ x) :: xs) (r :: rs)

/-- Every text is a reply to a request of its own: `ks` tells which one. -/
structure Replied {A M C : Type} [Rpc.Server.Methods M] [Rpc.Server.Calls M C]
    (w : Rpc.Server.World Json A Json M) (rs : List (Request Json Json)) (us : List Text) (ks : List Nat) :
    Prop where
  length : ks.length = us.length
  once : ks.Nodup
  answers : ∀ (i k : Nat) (u : Text), ks[i]? = some k → us[i]? = some u → (∃ d, u.ok d = true) ∧
    ∃ r b, rs[k]? = some r ∧ Answers w r b ∧ Means u (replyValue r.id b)

end Spec

theorem all₂_get {α β : Type} {R : α → β → Prop} {as : List α} {bs : List β} (h : All₂ R as bs)
    {k : Nat} {a : α} (ha : as[k]? = some a) : ∃ b, bs[k]? = some b ∧ R a b := by
  induction h generalizing k with
  | nil => simp at ha
  | cons hr _ ih =>
    cases k with
    | zero => simp at ha; subst ha; exact ⟨_, by simp, hr⟩
    | succ k => simp at ha ⊢; exact ih ha

theorem all₂_back {α β : Type} {R : α → β → Prop} {as : List α} {bs : List β} (h : All₂ R as bs)
    {a : α} (ha : a ∈ as) : ∃ b ∈ bs, R a b := by
  obtain ⟨k, hk⟩ := List.getElem?_of_mem ha
  obtain ⟨b, hb, hr⟩ := all₂_get h hk
  exact ⟨b, List.mem_of_getElem? hb, hr⟩

theorem all₂_length {α β : Type} {R : α → β → Prop} {as : List α} {bs : List β} (h : All₂ R as bs) :
    as.length = bs.length := by
  induction h with
  | nil => rfl
  | cons _ _ ih => simp [ih]

theorem all₂_imp {α β : Type} {R S : α → β → Prop} (hrs : ∀ a b, R a b → S a b) {as : List α} {bs : List β}
    (h : All₂ R as bs) : All₂ S as bs := by
  induction h with
  | nil => exact .nil
  | cons h1 _ ih => exact .cons (hrs _ _ h1) ih

theorem completes_text {vs : List (Str × Json)} {w x : Bytes} (hw : Blank w)
    (hx : TextFor 10000 (.obj vs) x) : Rpc.Completes Rpc.json Rpc.json.start (w ++ x) := by
  obtain ⟨kvs, h1, -, h3⟩ := textFor_obj hx
  exact Rpc.completes_lead (Rpc.completes_writes h1 h3) w (Rpc.Blank.all hw)

/-- Texts the decoder finds in frames. -/
theorem sent_split {xs : List Bytes} {rs : List (Request Json Json)} (h : Sent xs rs) :
    ∃ ys, All₂ (fun y r => RequestText r y ∧ Rpc.Completes Rpc.json Rpc.json.start y ∧
        y.length ≤ 2 ^ 30) ys rs ∧
      (xs = ys ∨ ∃ zs v t, ys = zs ++ [v] ∧ xs = zs ++ [v ++ t] ∧ v.length + t.length ≤ 2 ^ 30) := by
  induction h with
  | nil => exact ⟨[], .nil, .inl rfl⟩
  | @last x r h hl =>
    obtain ⟨vs, ⟨w, y, w', h1, h2, h3, rfl⟩, h4⟩ := h
    simp only [List.length_append] at hl
    exact ⟨[w ++ y], .cons ⟨⟨vs, ⟨w, y, [], h1, h2, Rpc.blank_nil, by simp⟩, h4⟩, completes_text h1 h2,
      by simp only [List.length_append]; omega⟩ .nil,
      .inr ⟨[], w ++ y, w', rfl, by simp, by simp only [List.length_append]; omega⟩⟩
  | @cons w x r vs xs rs h1 h2 h3 h4 _ ih =>
    obtain ⟨ys, h5, h6⟩ := ih
    refine ⟨(w ++ x) :: ys, .cons ⟨⟨vs, ⟨w, x, [], h1, h2, Rpc.blank_nil, by simp⟩, h3⟩,
      completes_text h1 h2, h4⟩ h5, ?_⟩
    rcases h6 with rfl | ⟨zs, v, t, rfl, rfl, h7⟩
    · exact .inl rfl
    · exact .inr ⟨(w ++ x) :: zs, v, t, rfl, rfl, h7⟩

theorem requests_eq {xs : List Bytes} {rs : List (Request Json Json)} (h : Sent xs rs)
    (sched : List Nat) (fin : Frame.SrcErr) :
    ∃ ys, All₂ (fun y r => RequestText r y) ys rs ∧
      requests ⟨stream xs, sched, fin⟩ = ys.filterMap request := by
  obtain ⟨ys, h1, h2⟩ := sent_split h
  have hy : ∀ y ∈ ys, Rpc.Completes Rpc.json Rpc.json.start y ∧ (request y).isSome = true ∧
      y.length ≤ 2 ^ 30 := by
    intro y hy
    obtain ⟨r, -, h3, h4, h5⟩ := all₂_back h1 hy
    obtain ⟨b, hb, -⟩ := request_of h3
    exact ⟨h4, by rw [hb]; rfl, h5⟩
  refine ⟨ys, all₂_imp (fun _ _ h => h.1) h1, ?_⟩
  rw [requests]
  rcases h2 with rfl | ⟨zs, v, t, rfl, rfl, h3⟩
  · rw [Rpc.c08_session_partial Rpc.json _ fin xs sched hy]
  · have hv := hy v (by simp)
    rw [Rpc.c08_last_partial Rpc.json _ fin zs v t sched (fun m hm => hy m (by simp [hm])) hv.1 hv.2.1 h3]

/-- Requests are read from the wire. -/
theorem c69_requests {xs : List Bytes} {rs : List (Request Json Json)} (h : Sent xs rs)
    (sched : List Nat) (fin : Frame.SrcErr) :
    All₂ SameRequest (requests ⟨stream xs, sched, fin⟩) rs := by
  obtain ⟨ys, h1, h2⟩ := requests_eq h sched fin
  rw [h2]
  clear h2 h
  induction h1 with
  | nil => exact .nil
  | cons hs _ ih =>
    obtain ⟨b, hb, hsame⟩ := request_of hs
    rw [List.filterMap_cons, hb]
    exact .cons hsame ih

theorem reply_texts (short : Bool) {A M C : Type} [Rpc.Server.Methods M] [Rpc.Server.Calls M C]
    {w : Rpc.Server.World Json A Json M}
    (whole : ∀ {r : Request Json Json} {v : Json}, Answers w r (.result v) → Whole v) {as : List (Request Bytes Bytes)}
    {rs : List (Request Json Json)} (h : All₂ SameRequest as rs) {out : List (Reply Bytes Json)}
    {ks : List Nat} (hm : Matched (textOf w) as out ks) :
    ∃ us : List Text, out.map (replyText short) = us.map (fun u => u.text ++ [10]) ∧
      Replied w rs us ks := by
  have hone : ∀ (i k : Nat) (p : Reply Bytes Json), ks[i]? = some k → out[i]? = some p → ∃ u : Text,
      replyText short p = u.text ++ [10] ∧ (∃ d, u.ok d = true) ∧
      ∃ r b, rs[k]? = some r ∧ Answers w r b ∧ Means u (replyValue r.id b) := by
    intro i k p hk hp
    obtain ⟨a, ha, hid, hans⟩ := hm.answers i k p hk hp
    obtain ⟨r, hr, hsame⟩ := all₂_get h ha
    have hans' := answers_text hsame hans
    obtain ⟨u, d, h1, h2, h3⟩ := reply_means short (p := p) (id := r.id) (by rw [hid]; exact hsame.id)
      (fun v hv => by rw [hv] at hans'; exact whole hans')
    exact ⟨u, h1, ⟨d, h2⟩, r, p.body, hr, hans', h3⟩
  have hlist : ∀ (out : List (Reply Bytes Json)) (ks : List Nat), ks.length = out.length →
      (∀ (i k : Nat) (p : Reply Bytes Json), ks[i]? = some k → out[i]? = some p → ∃ u : Text,
        replyText short p = u.text ++ [10] ∧ (∃ d, u.ok d = true) ∧
        ∃ r b, rs[k]? = some r ∧ Answers w r b ∧ Means u (replyValue r.id b)) →
      ∃ us : List Text, out.map (replyText short) = us.map (fun u => u.text ++ [10]) ∧
        ks.length = us.length ∧
        ∀ (i k : Nat) (u : Text), ks[i]? = some k → us[i]? = some u → (∃ d, u.ok d = true) ∧
          ∃ r b, rs[k]? = some r ∧ Answers w r b ∧ Means u (replyValue r.id b) := by
    intro out
    induction out with
    | nil =>
      intro ks hl _
      exact ⟨[], rfl, hl, fun i k u _ hu => by simp at hu⟩
    | cons p out ih =>
      intro ks hl hall
      cases ks with
      | nil => simp at hl
      | cons k ks =>
        obtain ⟨u, h1, h2⟩ := hall 0 k p rfl rfl
        obtain ⟨us, h3, h4, h5⟩ := ih ks (by simpa using hl) fun i k p hk hp =>
          hall (i + 1) k p (by simpa using hk) (by simpa using hp)
        refine ⟨u :: us, by rw [List.map_cons, List.map_cons, h1, h3], by simp [h4], ?_⟩
        intro i k' u' hk hu
        cases i with
        | zero =>
          simp at hk hu
          subst hk hu
          exact h2
        | succ i => exact h5 i k' u' (by simpa using hk) (by simpa using hu)
  obtain ⟨us, h1, h2, h3⟩ := hlist out ks hm.length hone
  exact ⟨us, h1, h2, hm.once, h3⟩

/-- Texts written in a session of any program. -/
theorem session_texts (short : Bool) {A M C : Type} [Rpc.Server.Methods M] [Rpc.Server.Calls M C]
    {w : Rpc.Server.World Json A Json M}
    (whole : ∀ {r : Request Json Json} {v : Json}, Answers w r (.result v) → Whole v)
    {xs : List Bytes} {rs : List (Request Json Json)} (hr : Sent xs rs) {sched : List Nat}
    {fin : Frame.SrcErr} {n : Nat} {s : State Bytes Bytes A Json M}
    (h : Rpc.Server.Steps (textOf w) (start (requests ⟨stream xs, sched, fin⟩)) n s)
    (hlen : ∀ p ∈ s.out, (replyText short p).length < 2 ^ 32) :
    ∃ us ks, written short s.out = stream (us.map fun u => u.text ++ [10]) ∧ Replied w rs us ks := by
  obtain ⟨ks, hm⟩ := Rpc.Server.c59_replies h
  obtain ⟨us, h1, h2⟩ := reply_texts short whole (c69_requests hr sched fin) hm
  refine ⟨us, ks, ?_, h2⟩
  rw [written, Frame.c01_wire _ _ (by
    intro m hm
    obtain ⟨p, hp, rfl⟩ := List.mem_map.mp hm
    exact hlen p hp), h1]
  simp

/-- C69: whatever the order of calls and the way bytes arrive, what the backend has written is
frames with JSON texts.  Every text is a reply to a request of its own, it has the identifier of
this request and says what the method returns. -/
theorem c69_session (short : Bool) {e : Backend.Env} {xs : List Bytes}
    {rs : List (Request Json Json)} (hr : Sent xs rs) {sched : List Nat} {fin : Frame.SrcErr}
    {n : Nat} {s : State Bytes Bytes Backend.Arg Json}
    (h : Rpc.Server.Steps (textWorld e) (start (requests ⟨stream xs, sched, fin⟩)) n s)
    (hlen : ∀ p ∈ s.out, (replyText short p).length < 2 ^ 32) :
    ∃ us ks, written short s.out = stream (us.map fun u => u.text ++ [10]) ∧ Replied (Backend.world e) rs us ks := by
  exact session_texts short whole_answers hr h hlen

/-- C69: when the session is over and the peer has been reading, every request has got its reply. -/
theorem c69_complete (short : Bool) {e : Backend.Env} {xs : List Bytes}
    {rs : List (Request Json Json)} (hr : Sent xs rs) {sched : List Nat} {fin : Frame.SrcErr}
    {n : Nat} {s : State Bytes Bytes Backend.Arg Json}
    (h : Rpc.Server.Steps (textWorld e) (start (requests ⟨stream xs, sched, fin⟩)) n s)
    (hc : s.loop = .closed) (hb : s.broken = false)
    (hlen : ∀ p ∈ s.out, (replyText short p).length < 2 ^ 32) :
    ∃ us ks, written short s.out = stream (us.map fun u => u.text ++ [10]) ∧ Replied (Backend.world e) rs us ks ∧
      ∀ k, k < rs.length → k ∈ ks := by
  have hsame := c69_requests hr sched fin
  obtain ⟨ks, hm, hall⟩ := Rpc.Server.c59_complete h hc hb
  obtain ⟨us, h1, h2⟩ := reply_texts short whole_answers hsame hm
  refine ⟨us, ks, ?_, h2, ?_⟩
  · rw [written, Frame.c01_wire _ _ (by
      intro m hm
      obtain ⟨p, hp, rfl⟩ := List.mem_map.mp hm
      exact hlen p hp), h1]
    simp
  · intro k hk
    have hl : ∀ {α β : Type} {R : α → β → Prop} {as : List α} {bs : List β}, All₂ R as bs →
        as.length = bs.length := by
      intro α β R as bs h
      induction h with
      | nil => rfl
      | cons _ _ ih => simp [ih]
    have hk' : k < (requests ⟨stream xs, sched, fin⟩).length := by rw [hl hsame]; exact hk
    rcases hall k _ (List.getElem?_eq_getElem hk') with h | ⟨v, -, h⟩
    · exact h
    · cases h

/-- C69: the peer gets these texts from the bytes, in whatever portions they arrive. -/
theorem c69_received (short : Bool) {e : Backend.Env} {xs : List Bytes}
    {rs : List (Request Json Json)} (hr : Sent xs rs) {sched : List Nat} {fin : Frame.SrcErr}
    {n : Nat} {s : State Bytes Bytes Backend.Arg Json}
    (h : Rpc.Server.Steps (textWorld e) (start (requests ⟨stream xs, sched, fin⟩)) n s)
    (hlen : ∀ p ∈ s.out, (replyText short p).length ≤ 2 ^ 30) (bufs sched' : List Nat) :
    ∃ us ks, Frame.recvAll bufs ⟨written short s.out, sched', .eof⟩ =
      (us.map (fun u => u.text ++ [10]), .header (.src .eof)) ∧ Replied (Backend.world e) rs us ks := by
  obtain ⟨ks, hm⟩ := Rpc.Server.c59_replies h
  obtain ⟨us, h1, h2⟩ := reply_texts short whole_answers (c69_requests hr sched fin) hm
  refine ⟨us, ks, ?_, h2⟩
  rw [written, Frame.c01_roundtrip, h1]
  intro m hm
  obtain ⟨p, hp, rfl⟩ := List.mem_map.mp hm
  have := hlen p hp
  simp only [Frame.maxInSize]
  omega

/-- C69: a text of a reply with a result has the identifier of the request, and the result is right
for what the text of the request says (`Backend.Spec.Right`). -/
theorem c69_right {e : Backend.Env} {rs : List (Request Json Json)} {us : List Text}
    {ks : List Nat} (h : Replied (Backend.world e) rs us ks) {i k : Nat} {u : Text} {r : Request Json Json}
    (hk : ks[i]? = some k) (hu : us[i]? = some u) (hr : rs[k]? = some r) {v id : Json}
    (hm : Means u (.obj [("id".toList, id), ("result".toList, v), ("error".toList, .null)])) :
    id = r.id.getD .null ∧ Backend.Spec.Right e r v := by
  obtain ⟨⟨d, hd⟩, r', b, hr', hans, hmean⟩ := h.answers i k u hk hu
  rw [hr] at hr'
  injection hr' with hr'
  subst hr'
  have h1 := parse_of ⟨u, hd, hm, Rpc.writes_text u⟩
  rw [parse_of ⟨u, hd, hmean, Rpc.writes_text u⟩] at h1
  injection h1 with h1
  cases b with
  | error t => simp [replyValue] at h1
  | result w =>
    simp [replyValue] at h1
    obtain ⟨h1, rfl⟩ := h1
    exact ⟨h1.symm, Backend.right_of hans⟩

theorem every_of (short : Bool) {e : Backend.Env}
    {as : List (Request Bytes Bytes)} {rs : List (Request Json Json)} (hsame : All₂ SameRequest as rs)
    (hfine' : ∀ r ∈ rs, ∀ (c : Call) (p : Json) (a : Backend.Arg), r.params = some p → c.Name r.method →
      Backend.argument (Rpc.Server.reached c) p = some a →
      (∃ v t, Backend.Returns e (Rpc.Server.reached c) a v t) ∧ ¬Backend.Panics e (Rpc.Server.reached c) a)
    {n : Nat} {s : State Bytes Bytes Backend.Arg Json}
    (h : Rpc.Server.Steps (textWorld e) (start as) n s) :
    s.crashed = false ∧
    ((∀ s', Rpc.Server.Step (textWorld e) s s' → s'.broken ≠ s.broken) →
      (∀ p ∈ s.out, (replyText short p).length < 2 ^ 32) → s.loop = .closed ∧
      ∃ us ks, written short s.out = stream (us.map fun u => u.text ++ [10]) ∧ Replied (Backend.world e) rs us ks ∧
        ∀ k, k < rs.length → k ∈ ks ∨ s.broken = true) := by
  have hfine : ∀ r ∈ as, ∀ (c : Call) (p : Bytes) (a : Backend.Arg),
      c.Name r.method → r.params = some p → (textWorld e).unmarshal (Rpc.Server.reached c) p = .ok a →
      (∃ v t, Backend.Returns e (Rpc.Server.reached c) a v t) ∧ ¬Backend.Panics e (Rpc.Server.reached c) a := by
    intro r hr c p a hc hp hu
    obtain ⟨r', hr', hs⟩ := all₂_back hsame hr
    have hpar := hs.params
    rw [hp] at hpar
    cases hv : r'.params with
    | none => rw [hv] at hpar; exact hpar.elim
    | some v =>
      rw [hv] at hpar
      rw [unmarshal_text hpar] at hu
      have ha : Backend.argument (Rpc.Server.reached c) v = some a := by
        simp only [Backend.world] at hu
        split at hu
        · rename_i x hx; injection hu with hu; rw [hx, hu]
        · cases hu
      exact hfine' r' hr' c v a hv (by rw [← hs.method]; exact hc) ha
  have hcr : s.crashed = false := by
    cases hc : s.crashed with
    | false => rfl
    | true =>
      obtain ⟨r, hr, c, p, a, h1, h2, h3, h4⟩ := Rpc.Server.c59_crash h hc
      exact absurd h4 (hfine r hr c p a h1 h2 h3).2
  refine ⟨hcr, fun hstuck hlen => ?_⟩
  have hends : ∀ r ∈ as, ¬Rpc.Server.NeverEnds (textWorld e) r := by
    rintro r hr ⟨c, p, a, h1, h2, h3, h4, _⟩
    obtain ⟨⟨v, t, h5⟩, _⟩ := hfine r hr c p a h1 h2 h3
    exact h4 v t h5
  obtain ⟨⟨ks, hm, hall⟩, hclosed⟩ := Rpc.Server.c59_progress h hcr hstuck
  obtain ⟨us, h1, h2⟩ := reply_texts short whole_answers hsame hm
  refine ⟨hclosed hends, us, ks, ?_, h2, ?_⟩
  · rw [written, Frame.c01_wire _ _ (by
      intro m hm
      obtain ⟨p, hp, rfl⟩ := List.mem_map.mp hm
      exact hlen p hp), h1]
    simp
  intro k hk
  have hk' : k < (as).length := by rw [all₂_length hsame]; exact hk
  rcases hall k _ (List.getElem?_eq_getElem hk') with h1 | h1 | ⟨v, _, h1⟩ | h1
  · exact .inl h1
  · exact .inr h1
  · cases h1
  · exact absurd h1 (hends _ (List.getElem_mem hk'))

/-- The same for requests however they have been read. -/
theorem every_request (short : Bool) {e : Backend.Env}
    (hst : Extract.StepwiseFiles e.files e.sources) (hnow : ∃ files, e.now files)
    {as : List (Request Bytes Bytes)} {rs : List (Request Json Json)} (hsame : All₂ SameRequest as rs)
    (hmod : ∀ r ∈ rs, ∀ p q, r.params = some p →
      Backend.argument .urlMentions p = some (.urlMentions q) → Backend.Spec.Modest e q)
    {n : Nat} {s : State Bytes Bytes Backend.Arg Json}
    (h : Rpc.Server.Steps (textWorld e) (start as) n s) :
    s.crashed = false ∧
    ((∀ s', Rpc.Server.Step (textWorld e) s s' → s'.broken ≠ s.broken) →
      (∀ p ∈ s.out, (replyText short p).length < 2 ^ 32) → s.loop = .closed ∧
      ∃ us ks, written short s.out = stream (us.map fun u => u.text ++ [10]) ∧ Replied (Backend.world e) rs us ks ∧
        ∀ k, k < rs.length → k ∈ ks ∨ s.broken = true) := by
  refine every_of short hsame (fun r' hr' c v a hv _ ha => ?_) h
  refine Backend.returns_exists hst hnow ha ?_
  rintro q rfl
  refine hmod r' hr' v q hv ?_
  cases c <;> simp only [Backend.argument, Rpc.Server.reached, Option.map_eq_some_iff] at ha <;>
    obtain ⟨_, h1, h2⟩ := ha <;> cases h2
  simp only [Backend.argument, h1, Option.map_some]

namespace Spec

/-- The object a client sends. -/
def object (id params : Json) (method : Str) : Json :=
  .obj [("method".toList, .str method), ("params".toList, params), ("id".toList, id)]

end Spec

/-- C69, for files with outlines that go deeper step by step and limits that are not negative: no
texts of requests end the process, and each of them gets the text of its reply unless the output is
closed.  Missing: outlines that skip a level, see `Extract.c26_violation_skipped_level`. -/
theorem c69_every_request_partial (short : Bool) {e : Backend.Env}
    (hst : Extract.StepwiseFiles e.files e.sources) (hnow : ∃ files, e.now files)
    {xs : List Bytes} {rs : List (Request Json Json)} (hr : Sent xs rs)
    (hmod : ∀ r ∈ rs, ∀ q, Backend.Spec.Says r .urlMentions (.urlMentions q) → Backend.Spec.Modest e q)
    {sched : List Nat} {fin : Frame.SrcErr} {n : Nat} {s : State Bytes Bytes Backend.Arg Json}
    (h : Rpc.Server.Steps (textWorld e) (start (requests ⟨stream xs, sched, fin⟩)) n s) :
    s.crashed = false ∧
    ((∀ s', Rpc.Server.Step (textWorld e) s s' → s'.broken ≠ s.broken) →
      (∀ p ∈ s.out, (replyText short p).length < 2 ^ 32) → s.loop = .closed ∧
      ∃ us ks, written short s.out = stream (us.map fun u => u.text ++ [10]) ∧ Replied (Backend.world e) rs us ks ∧
        ∀ k, k < rs.length → k ∈ ks ∨ s.broken = true) := by
  exact every_request short hst hnow (c69_requests hr sched fin)
    (fun r hr p q hp ha => hmod r hr q ⟨p, hp, Backend.c61_exact.1 ha⟩) h

/-- C69: every request may be sent; its text is what `json.Marshal` makes of the object, and a newline
may follow it. -/
theorem c69_sendable (short : Bool) {id params : Json} {method : Str} (hp : Plain 9999 params)
    (hi : Plain 9999 id) (h1 : params ≠ .null) (h2 : id ≠ .null) {w : Bytes} (hw : Blank w)
    (hl : (enc short (object id params method) ++ w).length ≤ 2 ^ 30) :
    Sent [enc short (object id params method) ++ w] [⟨some id, method, some params⟩] := by
  refine .last ⟨_, ⟨[], _, w, Rpc.blank_nil, c68_encode short (d := 10000)
    (by simp [Plain, MembersPlain, hp, hi]), hw, rfl⟩, ?_⟩ hl
  exact ⟨.value (by simp) rfl .done, .value h1 rfl .done, .value h2 rfl .done⟩

/-! ### A concrete session -/

theorem one_request {A M : Type} [Rpc.Server.Methods M] {w : Rpc.Server.World Bytes A Json M}
    {r : Request Bytes Bytes} {m : M} {a : A} {v : Json} (p : Rpc.Server.prepare w r = .ok (m, a))
    (q : w.returns m a v none) (e : (Rpc.Server.returned v none).encodes w = true) :
    ∃ n s, Rpc.Server.Steps w (start [r]) n s ∧ s.loop = .closed ∧ s.broken = false ∧
      s.out = [⟨r.id, .result v⟩] := by
  have h : Rpc.Server.Steps w (start [r]) 0 (start [r]) := .refl
  have h : Rpc.Server.Steps w (start [r]) 1
      ⟨[], 1, [(1, r.id)], (Rpc.Server.set (fun _ => .idle) 1 .got), .busy 1, none, [], false, false, [r], []⟩ :=
    h.step (.read rfl rfl rfl)
  have h : Rpc.Server.Steps w (start [r]) 2
      ⟨[], 1, [(1, r.id)], (Rpc.Server.set (Rpc.Server.set (fun _ => .idle) 1 .got) 1 (.running m a)), .ready, none, [],
        false, false, [r], []⟩ :=
    h.step (.spawn (k := 1) rfl rfl rfl rfl p)
  have h : Rpc.Server.Steps w (start [r]) 3
      ⟨[], 1, [(1, r.id)], (Rpc.Server.set (Rpc.Server.set (Rpc.Server.set (fun _ => .idle) 1 .got) 1 (.running m a)) 1
        (.want (Rpc.Server.returned v none))), .ready, none, [], false, false, [r], []⟩ :=
    h.step (.finish (k := 1) rfl rfl q)
  have h : Rpc.Server.Steps w (start [r]) 4
      ⟨[], 1, [], (Rpc.Server.set (Rpc.Server.set (Rpc.Server.set (Rpc.Server.set (fun _ => .idle) 1 .got) 1 (.running m a)) 1
        (.want (Rpc.Server.returned v none))) 1 (.writing r.id (Rpc.Server.returned v none))), .ready, some 1, [], false,
        false, [r], []⟩ :=
    h.step (.take (k := 1) rfl rfl rfl rfl)
  have h : Rpc.Server.Steps w (start [r]) 5
      ⟨[], 1, [], (Rpc.Server.set (Rpc.Server.set (Rpc.Server.set (Rpc.Server.set (Rpc.Server.set (fun _ => .idle) 1 .got) 1 (.running m a)) 1
        (.want (Rpc.Server.returned v none))) 1 (.writing r.id (Rpc.Server.returned v none))) 1 .done), .ready, none,
        [⟨r.id, Rpc.Server.returned v none⟩], false, false, [r], [(1, ⟨r.id, Rpc.Server.returned v none⟩, true)]⟩ := by
    have h' := h.step (.write (k := 1) rfl rfl)
    simpa only [e, Rpc.Server.Loop.after, Bool.not_false, Bool.and_self, if_true, List.nil_append] using h'
  have h : Rpc.Server.Steps w (start [r]) 6
      ⟨[], 1, [], (Rpc.Server.set (Rpc.Server.set (Rpc.Server.set (Rpc.Server.set (Rpc.Server.set (fun _ => .idle) 1 .got) 1 (.running m a)) 1
        (.want (Rpc.Server.returned v none))) 1 (.writing r.id (Rpc.Server.returned v none))) 1 .done), .waiting, none,
        [⟨r.id, Rpc.Server.returned v none⟩], false, false, [r], [(1, ⟨r.id, Rpc.Server.returned v none⟩, true)]⟩ :=
    h.step (.eof rfl rfl rfl)
  have h : Rpc.Server.Steps w (start [r]) 7
      ⟨[], 1, [], (Rpc.Server.set (Rpc.Server.set (Rpc.Server.set (Rpc.Server.set (Rpc.Server.set (fun _ => .idle) 1 .got) 1 (.running m a)) 1
        (.want (Rpc.Server.returned v none))) 1 (.writing r.id (Rpc.Server.returned v none))) 1 .done), .closed, none,
        [⟨r.id, Rpc.Server.returned v none⟩], false, false, [r], [(1, ⟨r.id, Rpc.Server.returned v none⟩, true)]⟩ :=
    h.step (Rpc.Server.Step.close rfl rfl (by
      intro k h1 h2
      have h2 : k ≤ 1 := h2
      obtain rfl : k = 1 := by omega
      rfl))
  exact ⟨_, _, h, rfl, rfl, rfl⟩

/-- The text of a request to open a file. -/
def exText : Bytes :=
  "{\"method\":\"burl.visit\",\"params\":[{\"file\":\"b.txt\",\"lineNo\":1}],\"id\":9}".toList.flatMap putRune

def exParams : Json := .arr [.obj [("file".toList, .str "b.txt".toList), ("lineNo".toList, .num 1)]]

/-- Hypotheses are met: the text of a request, its run and the text of the reply. -/
theorem example_visit : ∃ n s,
    Sent [exText] [⟨some (.num 9), "burl.visit".toList, some exParams⟩] ∧
    Rpc.Server.Steps (textWorld Backend.exTwo) (start (requests ⟨stream [exText], [], .eof⟩)) n s ∧
    s.loop = .closed ∧ s.broken = false ∧ s.out = [⟨some [57], .result (.bool true)⟩] ∧
    s.out.map (replyText true) =
      ["{\"id\":9,\"result\":true,\"error\":null}\n".toList.flatMap putRune] := by
  have ht : enc true (object (.num 9) exParams "burl.visit".toList) ++ [] = exText := by decide +kernel
  have h2 := c69_sendable true (id := .num 9) (params := exParams) (w := [])
    (method := "burl.visit".toList) (by simp [exParams, Plain, AllPlain, MembersPlain])
    (by simp [Plain]) (by simp [exParams]) (by simp) Rpc.blank_nil (by rw [ht]; decide +kernel)
  rw [ht] at h2
  have hq : requests ⟨stream [exText], [], .eof⟩ = [⟨some [57], "burl.visit".toList,
      some ("[{\"file\":\"b.txt\",\"lineNo\":1}]".toList.flatMap putRune)⟩] := by
    have hx : (requests ⟨stream [exText], [], .eof⟩).map (fun r => (r.id, r.method, r.params)) =
        [(some [57], "burl.visit".toList,
        some ("[{\"file\":\"b.txt\",\"lineNo\":1}]".toList.flatMap putRune))] := by decide +kernel
    generalize requests ⟨stream [exText], [], .eof⟩ = q at hx
    match q, hx with
    | [⟨id, m, p⟩], hx => simpa using hx
  have hu : unmarshal ("[{\"file\":\"b.txt\",\"lineNo\":1}]".toList.flatMap putRune) = some exParams := by
    have hx : enc true exParams = "[{\"file\":\"b.txt\",\"lineNo\":1}]".toList.flatMap putRune := by
      decide +kernel
    rw [← hx]
    exact c68_roundtrip true (by simp [exParams, Plain, AllPlain, MembersPlain])
  have d3 : Rpc.dispatch "burl.visit".toList = .ok .visit := by rfl
  have d5 : Backend.argument .visit exParams = some (.visit ⟨"b.txt".toList, 1⟩) := by rfl
  obtain ⟨n, s, h3, h4, h5, h6⟩ := one_request (w := textWorld Backend.exTwo)
    (r := ⟨some [57], "burl.visit".toList,
      some ("[{\"file\":\"b.txt\",\"lineNo\":1}]".toList.flatMap putRune)⟩)
    (m := .visit) (a := .visit ⟨"b.txt".toList, 1⟩) (v := .bool true)
    (by simp only [Rpc.Server.prepare, Rpc.Server.Methods.find, d3, textWorld, textOf, hu, Backend.world, d5]) Backend.exVisit rfl
  refine ⟨n, s, h2, ?_, h4, h5, h6, ?_⟩
  · rw [hq]; exact h3
  · rw [h6]; decide +kernel

end Burl.JsonText
