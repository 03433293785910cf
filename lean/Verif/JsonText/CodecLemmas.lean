import Verif.JsonText.Codec
import Verif.JsonText.CompactLemmas
import Verif.Backend.ServeProps
import Verif.Backend.RepeatedProps
/-! Requests and replies as texts. -/
namespace Burl.JsonText
open Burl
open Burl.Json (Json)
open Burl.Rpc (isSpace)
open Burl.Rpc.Spec (Piece Num strText Blank Padded)
open Burl.Rpc.Server (Request Reply Body Answers)
open Burl.Backend.Spec (Latest TakesStr)
open Burl.JsonText.Spec

namespace Spec

/-- Letters without case; the long s is a variant of s. -/
def lower (c : Char) : Char := if c = 'ſ' then 's' else c.toLower

/-- Values of members with a name; the case of letters does not matter. -/
def membersNamed (name : String) (ms : List (Str × Json)) : List Json :=
  (ms.filter fun m => m.1.map lower = name.toList).map (·.2)

/-- A member that may be absent or `null`; the last one counts. -/
def MayBe : List Json → Option Json → Prop :=
  Latest (fun _ v o => o = some v) (fun _ => none) none

/-- An object is a request; it may have other members.  The method is the last string; `null` in
place of it changes nothing. -/
structure Says (ms : List (Str × Json)) (r : Request Json Json) : Prop where
  method : Latest TakesStr id [] (membersNamed "method" ms) r.method
  params : MayBe (membersNamed "params" ms) r.params
  id : MayBe (membersNamed "id" ms) r.id

/-- Values that are not requests: arrays and objects whose method is neither a string nor `null`. -/
def NoRequest (v : Json) : Prop :=
  (∃ vs, v = .arr vs) ∨
  ∃ ms, v = .obj ms ∧ ∃ m ∈ membersNamed "method" ms, m ≠ .null ∧ ∀ s, m ≠ .str s

/-- A text of a value that may be absent. -/
def TextOf : Option Bytes → Option Json → Prop
  | none, none => True
  | some x, some v => TextFor 9999 v x
  | _, _ => False

/-- A request whose parameters and identifier are texts. -/
structure SameRequest (a : Request Bytes Bytes) (b : Request Json Json) : Prop where
  method : a.method = b.method
  params : TextOf a.params b.params
  id : TextOf a.id b.id

end Spec

/-! ### Reading -/

mutual
/-- A text that is allowed in a shallow place is allowed in a deeper one. -/
theorem ok_mono : ∀ (t : Text) (d e : Nat), d ≤ e → t.ok d = true → t.ok e = true
  | .null, _, _, _, _ => by simp [Rpc.Spec.Json.ok]
  | .bool _, _, _, _, _ => by simp [Rpc.Spec.Json.ok]
  | .num _, _, _, _, h => by simpa [Rpc.Spec.Json.ok] using h
  | .str _, _, _, _, h => by simpa [Rpc.Spec.Json.ok] using h
  | .arr _, 0, _, _, h => by simp [Rpc.Spec.Json.ok] at h
  | .obj _, 0, _, _, h => by simp [Rpc.Spec.Json.ok] at h
  | .arr vs, d + 1, 0, he, _ => by omega
  | .obj vs, d + 1, 0, he, _ => by omega
  | .arr vs, d + 1, e + 1, he, h => by
    rw [Rpc.Spec.Json.ok] at h ⊢
    exact arrOk_mono vs d e (by omega) h
  | .obj vs, d + 1, e + 1, he, h => by
    rw [Rpc.Spec.Json.ok] at h ⊢
    exact objOk_mono vs d e (by omega) h
theorem arrOk_mono : ∀ (ts : List Text) (d e : Nat), d ≤ e → Rpc.Spec.arrOk d ts = true →
    Rpc.Spec.arrOk e ts = true
  | [], _, _, _, _ => by simp [Rpc.Spec.arrOk]
  | t :: ts, d, e, he, h => by
    rw [Rpc.Spec.arrOk, Bool.and_eq_true] at h ⊢
    exact ⟨ok_mono t d e he h.1, arrOk_mono ts d e he h.2⟩
theorem objOk_mono : ∀ (ts : List (List Piece × Text)) (d e : Nat), d ≤ e →
    Rpc.Spec.objOk d ts = true → Rpc.Spec.objOk e ts = true
  | [], _, _, _, _ => by simp [Rpc.Spec.objOk]
  | (k, t) :: ts, d, e, he, h => by
    rw [Rpc.Spec.objOk, Bool.and_eq_true, Bool.and_eq_true] at h ⊢
    exact ⟨⟨h.1.1, ok_mono t d e he h.1.2⟩, objOk_mono ts d e he h.2⟩
end

theorem raw_of {d : Nat} {v : Json} {x : Bytes} (h : Padded (TextFor d v) x) {rest : Bytes}
    (hr : Stop rest) : ∃ y r, TextFor d v y ∧ raw (x ++ rest) = some (y, r) ∧ skip r = skip rest := by
  obtain ⟨w, y, w', h1, ⟨t, h2, h3, h4⟩, h5, rfl⟩ := h
  refine ⟨y, w' ++ rest, ⟨t, h2, h3, h4⟩, ?_, skip_blank h5 _⟩
  obtain ⟨b, bs, e, -, hs⟩ := Rpc.writes_head h2 h4
  simp only [List.append_assoc]
  rw [raw, value_blank h1, value_of t d v h2 h3 y h4 _ (w' ++ rest)
    (by simp only [List.length_append]; omega) (hr.blank h5), Option.map_some]
  have : skip (w ++ (y ++ (w' ++ rest))) = y ++ (w' ++ rest) := by
    rw [skip_blank h1, e, List.cons_append, skip_head hs]
  simp only [this, List.length_append, Nat.add_sub_cancel, List.take_left]

/-- Names and texts of members. -/
inductive Texts : List (Str × Bytes) → List (Str × Json) → Prop where
  | nil : Texts [] []
  | cons {k v x xs vs} : TextFor 9999 v x → Texts xs vs → Texts ((k, x) :: xs) ((k, v) :: vs)

theorem padded_for {d : Nat} {t : Text} {v : Json} {x : Bytes} (h : t.ok d = true) (hm : Means t v)
    (hx : Padded (fun y => t.Writes y) x) : Padded (TextFor d v) x := by
  obtain ⟨w, y, w', h1, h2, h3, rfl⟩ := hx
  exact ⟨w, y, w', h1, ⟨t, h, hm, h2⟩, h3, rfl⟩

theorem rawMembers_of : ∀ (k : List Piece) (t : Text) (ts : List (List Piece × Text))
    (vs : List (Str × Json)), Rpc.Spec.objOk 9999 ((k, t) :: ts) = true →
    MembersMean ((k, t) :: ts) vs → ∀ (x : Bytes), Rpc.Spec.objWrites ((k, t) :: ts) x →
    ∀ (f : Nat) (rest : Bytes), x.length ≤ f →
    ∃ xs, rawMembers f (x ++ 125 :: rest) = some xs ∧ Texts xs vs
  | k, t, [], vs, h, hm, x, hx, f, rest, hf => by
    rw [MembersMean] at hm
    obtain ⟨s, w, ws, h0, h1, h2, rfl⟩ := hm
    rw [MembersMean] at h2; subst h2
    rw [Rpc.Spec.objOk, Bool.and_eq_true, Bool.and_eq_true] at h
    rw [Rpc.Spec.objWrites] at hx
    obtain ⟨a, y, ha, hy, rfl⟩ := hx
    simp only [List.length_cons, List.length_append] at hf
    obtain ⟨f, rfl⟩ : ∃ g, f = g + 1 := ⟨f - 1, by omega⟩
    simp only [List.cons_append, List.append_assoc]
    obtain ⟨r1, r2, g1, g2, g3⟩ := name_of h0 ha (y ++ 125 :: rest)
    obtain ⟨z, r, hz, e1, e2⟩ := raw_of (padded_for h.1.2 h1 hy) (rest := 125 :: rest)
      (Stop.cons (by decide))
    rw [rawMembers, g1]
    simp only [ne_eq, not_true, if_false]
    rw [g2]
    simp only [Option.bind_some]
    rw [g3]
    simp only [not_true, if_false]
    rw [e1]
    simp only [Option.bind_some]
    rw [e2, skip_head (by decide)]
    exact ⟨_, rfl, .cons hz .nil⟩
  | k, t, (k', t') :: ts, vs, h, hm, x, hx, f, rest, hf => by
    rw [MembersMean] at hm
    obtain ⟨s, w, ws, h0, h1, h2, rfl⟩ := hm
    rw [Rpc.Spec.objOk, Bool.and_eq_true, Bool.and_eq_true] at h
    rw [Rpc.Spec.objWrites] at hx
    obtain ⟨a, y, z, ha, hy, hz, rfl⟩ := hx
    simp only [List.length_cons, List.length_append] at hf
    obtain ⟨f, rfl⟩ : ∃ g, f = g + 1 := ⟨f - 1, by omega⟩
    obtain ⟨xs, e, hxs⟩ := rawMembers_of k' t' ts ws h.2 h2 z hz f rest (by omega)
    simp only [List.cons_append, List.append_assoc]
    obtain ⟨r1, r2, g1, g2, g3⟩ := name_of h0 ha (y ++ 44 :: (z ++ 125 :: rest))
    obtain ⟨u, r, hu, e1, e2⟩ := raw_of (padded_for h.1.2 h1 hy) (rest := 44 :: (z ++ 125 :: rest))
      (Stop.cons (by decide))
    rw [rawMembers, g1]
    simp only [ne_eq, not_true, if_false]
    rw [g2]
    simp only [Option.bind_some]
    rw [g3]
    simp only [not_true, if_false]
    rw [e1]
    simp only [Option.bind_some]
    rw [e2, skip_head (by decide)]
    simp only [if_true]
    rw [e]
    exact ⟨_, rfl, .cons hu hxs⟩

theorem parse_of {d : Nat} {v : Json} {x : Bytes} (h : TextFor d v x) : parse x = some v := by
  obtain ⟨t, h1, h2, h3⟩ := h
  exact parse_writes h1 h2 (Rpc.Padded.self h3)

theorem rawField_of {v : Json} {x : Bytes} (h : TextFor 9999 v x) :
    (v = .null → rawField x = none) ∧ (v ≠ .null → rawField x = some x) := by
  have h1 := parse_of h
  have h2 : parse [110, 117, 108, 108] = some .null := rfl
  constructor
  · rintro rfl
    obtain ⟨t, -, hm, hx⟩ := h
    cases t with
    | null =>
      rw [Rpc.Spec.Json.Writes] at hx
      subst hx
      decide
    | bool b => rw [Means] at hm; cases hm
    | num n => rw [Means, numValue] at hm; split at hm <;> cases hm
    | str s => rw [Means] at hm; obtain ⟨_, -, hm⟩ := hm; cases hm
    | arr s => rw [Means] at hm; obtain ⟨_, -, hm⟩ := hm; cases hm
    | obj s => rw [Means] at hm; obtain ⟨_, -, hm⟩ := hm; cases hm
  · intro hv
    rw [rawField, if_neg]
    intro e
    rw [e, h2] at h1
    exact hv (Option.some.inj h1).symm

/-- What is known in the middle of `header`. -/
structure Half (ms : List (Str × Json)) (r : Request Json Json) (a : Request Bytes Bytes) : Prop where
  method : Latest TakesStr id a.method (membersNamed "method" ms) r.method
  params : ∃ o, TextOf a.params o ∧
    Latest (fun _ v o => o = some v) (fun _ => none) o (membersNamed "params" ms) r.params
  id : ∃ o, TextOf a.id o ∧
    Latest (fun _ v o => o = some v) (fun _ => none) o (membersNamed "id" ms) r.id

theorem fold_lower {c x : Char} (h1 : Backend.foldChar x = x) (h2 : x ≠ 'k') :
    Backend.foldChar c = Backend.foldChar x ↔ lower c = x := by
  rw [h1]
  unfold Backend.foldChar lower
  by_cases hs : c = 'ſ'
  · subst hs
    rw [if_neg (by decide), if_pos (by decide), if_pos rfl]
  by_cases hk : c = Char.ofNat 0x212A
  · subst hk
    rw [if_neg (by decide), if_neg (by decide), if_pos rfl, if_neg (by decide)]
    constructor
    · intro h; exact absurd h.symm h2
    · intro h
      have : (Char.ofNat 0x212A).toLower = Char.ofNat 0x212A := by decide
      rw [this] at h
      subst h
      revert h1; decide
  have hs' : ¬ c = Char.ofNat 0x17F := hs
  rw [if_neg hs, if_neg hs', if_neg hk]
  by_cases hu : 'A' ≤ c ∧ c ≤ 'Z'
  · rw [if_pos hu]
    have : c.toLower = Char.ofNat (c.toNat + 32) := by
      have hall : ∀ n : Fin 128, 'A' ≤ Char.ofNat n ∧ Char.ofNat n ≤ 'Z' →
          (Char.ofNat n).toLower = Char.ofNat ((Char.ofNat n).toNat + 32) := by decide
      have hlt : c.toNat < 128 := Nat.lt_of_le_of_lt (show c.toNat ≤ 90 from hu.2) (by decide)
      have := hall ⟨c.toNat, hlt⟩
      simp only [ofNat_toNat] at this
      exact this hu
    rw [this]
  · rw [if_neg hu]
    have : c.toLower = c := by
      unfold Char.toLower
      rw [dif_neg]
      exact hu
    rw [this]

theorem sameName_lower : ∀ (name k : Str), (∀ x ∈ name, Backend.foldChar x = x ∧ x ≠ 'k') →
    (Backend.sameName name k = true ↔ k.map lower = name) := by
  intro name k
  unfold Backend.sameName
  rw [decide_eq_true_eq]
  induction name generalizing k with
  | nil => intro _; cases k <;> simp
  | cons x name ih =>
    intro h
    cases k with
    | nil => simp
    | cons c k =>
      simp only [List.map_cons, List.cons.injEq]
      rw [ih k (fun y hy => h y (List.mem_cons_of_mem _ hy)),
        fold_lower (h x (by simp)).1 (h x (by simp)).2]

theorem named_cons (name : String) (hn : ∀ x ∈ name.toList, Backend.foldChar x = x ∧ x ≠ 'k') (k : Str)
    (v : Json) (ms : List (Str × Json)) : membersNamed name ((k, v) :: ms) =
      if Backend.sameName name.toList k = true then v :: membersNamed name ms else membersNamed name ms := by
  unfold membersNamed
  simp only [List.filter_cons, decide_eq_true_eq]
  simp only [sameName_lower _ k hn]
  split <;> rfl

theorem sameName_excl {a b k : Str} (hab : a.map Backend.foldChar ≠ b.map Backend.foldChar)
    (h : Backend.sameName a k = true) : Backend.sameName b k = false := by
  simp only [Backend.sameName, decide_eq_true_eq, decide_eq_false_iff_not] at h ⊢
  intro h'
  exact hab (h.symm.trans h')

theorem latest_nil {α : Type} {R : α → Json → α → Prop} {null : α → α} {a b : α}
    (h : Latest R null a [] b) : a = b := by
  cases h
  rfl

theorem mayBe_cons {x : Bytes} {v : Json} {vs : List Json} {o o' : Option Json} (h : TextFor 9999 v x)
    (hb : Latest (fun _ v o => o = some v) (fun _ => none) o (v :: vs) o') :
    ∃ p, TextOf (rawField x) p ∧ Latest (fun _ v o => o = some v) (fun _ => none) p vs o' := by
  obtain ⟨h1, h2⟩ := rawField_of h
  cases hb with
  | null hl => exact ⟨none, by rw [h1 rfl]; trivial, hl⟩
  | value hv hr hl =>
    subst hr
    exact ⟨some v, by rw [h2 hv]; exact h, hl⟩

theorem header_of {xs : List (Str × Bytes)} {vs : List (Str × Json)} (hx : Texts xs vs)
    {r : Request Json Json} : ∀ {a : Request Bytes Bytes}, Half vs r a →
    ∃ b, header xs a = some b ∧ SameRequest b r := by
  induction hx with
  | nil =>
    intro a h
    obtain ⟨h1, ⟨o, h2, h3⟩, o', h4, h5⟩ := h
    have e1 := latest_nil h1
    have e2 := latest_nil h3
    have e3 := latest_nil h5
    exact ⟨a, rfl, e1, e2 ▸ h2, e3 ▸ h4⟩
  | @cons k v x xs vs hok hx ih =>
    intro a h
    obtain ⟨hme, hpa, hid⟩ := h
    rw [named_cons _ (by decide)] at hme hpa hid
    rw [header]
    by_cases h1 : Backend.sameName "method".toList k = true
    · have h2 := sameName_excl (b := "params".toList) (by decide) h1
      have h3 := sameName_excl (b := "id".toList) (by decide) h1
      rw [if_pos h1] at hme
      rw [if_neg (by rw [h2]; decide)] at hpa
      rw [if_neg (by rw [h3]; decide)] at hid
      rw [if_pos h1, parse_of hok]
      obtain ⟨ai, am, ap⟩ := a
      cases hme with
      | null hl => exact ih ⟨hl, hpa, hid⟩
      | value _ hs hl =>
        obtain rfl : v = _ := hs
        exact ih ⟨hl, hpa, hid⟩
    rw [if_neg h1] at hme ⊢
    by_cases h2 : Backend.sameName "params".toList k = true
    · have h3 := sameName_excl (b := "id".toList) (by decide) h2
      rw [if_pos h2] at hpa ⊢
      rw [if_neg (by rw [h3]; decide)] at hid
      obtain ⟨o, -, hpa⟩ := hpa
      exact ih ⟨hme, mayBe_cons hok hpa, hid⟩
    rw [if_neg h2] at hpa ⊢
    by_cases h3 : Backend.sameName "id".toList k = true
    · rw [if_pos h3] at hid ⊢
      obtain ⟨o, -, hid⟩ := hid
      exact ih ⟨hme, hpa, mayBe_cons hok hid⟩
    rw [if_neg h3] at hid ⊢
    exact ih ⟨hme, hpa, hid⟩

theorem header_none {xs : List (Str × Bytes)} {vs : List (Str × Json)} (hx : Texts xs vs)
    (h : ∃ m ∈ membersNamed "method" vs, m ≠ .null ∧ ∀ s, m ≠ .str s) :
    ∀ a, header xs a = none := by
  induction hx with
  | nil => obtain ⟨m, h, -⟩ := h; cases h
  | @cons k v x xs vs hok hx ih =>
    intro a
    rw [named_cons _ (by decide)] at h
    rw [header]
    by_cases h1 : Backend.sameName "method".toList k = true
    · rw [if_pos h1] at h
      rw [if_pos h1, parse_of hok]
      obtain ⟨m, hm, h2⟩ := h
      rcases List.mem_cons.1 hm with rfl | hm'
      · cases m with
        | null => exact absurd rfl h2.1
        | str s => exact absurd rfl (h2.2 s)
        | _ => rfl
      · cases v with
        | null => exact ih ⟨m, hm', h2⟩ _
        | str s => exact ih ⟨m, hm', h2⟩ _
        | _ => rfl
    rw [if_neg h1] at h ⊢
    have ih := ih h
    split
    · exact ih _
    split
    · exact ih _
    exact ih _

namespace Spec

/-- A text of a request: an object, and white space around its tokens. -/
def RequestText (r : Request Json Json) (x : Bytes) : Prop :=
  ∃ vs, Padded (TextFor 10000 (.obj vs)) x ∧ Says vs r

end Spec

/-- Texts of objects. -/
theorem textFor_obj {d : Nat} {vs : List (Str × Json)} {x : Bytes} (h : TextFor d (.obj vs) x) :
    ∃ kvs : List (List Piece × Text), (Rpc.Spec.Json.obj kvs).ok d = true ∧ MembersMean kvs vs ∧
      (Rpc.Spec.Json.obj kvs).Writes x := by
  obtain ⟨t, h1, h2, h3⟩ := h
  cases t with
  | obj kvs =>
    rw [Means] at h2
    obtain ⟨_, h2, e⟩ := h2
    cases e
    exact ⟨kvs, h1, h2, h3⟩
  | num n => rw [Means, numValue] at h2; split at h2 <;> cases h2
  | _ => simp [Means] at h2

theorem request_obj {vs : List (Str × Json)} {x w' : Bytes} (hx : TextFor 10000 (.obj vs) x) {w : Bytes}
    (hw : Blank w) : ∃ xs, request (w ++ (x ++ w')) = header xs ⟨none, [], none⟩ ∧ Texts xs vs := by
  obtain ⟨kvs, hok, hm, hx⟩ := textFor_obj hx
  rw [Rpc.Spec.Json.ok] at hok
  rw [Rpc.Spec.Json.Writes] at hx
  obtain ⟨y, hy, rfl⟩ := hx
  cases kvs with
  | nil =>
    rw [MembersMean] at hm; subst hm
    rw [Rpc.Spec.objWrites] at hy
    refine ⟨[], ?_, .nil⟩
    rw [request, skip_blank hw, List.cons_append, skip_head (by decide)]
    simp only [if_true, List.append_assoc, List.cons_append, List.nil_append]
    rw [skip_blank hy, skip_head (by decide)]
    simp
  | cons m ms =>
    obtain ⟨k, t⟩ := m
    obtain ⟨xs, e, hx⟩ := rawMembers_of k t ms vs hok hm y hy
      (w ++ (123 :: (y ++ [125]) ++ w')).length w'
      (by simp only [List.length_cons, List.length_append]; omega)
    refine ⟨xs, ?_, hx⟩
    obtain ⟨w'', bs, hh1, hh⟩ := Rpc.objWrites_head hy
    rw [request, skip_blank hw, List.cons_append, skip_head (by decide)]
    simp only [if_true, List.append_assoc, List.cons_append, List.nil_append] at e ⊢
    rw [e, if_neg]
    · rfl
    · rw [hh, List.append_assoc, skip_blank hh1, List.cons_append, skip_head (by decide)]
      simp

theorem request_of {r : Request Json Json} {x : Bytes} (h : RequestText r x) :
    ∃ b, request x = some b ∧ SameRequest b r := by
  obtain ⟨vs, ⟨w, x, w', hw, hx, -, rfl⟩, hs⟩ := h
  obtain ⟨xs, e, ht⟩ := request_obj (w' := w') hx hw
  rw [e]
  exact header_of ht ⟨hs.method, ⟨none, trivial, hs.params⟩, none, trivial, hs.id⟩

end Burl.JsonText
