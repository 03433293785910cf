import Verif.Backend.DecodeProps
/-! Parameters with members that are repeated (C61). -/
namespace Burl.Backend
open Burl.Json (Json)
open Burl.Rpc (Method)

namespace Spec

/-- Values of members with the name, letter case being ignored, in the order of the text. -/
def named (name : String) (ms : List (Str × Json)) : List Json :=
  (ms.filter fun m => decide (Alike name.toList m.1)).map (·.2)

/-- A variable and values that are put into it one after another: what `null` makes of the variable, and
what (`R`) another value does. -/
inductive Latest {α : Type} (R : α → Json → α → Prop) (null : α → α) : α → List Json → α → Prop where
  | done {a} : Latest R null a [] a
  | value {a v b vs c} : v ≠ .null → R a v b → Latest R null b vs c → Latest R null a (v :: vs) c
  | null {a vs c} : Latest R null (null a) vs c → Latest R null a (.null :: vs) c

/-- A string, whatever was there before. -/
def TakesStr (_ : Str) (v : Json) (s : Str) : Prop := v = .str s

/-- An integer of 64 bits. -/
def TakesInt (_ : Int) (v : Json) (n : Int) : Prop := v = .num n ∧ -2 ^ 63 ≤ n ∧ n < 2 ^ 63

/-- The same; it may be absent. -/
def TakesOptInt (_ : Option Int) (v : Json) (n : Option Int) : Prop := ∃ k, TakesInt 0 v k ∧ n = some k

/-- A list of strings. -/
def TakesStrs (_ : List Str) (v : Json) (ss : List Str) : Prop := v = .arr (ss.map .str)

/-- Anything. -/
def TakesAny (_ : Bool) (_ : Json) (b : Bool) : Prop := b = true

/-- Options: a limit that is not mentioned again is kept. -/
def TakesOptions (old : Option Int) (v : Json) (n : Option Int) : Prop :=
  ∃ ms k, v = .obj ms ∧ Latest TakesInt id (old.getD 0) (named "countLimit" ms) k ∧ n = some k

/-- Data to capture: an address that is not mentioned again is kept. -/
def TakesData (old : Str) (v : Json) (url : Str) : Prop :=
  ∃ ms, v = .obj ms ∧ Latest TakesStr id old (named "url" ms) url ∧
    ∀ t ∈ named "title" ms, t = .null ∨ ∃ s, t = .str s

/-- A list, put into a variable that has elements of the list and further ones, of longer lists that
were there before.  An element that is `null` is made of what was in its place; an empty list is
a new variable. -/
def TakesList {α : Type} (R : α → Json → α → Prop) (null : α → α) (zero : α)
    (old : List α × List α) (v : Json) (new : List α × List α) : Prop :=
  ∃ es, v = .arr es ∧ (es = [] → new = ([], [])) ∧
    (es ≠ [] → new.1.length = es.length ∧ new.2 = (old.1 ++ old.2).drop es.length ∧
      ∀ (i : Nat) e b, es[i]? = some e → new.1[i]? = some b →
        e = .null ∧ b = null ((old.1 ++ old.2)[i]?.getD zero) ∨
        e ≠ .null ∧ R ((old.1 ++ old.2)[i]?.getD zero) e b)

/-- A format that is offered: what is not mentioned again is kept. -/
def TakesFormat (old : HelloFormat) (v : Json) (new : HelloFormat) : Prop :=
  ∃ ms, v = .obj ms ∧ Latest TakesStr id old.format (named "format" ms) new.format ∧
    Latest TakesStr id old.version (named "version" ms) new.version ∧
    ∀ o ∈ named "options" ms, o = .null ∨ ∃ os, o = .obj os

/-- A list of strings in a variable that was empty. -/
def Strs (vs : List Json) (ss : List Str) : Prop :=
  ∃ past, Latest (TakesList TakesStr id []) (fun _ => ([], [])) ([], []) vs (ss, past)

/-- Strings that are not used. -/
def Ignored (vs : List Json) : Prop := ∀ v ∈ vs, v = .null ∨ ∃ s, v = .str s

/-- What members of an object mean for a method. -/
inductive Object (ms : List (Str × Json)) : Method → Arg → Prop where
  | hello {fs past} : Latest (TakesList TakesFormat id ⟨[], []⟩) (fun _ => ([], [])) ([], [])
      (named "formats" ms) (fs, past) → Ignored (named "version" ms) →
      Object ms .hello (.hello fs)
  | capture {q : Emacs.CaptureQuery} : Latest TakesStr id [] (named "format" ms) q.format →
      Ignored (named "version" ms) → Latest TakesData id [] (named "data" ms) q.url →
      Latest TakesAny (fun _ => false) false (named "error" ms) q.hasError →
      Object ms .capture (.capture q)
  | urlMentions {q : Tree.MentionsQuery} : Strs (named "variants" ms) q.variants →
      Latest TakesOptions (fun _ => none) none (named "options" ms) q.countLimit →
      Object ms .urlMentions (.urlMentions q)
  | visit {q : Emacs.Location} : Latest TakesStr id [] (named "file" ms) q.filePath →
      Latest TakesInt id 0 (named "lineNo" ms) q.lineNo → Object ms .visit (.visit q)
  | search {q : SearchQuery} : Latest TakesStr id [] (named "q" ms) q.query →
      Latest TakesOptInt (fun _ => none) none (named "limit" ms) q.limit →
      Latest TakesOptInt (fun _ => none) none (named "tol" ms) q.tolerance →
      Object ms .search (.search q)
  | linkSet {ps} : Strs (named "prefix" ms) ps → Object ms .linkSet (.linkSet ps)

/-- What parameters mean for a method: they are an array with an object in front; `null` and the
absence of the object are the same as an object without members. -/
inductive Given (m : Method) : Json → Arg → Prop where
  | object {ms rest a} : Object ms m a → Given m (.arr (.obj ms :: rest)) a
  | null {rest a} : Object [] m a → Given m (.arr (.null :: rest)) a
  | empty {a} : Object [] m a → Given m (.arr []) a
  | nothing {a} : Object [] m a → Given m .null a

/-- Lists in which every element is given. -/
def NoNulls (vs : List Json) : Prop := ∀ es, .arr es ∈ vs → .null ∉ es

end Spec
open Spec

theorem named_eq (name : String) (ms : List (Str × Json)) :
    named name ms = valuesOf name.toList ms := by
  unfold named valuesOf
  congr 2
  funext m
  rw [Bool.eq_iff_iff, decide_eq_true_eq, sameName_iff]

theorem fits_iff {name : String} {ms : List (Str × Json)} {ok : Json → Bool} :
    Fits ms name.toList ok ↔ ∀ v ∈ named name ms, ok v = true := by
  unfold Fits named
  simp only [List.mem_map, List.mem_filter, decide_eq_true_eq]
  constructor
  · rintro h v ⟨m, ⟨h1, h2⟩, rfl⟩; exact h m h1 h2
  · exact fun h m h1 h2 => h _ ⟨m, ⟨h1, h2⟩, rfl⟩

/-- A decoder puts values into a variable as `R` and `null` say. -/
def TakesAs {σ α : Type} (view : σ → α) (d : Dec σ) (R : α → Json → α → Prop) (null : α → α)
    (P : Json → Prop) : Prop :=
  ∀ v, P v → ∀ old a, (d.ok v = true ∧ view (d.apply v old) = a) ↔
    (v = .null ∧ a = null (view old)) ∨ (v ≠ .null ∧ R (view old) v a)

/-- The same for the whole variable. -/
abbrev Takes {α : Type} (d : Dec α) (R : α → Json → α → Prop) (null : α → α) (P : Json → Prop) : Prop :=
  TakesAs id d R null P

theorem latest_iff {σ α : Type} {view : σ → α} {d : Dec σ} {R : α → Json → α → Prop} {null : α → α}
    {P : Json → Prop} (h : TakesAs view d R null P) :
    ∀ (vs : List Json) (a : σ) (c : α), (∀ v ∈ vs, P v) →
    (((∀ v ∈ vs, d.ok v = true) ∧ view (vs.foldl (fun x v => d.apply v x) a) = c) ↔
      Latest R null (view a) vs c)
  | [], a, c, _ => by
    constructor
    · rintro ⟨_, h⟩
      obtain rfl : view a = c := h
      exact .done
    · intro h
      cases h
      exact ⟨by simp, rfl⟩
  | v :: vs, a, c, hp => by
    have ih := fun b => latest_iff h vs b c fun w hw => hp w (by simp [hw])
    have hv := h v (hp v (by simp)) a
    constructor
    · rintro ⟨h1, h2⟩
      rw [List.foldl_cons] at h2
      have h3 := (ih (d.apply v a)).1 ⟨fun w hw => h1 w (by simp [hw]), h2⟩
      rcases (hv _).1 ⟨h1 v (by simp), rfl⟩ with ⟨rfl, h4⟩ | ⟨h4, h5⟩
      · rw [h4] at h3
        exact .null h3
      · exact .value h4 h5 h3
    · intro hl
      have key : ∀ b, (v = .null ∧ b = null (view a) ∨ v ≠ .null ∧ R (view a) v b) →
          Latest R null b vs c →
          (∀ w ∈ v :: vs, d.ok w = true) ∧ view ((v :: vs).foldl (fun x v => d.apply v x) a) = c := by
        intro b hb hl
        obtain ⟨h1, h2⟩ := (hv b).2 hb
        rw [← h2] at hl
        obtain ⟨h3, h4⟩ := (ih (d.apply v a)).2 hl
        refine ⟨by simpa using ⟨h1, h3⟩, ?_⟩
        rw [List.foldl_cons, h4]
      cases hl with
      | value h1 h2 h3 => exact key _ (.inr ⟨h1, h2⟩) h3
      | null h1 => exact key _ (.inl ⟨rfl, rfl⟩) h1

theorem part_view {σ β α : Type} {view : β → α} {fields : List (Field σ)} {name : String} {d : Dec β}
    {R : α → Json → α → Prop} {null : α → α} {P : Json → Prop} {get : σ → β}
    (h : TakesAs view d R null P)
    (hpart : Part fields name.toList d get) {ms : List (Str × Json)} (hP : ∀ v ∈ named name ms, P v)
    {s : σ} {a : α} :
    (Fits ms name.toList d.ok ∧ view (get (applyMembers fields ms s)) = a) ↔
      Latest R null (view (get s)) (named name ms) a := by
  rw [← latest_iff h _ _ _ hP, fits_iff, get_applyMembers hpart, named_eq]

theorem part_latest {σ α : Type} {fields : List (Field σ)} {name : String} {d : Dec α}
    {R : α → Json → α → Prop} {null : α → α} {P : Json → Prop} {get : σ → α} (h : Takes d R null P)
    (hpart : Part fields name.toList d get) {ms : List (Str × Json)} (hP : ∀ v ∈ named name ms, P v)
    {s : σ} {a : α} :
    (Fits ms name.toList d.ok ∧ get (applyMembers fields ms s) = a) ↔
      Latest R null (get s) (named name ms) a :=
  part_view h hpart hP

theorem takes_string : Takes decString TakesStr id fun _ => True := by
  intro v _ old a
  cases v <;> simp [decString, TakesStr, eq_comm]

theorem takes_int : Takes decInt TakesInt id fun _ => True := by
  intro v _ old a
  unfold TakesInt
  constructor
  · rintro ⟨h, rfl⟩
    cases v with
    | null => exact .inl ⟨rfl, rfl⟩
    | num n => exact .inr ⟨nofun, rfl, of_decide_eq_true h⟩
    | _ => cases h
  · rintro (⟨rfl, rfl⟩ | ⟨_, rfl, h⟩)
    · exact ⟨rfl, rfl⟩
    · exact ⟨decide_eq_true h, rfl⟩

theorem takes_optInt : Takes (decPtr decInt 0) TakesOptInt (fun _ => none) fun _ => True := by
  intro v _ old a
  unfold TakesOptInt TakesInt
  constructor
  · rintro ⟨h, rfl⟩
    cases v with
    | null => exact .inl ⟨rfl, rfl⟩
    | num n => exact .inr ⟨nofun, n, ⟨rfl, of_decide_eq_true h⟩, rfl⟩
    | _ => cases h
  · rintro (⟨rfl, rfl⟩ | ⟨_, k, ⟨rfl, h⟩, rfl⟩)
    · exact ⟨rfl, rfl⟩
    · exact ⟨decide_eq_true h, rfl⟩

theorem takes_any : Takes decAny TakesAny (fun _ => false) fun _ => True := by
  intro v _ old a
  cases v <;> simp [decAny, TakesAny, eq_comm]

/-- All elements of the array. -/
def Slice.cells {α : Type} (s : Slice α) : List α × List α := (s.shown, s.behind)

theorem putElems_iff {α : Type} {d : Dec α} {zero : α} {R : α → Json → α → Prop} {null : α → α}
    (h : Takes d R null fun _ => True) : ∀ (vs : List Json) (as bs : List α),
    (vs.all d.ok = true ∧ putElems d zero vs as = bs) ↔ bs.length = vs.length ∧
      ∀ (i : Nat) e b, vs[i]? = some e → bs[i]? = some b →
        e = .null ∧ b = null (as[i]?.getD zero) ∨ e ≠ .null ∧ R (as[i]?.getD zero) e b
  | [], as, bs => by
    constructor
    · rintro ⟨_, rfl⟩
      exact ⟨rfl, by simp⟩
    · rintro ⟨hl, _⟩
      exact ⟨rfl, (List.eq_nil_of_length_eq_zero hl).symm⟩
  | v :: vs, as, bs => by
    have ih := putElems_iff (zero := zero) h vs as.tail
    have hput : putElems d zero (v :: vs) as =
        d.apply v (as[0]?.getD zero) :: putElems d zero vs as.tail := by
      cases as <;> rfl
    have hv := h v trivial (as[0]?.getD zero)
    rw [hput]
    constructor
    · rintro ⟨hok, rfl⟩
      rw [List.all_cons, Bool.and_eq_true] at hok
      obtain ⟨h1, h2⟩ := (ih _).1 ⟨hok.2, rfl⟩
      refine ⟨by rw [List.length_cons, h1, List.length_cons], fun i e b he hb => ?_⟩
      cases i with
      | zero =>
        injection he with he
        injection hb with hb
        subst he hb
        exact (hv _).1 ⟨hok.1, rfl⟩
      | succ i =>
        have := h2 i e b he hb
        rwa [List.getElem?_tail] at this
    · rintro ⟨hl, hall⟩
      cases bs with
      | nil => cases hl
      | cons b bs =>
        obtain ⟨h1, h2⟩ := (hv b).2 (hall 0 v b rfl rfl)
        obtain ⟨h3, h4⟩ := (ih bs).2 ⟨by simpa using hl, fun i e c he hc => by
          rw [List.getElem?_tail]
          exact hall (i + 1) e c he hc⟩
        exact ⟨by rw [List.all_cons, h1, h3]; rfl, by
          rw [h4, show d.apply v (as[0]?.getD zero) = b from h2]⟩

theorem takes_list {α : Type} {d : Dec α} {zero : α} {R : α → Json → α → Prop} {null : α → α}
    (h : Takes d R null fun _ => True) :
    TakesAs Slice.cells (decSlice d zero) (TakesList R null zero) (fun _ => ([], [])) fun _ => True := by
  intro v _ old a
  cases v with
  | null =>
    constructor
    · rintro ⟨_, rfl⟩; exact .inl ⟨rfl, rfl⟩
    · rintro (⟨_, rfl⟩ | ⟨h, _⟩)
      · exact ⟨rfl, rfl⟩
      · exact absurd rfl h
  | arr es =>
    cases es with
    | nil =>
      constructor
      · rintro ⟨_, rfl⟩
        exact .inr ⟨nofun, [], rfl, fun _ => rfl, fun h => absurd rfl h⟩
      · rintro (⟨h, _⟩ | ⟨_, es, h1, h2, _⟩)
        · cases h
        · injection h1 with h1
          subst h1
          exact ⟨rfl, (h2 rfl).symm⟩
    | cons e es =>
      have hp := putElems_iff (zero := zero) h (e :: es) (old.shown ++ old.behind)
      constructor
      · rintro ⟨hok, rfl⟩
        obtain ⟨h1, h2⟩ := (hp _).1 ⟨hok, rfl⟩
        exact .inr ⟨nofun, e :: es, rfl, nofun, fun _ => ⟨h1, rfl, h2⟩⟩
      · rintro (⟨h, _⟩ | ⟨_, es', h1, _, h2⟩)
        · cases h
        · injection h1 with h1
          subst h1
          obtain ⟨h3, h4, h5⟩ := h2 nofun
          obtain ⟨h6, h7⟩ := (hp _).2 ⟨h3, h5⟩
          refine ⟨h6, ?_⟩
          show (putElems d zero (e :: es) (old.shown ++ old.behind),
            (old.shown ++ old.behind).drop (e :: es).length) = a
          rw [h7]
          exact Prod.ext rfl h4.symm
  | _ =>
    constructor
    · rintro ⟨h, _⟩; cases h
    · rintro (⟨h, _⟩ | ⟨_, es, h, _⟩) <;> cases h

theorem takes_strs : TakesAs Slice.shown (decSlice decString []) TakesStrs (fun _ => [])
    fun v => ∀ es, v = .arr es → .null ∉ es := by
  have cells := takes_list (zero := ([] : Str)) takes_string
  intro v hP old a
  have hc := cells v trivial old
  have str : ∀ es bs : List _, Json.null ∉ es → bs.length = es.length →
      ((∀ (i : Nat) e b, es[i]? = some e → bs[i]? = some b →
        e = .null ∧ b = id ((old.cells.1 ++ old.cells.2)[i]?.getD ([] : Str)) ∨
        e ≠ .null ∧ TakesStr ((old.cells.1 ++ old.cells.2)[i]?.getD []) e b) ↔
        es = bs.map .str) := by
    intro es bs hn hl
    constructor
    · intro h
      refine List.ext_getElem? fun i => ?_
      rw [List.getElem?_map]
      by_cases hi : i < es.length
      · have h1 : es[i]? = some es[i] := List.getElem?_eq_getElem hi
        have h2 : bs[i]? = some bs[i] := List.getElem?_eq_getElem (by omega)
        rcases h i _ _ h1 h2 with ⟨h3, _⟩ | ⟨_, h3⟩
        · exact absurd (h3 ▸ List.getElem_mem hi) hn
        · rw [h1, h2, Option.map_some]
          exact congrArg some h3
      · rw [List.getElem?_eq_none (by omega), List.getElem?_eq_none (by omega)]
        rfl
    · rintro rfl i e b he hb
      rw [List.getElem?_map, hb] at he
      injection he with he
      exact .inr ⟨by rw [← he]; nofun, he.symm⟩
  constructor
  · rintro ⟨h1, rfl⟩
    rcases (hc _).1 ⟨h1, rfl⟩ with ⟨h2, h3⟩ | ⟨h2, es, rfl, h3, h4⟩
    · exact .inl ⟨h2, congrArg Prod.fst h3⟩
    · refine .inr ⟨h2, ?_⟩
      by_cases he : es = []
      · subst he
        have := congrArg Prod.fst (h3 rfl)
        exact (congrArg Json.arr (congrArg (List.map Json.str) this)).symm
      · obtain ⟨h5, _, h6⟩ := h4 he
        exact congrArg Json.arr ((str es _ (hP es rfl) h5).1 h6)
  · rintro (⟨rfl, rfl⟩ | ⟨h1, h2⟩)
    · exact ⟨rfl, rfl⟩
    · unfold TakesStrs at h2
      subst h2
      cases a with
      | nil => exact ⟨rfl, rfl⟩
      | cons a as =>
        have := (hc (a :: as, (old.cells.1 ++ old.cells.2).drop ((a :: as).map Json.str).length)).2
          (.inr ⟨h1, _, rfl, nofun, fun _ => ⟨(List.length_map _).symm, rfl,
            (str _ (a :: as) (hP _ rfl) (List.length_map _).symm).2 rfl⟩⟩)
        exact ⟨this.1, congrArg Prod.fst this.2⟩

/-- Other fields do not change a part. -/
local macro "others" fs:ident : tactic => `(tactic| (
  unfold $fs
  simp only [List.forall_mem_cons, List.not_mem_nil, false_implies, implies_true, and_true]
  repeat' apply And.intro
  all_goals first
    | exact fun ha => absurd rfl ha
    | exact fun _ _ _ => rfl))

theorem takes_options : Takes (decPtr decMentionsOptions 0) TakesOptions (fun _ => none)
    fun _ => True := by
  intro v _ old a
  cases v with
  | obj ms =>
    have hp : Part optionsFields "countLimit".toList decInt id :=
      part_at 0 distinct_options rfl rfl (fun _ _ => rfl) (by others optionsFields)
    have h := fun k => part_latest takes_int hp (ms := ms) (fun _ _ => trivial) (s := old.getD 0) (a := k)
    have hf : (decPtr decMentionsOptions 0).ok (.obj ms) = true ↔ Fits ms "countLimit".toList decInt.ok := by
      show (decStruct optionsFields).ok (.obj ms) = true ↔ _
      rw [struct_ok distinct_options]
      simp only [optionsFields, List.forall_mem_cons, List.not_mem_nil, false_implies, implies_true,
        and_true]
      exact Iff.rfl
    rw [hf]
    show (_ ∧ some (applyMembers optionsFields ms (old.getD 0)) = a) ↔ _
    constructor
    · rintro ⟨h1, rfl⟩
      exact .inr ⟨by simp, ms, _, rfl, (h _).1 ⟨h1, rfl⟩, rfl⟩
    · rintro (⟨h1, _⟩ | ⟨_, ms', k, h1, h2, rfl⟩)
      · cases h1
      · cases h1
        obtain ⟨h3, h4⟩ := (h k).2 h2
        exact ⟨h3, congrArg some h4⟩
  | _ => simp [decPtr, decMentionsOptions, decStruct, TakesOptions, eq_comm]

theorem takes_data : Takes decCaptureData TakesData id fun _ => True := by
  intro v _ old a
  cases v with
  | obj ms =>
    have hp : Part dataFields "url".toList decString id :=
      part_at 0 distinct_data rfl rfl (fun _ _ => rfl) (by others dataFields)
    have h := fun k => part_latest takes_string hp (ms := ms) (fun _ _ => trivial) (s := old) (a := k)
    have hf : decCaptureData.ok (.obj ms) = true ↔ Fits ms "url".toList decString.ok ∧
        ∀ t ∈ named "title" ms, t = .null ∨ ∃ s, t = .str s := by
      have ht : (∀ t ∈ named "title" ms, t = .null ∨ ∃ s, t = .str s) ↔
          Fits ms "title".toList decString.ok := by
        rw [fits_iff]
        constructor
        · intro h v hv
          rcases h v hv with rfl | ⟨s, rfl⟩ <;> rfl
        · intro h v hv
          have := h v hv
          cases v <;> simp [decString] at this ⊢
      have hb : Fits ms "body".toList decAny.ok := fun _ _ _ => rfl
      show (decStruct dataFields).ok (.obj ms) = true ↔ _
      rw [struct_ok distinct_data, ht]
      simp only [dataFields, List.forall_mem_cons, List.not_mem_nil, false_implies, implies_true,
        and_true]
      exact ⟨fun h => ⟨h.1, h.2.1⟩, fun h => ⟨h.1, h.2, hb⟩⟩
    rw [hf]
    show (_ ∧ applyMembers dataFields ms old = a) ↔ _
    constructor
    · rintro ⟨⟨h1, h2⟩, rfl⟩
      exact .inr ⟨by simp, ms, rfl, (h _).1 ⟨h1, rfl⟩, h2⟩
    · rintro (⟨h1, _⟩ | ⟨_, ms', h1, h2, h3⟩)
      · cases h1
      · cases h1
        obtain ⟨h4, h5⟩ := (h a).2 h2
        exact ⟨⟨h4, h3⟩, h5⟩
  | _ => simp [decCaptureData, decStruct, TakesData, eq_comm]

theorem decParams_obj {α : Type} {d : Dec α} {zero a : α} {ms : List (Str × Json)} {rest : List Json} :
    decParams d zero (.arr (.obj ms :: rest)) = some a ↔ d.ok (.obj ms) = true ∧ d.apply (.obj ms) zero = a := by
  show (if d.ok (.obj ms) = true then some _ else none) = some a ↔ _
  split <;> simp_all

/-- C61, for members in any number and order: the file and the line to open are the last ones given. -/
theorem c61_visit_exact {ms : List (Str × Json)} {rest : List Json} {q : Emacs.Location} :
    argument .visit (.arr (.obj ms :: rest)) = some (.visit q) ↔
      Latest TakesStr id [] (named "file" ms) q.filePath ∧
      Latest TakesInt id 0 (named "lineNo" ms) q.lineNo := by
  have e : argument .visit (.arr (.obj ms :: rest)) = some (.visit q) ↔
      decParams decLocation ⟨[], 0⟩ (.arr (.obj ms :: rest)) = some q := by
    unfold argument
    simp
  rw [e, decParams_obj]
  show (decStruct locationFields).ok _ = true ∧ applyMembers locationFields ms _ = q ↔ _
  rw [struct_ok distinct_location,
    ← part_latest (fields := locationFields) (get := Emacs.Location.filePath) (s := ⟨[], 0⟩) takes_string
      (part_at 0 distinct_location rfl rfl (fun _ _ => rfl) (by others locationFields)) (fun _ _ => trivial),
    ← part_latest (fields := locationFields) (get := Emacs.Location.lineNo) (s := ⟨[], 0⟩) takes_int
      (part_at 1 distinct_location rfl rfl (fun _ _ => rfl) (by others locationFields)) (fun _ _ => trivial)]
  have hf : (∀ f ∈ locationFields, Fits ms f.name f.dec.ok) ↔
      Fits ms "file".toList decString.ok ∧ Fits ms "lineNo".toList decInt.ok := by
    simp only [locationFields, List.forall_mem_cons, List.not_mem_nil, false_implies, implies_true,
      and_true]
    exact Iff.rfl
  rw [hf]
  constructor
  · rintro ⟨⟨h1, h2⟩, rfl⟩; exact ⟨⟨h1, rfl⟩, h2, rfl⟩
  · rintro ⟨⟨h1, e1⟩, h2, e2⟩
    refine ⟨⟨h1, h2⟩, ?_⟩
    cases q
    cases e1; cases e2; rfl

/-- C61, for members in any number and order. -/
theorem c61_search_exact {ms : List (Str × Json)} {rest : List Json} {q : SearchQuery} :
    argument .search (.arr (.obj ms :: rest)) = some (.search q) ↔
      Latest TakesStr id [] (named "q" ms) q.query ∧
      Latest TakesOptInt (fun _ => none) none (named "limit" ms) q.limit ∧
      Latest TakesOptInt (fun _ => none) none (named "tol" ms) q.tolerance := by
  have e : argument .search (.arr (.obj ms :: rest)) = some (.search q) ↔
      decParams decSearch ⟨[], none, none⟩ (.arr (.obj ms :: rest)) = some q := by
    unfold argument
    simp
  rw [e, decParams_obj]
  show (decStruct searchFields).ok _ = true ∧ applyMembers searchFields ms _ = q ↔ _
  rw [struct_ok distinct_search,
    ← part_latest (fields := searchFields) (get := SearchQuery.query) (s := ⟨[], none, none⟩) takes_string
      (part_at 0 distinct_search rfl rfl (fun _ _ => rfl) (by others searchFields)) (fun _ _ => trivial),
    ← part_latest (fields := searchFields) (get := SearchQuery.limit) (s := ⟨[], none, none⟩) takes_optInt
      (part_at 1 distinct_search rfl rfl (fun _ _ => rfl) (by others searchFields)) (fun _ _ => trivial),
    ← part_latest (fields := searchFields) (get := SearchQuery.tolerance) (s := ⟨[], none, none⟩)
      takes_optInt
      (part_at 2 distinct_search rfl rfl (fun _ _ => rfl) (by others searchFields)) (fun _ _ => trivial)]
  have hf : (∀ f ∈ searchFields, Fits ms f.name f.dec.ok) ↔
      Fits ms "q".toList decString.ok ∧ Fits ms "limit".toList (decPtr decInt 0).ok ∧
      Fits ms "tol".toList (decPtr decInt 0).ok := by
    simp only [searchFields, List.forall_mem_cons, List.not_mem_nil, false_implies, implies_true,
      and_true]
    exact Iff.rfl
  rw [hf]
  constructor
  · rintro ⟨⟨h1, h2, h3⟩, rfl⟩; exact ⟨⟨h1, rfl⟩, ⟨h2, rfl⟩, h3, rfl⟩
  · rintro ⟨⟨h1, e1⟩, ⟨h2, e2⟩, h3, e3⟩
    refine ⟨⟨h1, h2, h3⟩, ?_⟩
    cases q
    cases e1; cases e2; cases e3; rfl

/-- C61, for members in any number and order: what is captured. -/
theorem c61_capture_exact {ms : List (Str × Json)} {rest : List Json} {q : Emacs.CaptureQuery} :
    argument .capture (.arr (.obj ms :: rest)) = some (.capture q) ↔
      Latest TakesStr id [] (named "format" ms) q.format ∧
      (∀ v ∈ named "version" ms, v = .null ∨ ∃ s, v = .str s) ∧
      Latest TakesData id [] (named "data" ms) q.url ∧
      Latest TakesAny (fun _ => false) false (named "error" ms) q.hasError := by
  have e : argument .capture (.arr (.obj ms :: rest)) = some (.capture q) ↔
      decParams decCapture ⟨[], [], false⟩ (.arr (.obj ms :: rest)) = some q := by
    unfold argument
    simp
  have hv : (∀ v ∈ named "version" ms, v = .null ∨ ∃ s, v = .str s) ↔
      Fits ms "version".toList decString.ok := by
    rw [fits_iff]
    constructor
    · intro h v hv
      rcases h v hv with rfl | ⟨s, rfl⟩ <;> rfl
    · intro h v hv
      have := h v hv
      cases v <;> simp [decString] at this ⊢
  rw [e, decParams_obj, hv]
  show (decStruct captureFields).ok _ = true ∧ applyMembers captureFields ms _ = q ↔ _
  rw [struct_ok distinct_capture,
    ← part_latest (fields := captureFields) (get := Emacs.CaptureQuery.format) (s := ⟨[], [], false⟩)
      takes_string
      (part_at 0 distinct_capture rfl rfl (fun _ _ => rfl) (by others captureFields)) (fun _ _ => trivial),
    ← part_latest (fields := captureFields) (get := Emacs.CaptureQuery.url) (s := ⟨[], [], false⟩)
      takes_data
      (part_at 3 distinct_capture rfl rfl (fun _ _ => rfl) (by others captureFields)) (fun _ _ => trivial),
    ← part_latest (fields := captureFields) (get := Emacs.CaptureQuery.hasError) (s := ⟨[], [], false⟩)
      takes_any
      (part_at 4 distinct_capture rfl rfl (fun _ _ => rfl) (by others captureFields)) (fun _ _ => trivial)]
  have hf : (∀ f ∈ captureFields, Fits ms f.name f.dec.ok) ↔
      Fits ms "format".toList decString.ok ∧ Fits ms "version".toList decString.ok ∧
      Fits ms "options".toList decAny.ok ∧ Fits ms "data".toList decCaptureData.ok ∧
      Fits ms "error".toList decAny.ok := by
    simp only [captureFields, List.forall_mem_cons, List.not_mem_nil, false_implies, implies_true,
      and_true]
    exact Iff.rfl
  have ho : Fits ms "options".toList decAny.ok := fun _ _ _ => rfl
  rw [hf]
  constructor
  · rintro ⟨⟨h1, h2, _, h3, h4⟩, rfl⟩; exact ⟨⟨h1, rfl⟩, h2, ⟨h3, rfl⟩, h4, rfl⟩
  · rintro ⟨⟨h1, e1⟩, h2, ⟨h3, e3⟩, h4, e4⟩
    refine ⟨⟨h1, h2, ho, h3, h4⟩, ?_⟩
    cases q
    cases e1; cases e3; cases e4; rfl

theorem params_obj {σ : Type} {f : σ → Arg} {d : Dec σ} {zero : σ} {a : Arg} {ms : List (Str × Json)}
    {rest : List Json} : (decParams d zero (.arr (.obj ms :: rest))).map f = some a ↔
      d.ok (.obj ms) = true ∧ f (d.apply (.obj ms) zero) = a := by
  show Option.map f (if d.ok (.obj ms) = true then some _ else none) = some a ↔ _
  split <;> simp_all

theorem linkSet_iff {ms : List (Str × Json)} {rest : List Json} {ps : List Str} :
    argument .linkSet (.arr (.obj ms :: rest)) = some (.linkSet ps) ↔
      Fits ms "prefix".toList (decSlice decString []).ok ∧
      (applyMembers linkSetFields ms .empty).shown = ps := by
  unfold argument
  rw [params_obj, Arg.linkSet.injEq]
  show (decStruct linkSetFields).ok _ = true ∧ (applyMembers linkSetFields ms _).shown = ps ↔ _
  rw [struct_ok distinct_linkSet]
  simp only [linkSetFields, List.forall_mem_cons, List.not_mem_nil, false_implies, implies_true,
    and_true]
  exact Iff.rfl

theorem part_prefix : Part linkSetFields "prefix".toList (decSlice decString []) id :=
  part_at 0 distinct_linkSet rfl rfl (fun _ _ => rfl) (by others linkSetFields)

/-- C61, for members in any number and order: prefixes are those of the last list, except that an
element that is `null` is what was in its place. -/
theorem c61_linkSet_exact {ms : List (Str × Json)} {rest : List Json} {ps : List Str} :
    argument .linkSet (.arr (.obj ms :: rest)) = some (.linkSet ps) ↔
      ∃ past, Latest (TakesList TakesStr id []) (fun _ => ([], [])) ([], []) (named "prefix" ms)
        (ps, past) := by
  rw [linkSet_iff]
  have hp := fun a => part_view (takes_list (zero := ([] : Str)) takes_string) part_prefix (ms := ms)
    (fun _ _ => trivial) (s := .empty) (a := a)
  constructor
  · rintro ⟨h1, rfl⟩
    exact ⟨_, (hp _).1 ⟨h1, rfl⟩⟩
  · rintro ⟨past, h⟩
    obtain ⟨h1, h2⟩ := (hp _).2 h
    exact ⟨h1, congrArg Prod.fst h2⟩

/-- C61, for members in any number and order and lists without `null`: prefixes are those of the last
list. -/
theorem c61_linkSet_repeated {ms : List (Str × Json)} {rest : List Json} {ps : List Str}
    (hn : NoNulls (named "prefix" ms)) :
    argument .linkSet (.arr (.obj ms :: rest)) = some (.linkSet ps) ↔
      Latest TakesStrs (fun _ => []) [] (named "prefix" ms) ps := by
  rw [linkSet_iff]
  exact part_view takes_strs part_prefix (ms := ms) (fun v hv es he => hn es (he ▸ hv))
    (s := .empty) (a := ps)

theorem part_variants : Part mentionsFields "variants".toList (decSlice decString []) MentionsArg.variants :=
  part_at 0 distinct_mentions rfl rfl (fun _ _ => rfl) (by others mentionsFields)

theorem part_options :
    Part mentionsFields "options".toList (decPtr decMentionsOptions 0) MentionsArg.options :=
  part_at 1 distinct_mentions rfl rfl (fun _ _ => rfl) (by others mentionsFields)

theorem mentions_iff {ms : List (Str × Json)} {rest : List Json} {q : Tree.MentionsQuery} :
    argument .urlMentions (.arr (.obj ms :: rest)) = some (.urlMentions q) ↔
      (Fits ms "variants".toList (decSlice decString []).ok ∧
        (applyMembers mentionsFields ms ⟨.empty, none⟩).variants.shown = q.variants) ∧
      Latest TakesOptions (fun _ => none) none (named "options" ms) q.countLimit := by
  unfold argument
  rw [params_obj, Arg.urlMentions.injEq]
  show (decStruct mentionsFields).ok _ = true ∧ (applyMembers mentionsFields ms _).query = q ↔ _
  rw [struct_ok distinct_mentions,
    ← part_latest (get := MentionsArg.options) (s := ⟨.empty, none⟩) takes_options part_options
      (fun _ _ => trivial)]
  have hf : (∀ f ∈ mentionsFields, Fits ms f.name f.dec.ok) ↔
      Fits ms "variants".toList (decSlice decString []).ok ∧
      Fits ms "options".toList (decPtr decMentionsOptions 0).ok := by
    simp only [mentionsFields, List.forall_mem_cons, List.not_mem_nil, false_implies, implies_true,
      and_true]
    exact Iff.rfl
  rw [hf]
  constructor
  · rintro ⟨⟨h1, h2⟩, rfl⟩; exact ⟨⟨h1, rfl⟩, h2, rfl⟩
  · rintro ⟨⟨h1, e1⟩, h2, e2⟩
    refine ⟨⟨h1, h2⟩, ?_⟩
    cases q
    cases e1; cases e2; rfl

/-- C61, for members in any number and order: addresses are those of the last list, except that an
element that is `null` is what was in its place; the limit is the last one given unless `options`
are null. -/
theorem c61_mentions_exact {ms : List (Str × Json)} {rest : List Json} {q : Tree.MentionsQuery} :
    argument .urlMentions (.arr (.obj ms :: rest)) = some (.urlMentions q) ↔
      (∃ past, Latest (TakesList TakesStr id []) (fun _ => ([], [])) ([], []) (named "variants" ms)
        (q.variants, past)) ∧
      Latest TakesOptions (fun _ => none) none (named "options" ms) q.countLimit := by
  rw [mentions_iff]
  have hp := fun a => part_view (takes_list (zero := ([] : Str)) takes_string) part_variants (ms := ms)
    (fun _ _ => trivial) (s := ⟨.empty, none⟩) (a := a)
  refine and_congr_left fun _ => ⟨?_, ?_⟩
  · rintro ⟨h1, h2⟩
    exact ⟨_, (hp _).1 ⟨h1, Prod.ext h2 rfl⟩⟩
  · rintro ⟨past, h⟩
    obtain ⟨h1, h2⟩ := (hp _).2 h
    exact ⟨h1, congrArg Prod.fst h2⟩

/-- C61, for members in any number and order and lists without `null`: addresses are those of the
last list, the limit is the last one given unless `options` are null. -/
theorem c61_mentions_repeated {ms : List (Str × Json)} {rest : List Json} {q : Tree.MentionsQuery}
    (hn : NoNulls (named "variants" ms)) :
    argument .urlMentions (.arr (.obj ms :: rest)) = some (.urlMentions q) ↔
      Latest TakesStrs (fun _ => []) [] (named "variants" ms) q.variants ∧
      Latest TakesOptions (fun _ => none) none (named "options" ms) q.countLimit := by
  rw [mentions_iff]
  exact and_congr_left fun _ => part_view takes_strs part_variants (ms := ms)
    (fun v hv es he => hn es (he ▸ hv)) (s := ⟨.empty, none⟩) (a := q.variants)

theorem takes_format : Takes decHelloFormat TakesFormat id fun _ => True := by
  intro v _ old a
  cases v with
  | obj ms =>
    have hp1 := fun k => part_latest (fields := formatFields) (get := HelloFormat.format) takes_string
      (part_at 0 distinct_format rfl rfl (fun _ _ => rfl) (by others formatFields)) (ms := ms)
      (name := "format") (fun _ _ => trivial) (s := old) (a := k)
    have hp2 := fun k => part_latest (fields := formatFields) (get := HelloFormat.version) takes_string
      (part_at 1 distinct_format rfl rfl (fun _ _ => rfl) (by others formatFields)) (ms := ms)
      (name := "version") (fun _ _ => trivial) (s := old) (a := k)
    have ho : (∀ o ∈ named "options" ms, o = .null ∨ ∃ os, o = .obj os) ↔
        Fits ms "options".toList decMap.ok := by
      rw [fits_iff]
      constructor
      · intro h v hv
        rcases h v hv with rfl | ⟨s, rfl⟩ <;> rfl
      · intro h v hv
        have := h v hv
        cases v <;> simp [decMap] at this ⊢
    have hf : decHelloFormat.ok (.obj ms) = true ↔ Fits ms "format".toList decString.ok ∧
        Fits ms "version".toList decString.ok ∧ Fits ms "options".toList decMap.ok := by
      show (decStruct formatFields).ok (.obj ms) = true ↔ _
      rw [struct_ok distinct_format]
      simp only [formatFields, List.forall_mem_cons, List.not_mem_nil, false_implies, implies_true,
        and_true]
      exact Iff.rfl
    rw [hf]
    show (_ ∧ applyMembers formatFields ms old = a) ↔ _
    constructor
    · rintro ⟨⟨h1, h2, h3⟩, rfl⟩
      exact .inr ⟨nofun, ms, rfl, (hp1 _).1 ⟨h1, rfl⟩, (hp2 _).1 ⟨h2, rfl⟩, ho.2 h3⟩
    · rintro (⟨h1, _⟩ | ⟨_, ms', h1, h2, h3, h4⟩)
      · cases h1
      · cases h1
        obtain ⟨h5, h6⟩ := (hp1 _).2 h2
        obtain ⟨h7, h8⟩ := (hp2 _).2 h3
        refine ⟨⟨h5, h7, ho.1 h4⟩, ?_⟩
        cases a
        cases h6; cases h8; rfl
  | _ => simp [decHelloFormat, decStruct, TakesFormat, eq_comm]

/-- C61, for members in any number and order: formats are those of the last list, with what was in
their places for everything that is not mentioned. -/
theorem c61_hello_exact {ms : List (Str × Json)} {rest : List Json} {fs : List HelloFormat} :
    argument .hello (.arr (.obj ms :: rest)) = some (.hello fs) ↔
      (∃ past, Latest (TakesList TakesFormat id ⟨[], []⟩) (fun _ => ([], [])) ([], [])
        (named "formats" ms) (fs, past)) ∧
      ∀ v ∈ named "version" ms, v = .null ∨ ∃ s, v = .str s := by
  unfold argument
  rw [params_obj, Arg.hello.injEq]
  show (decStruct helloFields).ok _ = true ∧ (applyMembers helloFields ms _).shown = fs ↔ _
  have hp := fun a => part_view (get := id) (takes_list (zero := (⟨[], []⟩ : HelloFormat)) takes_format)
    (part_at (fields := helloFields) (name := "formats") 0 distinct_hello rfl rfl (fun _ _ => rfl)
      (by others helloFields))
    (ms := ms) (fun _ _ => trivial) (s := .empty) (a := a)
  have hv : (∀ v ∈ named "version" ms, v = .null ∨ ∃ s, v = .str s) ↔
      Fits ms "version".toList decString.ok := by
    rw [fits_iff]
    constructor
    · intro h v hv
      rcases h v hv with rfl | ⟨s, rfl⟩ <;> rfl
    · intro h v hv
      have := h v hv
      cases v <;> simp [decString] at this ⊢
  have hf : (∀ f ∈ helloFields, Fits ms f.name f.dec.ok) ↔
      Fits ms "formats".toList (decSlice decHelloFormat ⟨[], []⟩).ok ∧
      Fits ms "version".toList decString.ok := by
    simp only [helloFields, List.forall_mem_cons, List.not_mem_nil, false_implies, implies_true,
      and_true]
    exact Iff.rfl
  rw [struct_ok distinct_hello, hf, hv]
  constructor
  · rintro ⟨⟨h1, h2⟩, rfl⟩
    exact ⟨⟨_, (hp _).1 ⟨h1, rfl⟩⟩, h2⟩
  · rintro ⟨⟨past, h⟩, h2⟩
    obtain ⟨h1, h3⟩ := (hp _).2 h
    exact ⟨⟨h1, h2⟩, congrArg Prod.fst h3⟩

theorem argument_kind {m : Method} {p : Json} {a : Arg} (h : argument m p = some a) :
    match m, a with
    | .hello, .hello _ => True
    | .capture, .capture _ => True
    | .urlMentions, .urlMentions _ => True
    | .visit, .visit _ => True
    | .search, .search _ => True
    | .linkSet, .linkSet _ => True
    | _, _ => False := by
  cases m <;> unfold argument at h <;> rw [Option.map_eq_some_iff] at h <;>
    obtain ⟨x, -, rfl⟩ := h <;> trivial

theorem argument_obj {m : Method} {ms : List (Str × Json)} {rest : List Json} {a : Arg} :
    argument m (.arr (.obj ms :: rest)) = some a ↔ Object ms m a := by
  constructor
  · intro h
    have hk := argument_kind h
    cases m <;> cases a <;> simp only at hk
    · obtain ⟨⟨past, h1⟩, h2⟩ := c61_hello_exact.1 h
      exact .hello h1 h2
    · obtain ⟨h1, h2, h3, h4⟩ := c61_capture_exact.1 h
      exact .capture h1 h2 h3 h4
    · obtain ⟨h1, h2⟩ := c61_mentions_exact.1 h
      exact .urlMentions h1 h2
    · obtain ⟨h1, h2⟩ := c61_visit_exact.1 h
      exact .visit h1 h2
    · obtain ⟨h1, h2, h3⟩ := c61_search_exact.1 h
      exact .search h1 h2 h3
    · exact .linkSet (c61_linkSet_exact.1 h)
  · intro h
    cases h with
    | hello h1 h2 => exact c61_hello_exact.2 ⟨⟨_, h1⟩, h2⟩
    | capture h1 h2 h3 h4 => exact c61_capture_exact.2 ⟨h1, h2, h3, h4⟩
    | urlMentions h1 h2 => exact c61_mentions_exact.2 ⟨h1, h2⟩
    | visit h1 h2 => exact c61_visit_exact.2 ⟨h1, h2⟩
    | search h1 h2 h3 => exact c61_search_exact.2 ⟨h1, h2, h3⟩
    | linkSet h => exact c61_linkSet_exact.2 h

/-- C61, for all parameters: a method is called exactly with what its parameters mean, and parameters
without a meaning are refused. -/
theorem c61_exact {m : Method} {p : Json} {a : Arg} : argument m p = some a ↔ Given m p a := by
  have none_of : ∀ p, p = .null ∨ p = .arr [] ∨ (∃ rest, p = .arr (.null :: rest)) →
      argument m p = argument m (.arr [.obj []]) := by
    rintro p (rfl | rfl | ⟨rest, rfl⟩) <;> cases m <;> rfl
  constructor
  · intro h
    cases p with
    | null => rw [none_of _ (.inl rfl)] at h; exact .nothing (argument_obj.1 h)
    | arr vs =>
      cases vs with
      | nil => rw [none_of _ (.inr (.inl rfl))] at h; exact .empty (argument_obj.1 h)
      | cons v vs =>
        cases v with
        | null => rw [none_of _ (.inr (.inr ⟨vs, rfl⟩))] at h; exact .null (argument_obj.1 h)
        | obj ms => exact .object (argument_obj.1 h)
        | _ => cases m <;> cases h
    | _ => cases m <;> cases h
  · intro h
    cases h with
    | object h => exact argument_obj.2 h
    | null h => rw [none_of _ (.inr (.inr ⟨_, rfl⟩))]; exact argument_obj.2 h
    | empty h => rw [none_of _ (.inr (.inl rfl))]; exact argument_obj.2 h
    | nothing h => rw [none_of _ (.inl rfl)]; exact argument_obj.2 h

/-- C61: parameters have one meaning at most. -/
theorem c61_given_unique {m : Method} {p : Json} {a b : Arg} (ha : Given m p a) (hb : Given m p b) :
    a = b := by
  have := c61_exact.2 ha
  rw [c61_exact.2 hb] at this
  injection this with this
  exact this.symm

/-- C61: without repeated members the meaning is that of `Params`. -/
theorem c61_given_plain {m : Method} {p : Json} {a : Arg} (hp : Plain p) :
    Given m p a ↔ Params m p a := by
  rw [← c61_exact, c61_argument hp]

/-- Three lists: an element that is `null` in the last one is that of the first one, though the second
one is shorter. -/
example : Given .linkSet (.arr [.obj [("prefix".toList, .arr [.str "a".toList, .str "b".toList]),
    ("prefix".toList, .arr [.str "c".toList]), ("Prefix".toList, .arr [.null, .null, .null])]])
    (.linkSet ["c".toList, "b".toList, []]) := c61_exact.1 rfl

/-- An empty list begins anew. -/
example : Given .hello (.arr [.obj [
    ("formats".toList, .arr [.obj [("format".toList, .str "org".toList)]]), ("formats".toList, .arr []),
    ("formats".toList, .arr [.obj [("version".toList, .str "1".toList)]]),
    ("formats".toList, .arr [.obj [("format".toList, .str "x".toList)]])]])
    (.hello [⟨"x".toList, "1".toList⟩]) := c61_exact.1 rfl

/-- A request with two files opens the second one; `null` after it changes nothing. -/
example : argument .visit (.arr [.obj [("file".toList, .str "a".toList), ("lineNo".toList, .num 3),
    ("File".toList, .str "b".toList), ("file".toList, .null)]]) = some (.visit ⟨"b".toList, 3⟩) := by
  rw [c61_visit_exact]
  have e1 : named "file" [("file".toList, .str "a".toList), ("lineNo".toList, .num 3),
      ("File".toList, .str "b".toList), ("file".toList, .null)] =
      [.str "a".toList, .str "b".toList, .null] := by rfl
  have e2 : named "lineNo" [("file".toList, .str "a".toList), ("lineNo".toList, .num 3),
      ("File".toList, .str "b".toList), ("file".toList, .null)] = [.num 3] := by rfl
  rw [e1, e2]
  exact ⟨.value (by simp) rfl (.value (by simp) rfl (.null .done)),
    .value (by simp) ⟨rfl, by decide, by decide⟩ .done⟩

/-- Two objects with options: the limit of the first one is kept. -/
example : argument .urlMentions (.arr [.obj [("variants".toList, .arr [.str "u".toList]),
    ("options".toList, .obj [("countLimit".toList, .num 5)]), ("options".toList, .obj [])]]) =
    some (.urlMentions ⟨["u".toList], some 5⟩) := by
  have e1 : named "variants" [("variants".toList, .arr [.str "u".toList]),
      ("options".toList, .obj [("countLimit".toList, .num 5)]), ("options".toList, .obj [])] =
      [.arr [.str "u".toList]] := by rfl
  have e2 : named "options" [("variants".toList, .arr [.str "u".toList]),
      ("options".toList, .obj [("countLimit".toList, .num 5)]), ("options".toList, .obj [])] =
      [.obj [("countLimit".toList, .num 5)], .obj []] := by rfl
  refine (c61_mentions_repeated ?_).2 ?_
  · rw [e1]
    intro es he
    simp only [List.mem_singleton, Json.arr.injEq] at he
    subst he
    simp
  · rw [e1, e2]
    have e3 : named "countLimit" [("countLimit".toList, .num 5)] = [.num 5] := by rfl
    have e4 : named "countLimit" [] = [] := rfl
    refine ⟨.value (b := ["u".toList]) (by simp) rfl .done, .value (by simp) ⟨_, 5, rfl, ?_, rfl⟩
      (.value (by simp) ⟨_, 5, rfl, ?_, rfl⟩ .done)⟩
    · rw [e3]; exact .value (by simp) ⟨rfl, by decide, by decide⟩ .done
    · rw [e4]; exact .done

end Burl.Backend
