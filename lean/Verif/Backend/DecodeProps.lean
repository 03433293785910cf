import Verif.Backend.Decode
/-! What `params` of a request mean (C61). -/
namespace Burl.Backend
open Burl.Json (Json)
open Burl.Rpc (Method)

namespace Spec

/-- A name in lower case; the two letters that are not ASCII but have ASCII lower case (long s and
the sign of kelvin) are included. -/
def lower (s : Str) : Str :=
  s.map fun c => if c.toNat = 0x17F then 's' else if c.toNat = 0x212A then 'k' else c.toLower

/-- The same name for a reader that ignores letter case. -/
def Alike (a b : Str) : Prop := lower a = lower b

instance (a b : Str) : Decidable (Alike a b) := inferInstanceAs (Decidable (_ = _))

/-- No object inside has two members with the same name. -/
inductive Plain : Json → Prop where
  | null : Plain .null
  | bool {b} : Plain (.bool b)
  | real {t} : Plain (.real t)
  | str {s} : Plain (.str s)
  | num {n} : Plain (.num n)
  | arr {vs} : (∀ v ∈ vs, Plain v) → Plain (.arr vs)
  | obj {ms : List (Str × Json)} : (∀ m ∈ ms, Plain m.2) →
      ms.Pairwise (fun a b => ¬Alike a.1 b.1) → Plain (.obj ms)

/-- Meaning of a member: `zero` if it is absent. -/
def Member {α : Type} (ms : List (Str × Json)) (name : String) (R : Json → α → Prop) (zero : α)
    (a : α) : Prop :=
  (∃ m ∈ ms, Alike name.toList m.1 ∧ R m.2 a) ∨
    ((∀ m ∈ ms, ¬Alike name.toList m.1) ∧ a = zero)

inductive IsStr : Json → Str → Prop where
  | str {s} : IsStr (.str s) s
  | null : IsStr .null []

inductive IsInt : Json → Int → Prop where
  | num {n} : -2 ^ 63 ≤ n → n < 2 ^ 63 → IsInt (.num n) n
  | null : IsInt .null 0

/-- Anything; whether it is not `null`. -/
def IsAny (v : Json) (present : Bool) : Prop := present = true ↔ v ≠ .null

/-- An object or `null`. -/
inductive IsMap : Json → Unit → Prop where
  | obj {ms} : IsMap (.obj ms) ()
  | null : IsMap .null ()

inductive Each {α : Type} (R : Json → α → Prop) : List Json → List α → Prop where
  | nil : Each R [] []
  | cons {v vs a as} : R v a → Each R vs as → Each R (v :: vs) (a :: as)

inductive IsList {α : Type} (R : Json → α → Prop) : Json → List α → Prop where
  | arr {vs as} : Each R vs as → IsList R (.arr vs) as
  | null : IsList R .null []

inductive IsOpt {α : Type} (R : Json → α → Prop) : Json → Option α → Prop where
  | some {v a} : v ≠ .null → R v a → IsOpt R v (some a)
  | null : IsOpt R .null none

/-- An object or `null` for `zero`. -/
inductive IsObj {α : Type} (M : List (Str × Json) → α → Prop) (zero : α) : Json → α → Prop where
  | obj {ms a} : M ms a → IsObj M zero (.obj ms) a
  | null : IsObj M zero .null zero

def Options : Json → Int → Prop := IsObj (fun ms n => Member ms "countLimit" IsInt 0 n) 0

def Mentions : Json → Tree.MentionsQuery → Prop := IsObj (fun ms q =>
  Member ms "variants" (IsList IsStr) [] q.variants ∧
  Member ms "options" (IsOpt Options) none q.countLimit) ⟨[], none⟩

def Location : Json → Emacs.Location → Prop := IsObj (fun ms q =>
  Member ms "file" IsStr [] q.filePath ∧ Member ms "lineNo" IsInt 0 q.lineNo) ⟨[], 0⟩

def Format : Json → HelloFormat → Prop := IsObj (fun ms q =>
  Member ms "format" IsStr [] q.format ∧ Member ms "version" IsStr [] q.version ∧
  ∃ u, Member ms "options" IsMap () u) ⟨[], []⟩

def Hello : Json → List HelloFormat → Prop := IsObj (fun ms q =>
  Member ms "formats" (IsList Format) [] q ∧ ∃ v, Member ms "version" IsStr [] v) []

def Data : Json → Str → Prop := IsObj (fun ms q =>
  Member ms "url" IsStr [] q ∧ ∃ t, Member ms "title" IsStr [] t) []

def Capture : Json → Emacs.CaptureQuery → Prop := IsObj (fun ms q =>
  Member ms "format" IsStr [] q.format ∧ (∃ v, Member ms "version" IsStr [] v) ∧
  Member ms "data" Data [] q.url ∧ Member ms "error" IsAny false q.hasError) ⟨[], [], false⟩

def LinkSet : Json → List Str → Prop := IsObj (fun ms q => Member ms "prefix" (IsList IsStr) [] q) []

def Search : Json → SearchQuery → Prop := IsObj (fun ms q =>
  Member ms "q" IsStr [] q.query ∧ Member ms "limit" (IsOpt IsInt) none q.limit ∧
  Member ms "tol" (IsOpt IsInt) none q.tolerance) ⟨[], none, none⟩

/-- Meaning of the value for a method. -/
inductive Value : Method → Json → Arg → Prop where
  | hello {v q} : Hello v q → Value .hello v (.hello q)
  | capture {v q} : Capture v q → Value .capture v (.capture q)
  | urlMentions {v q} : Mentions v q → Value .urlMentions v (.urlMentions q)
  | visit {v q} : Location v q → Value .visit v (.visit q)
  | search {v q} : Search v q → Value .search v (.search q)
  | linkSet {v q} : LinkSet v q → Value .linkSet v (.linkSet q)

/-- `params` are an array; its first element is what is meant and other elements are not. -/
inductive Params : Method → Json → Arg → Prop where
  | first {m v vs a} : Value m v a → Params m (.arr (v :: vs)) a
  | empty {m a} : Value m .null a → Params m (.arr []) a
  | null {m a} : Value m .null a → Params m .null a

end Spec
open Spec

/-! ### Names -/

theorem foldChar_eq (c : Char) : foldChar c =
    (if c.toNat = 0x17F then 's' else if c.toNat = 0x212A then 'k' else c.toLower) := by
  have hk : ∀ n : Nat, n.isValidChar → (c = Char.ofNat n ↔ c.toNat = n) := by
    intro n hn
    constructor
    · rintro rfl
      simp [Char.ofNat, hn, Char.toNat, Char.ofNatAux]
    · intro h; rw [← h, Char.ofNat_toNat]
  have hA : ('A' ≤ c ∧ c ≤ 'Z') ↔ (c.val ≥ 'A'.val ∧ c.val ≤ 'Z'.val) := Iff.rfl
  have e1 := hk 0x17F (by decide)
  have e2 := hk 0x212A (by decide)
  unfold foldChar Char.toLower
  by_cases h : c.val ≥ 'A'.val ∧ c.val ≤ 'Z'.val
  · have h2 : c.toNat ≤ 90 := UInt32.le_iff_toNat_le.mp h.2
    rw [if_pos (hA.mpr h), if_neg (by omega), if_neg (by omega), dif_pos h]
    apply Char.ext
    apply UInt32.toNat_inj.mp
    have hv : (c.toNat + 32).isValidChar := Or.inl (by omega)
    have : (c.val + ('a'.val - 'A'.val)).toNat = c.toNat + 32 := by
      rw [UInt32.toNat_add]
      show (c.toNat + 32) % 2 ^ 32 = _
      omega
    show _ = (c.val + ('a'.val - 'A'.val)).toNat
    rw [this]
    show (Char.ofNat (c.toNat + 32)).toNat = _
    rw [Char.ofNat, dif_pos hv]; rfl
  · rw [if_neg (fun hh => h (hA.mp hh)), dif_neg h]
    by_cases h1 : c.toNat = 0x17F
    · rw [if_pos (e1.mpr h1), if_pos h1]
    · rw [if_neg (fun hh => h1 (e1.mp hh)), if_neg h1]
      by_cases h2 : c.toNat = 0x212A
      · rw [if_pos (e2.mpr h2), if_pos h2]
      · rw [if_neg (fun hh => h2 (e2.mp hh)), if_neg h2]

theorem sameName_iff {a b : Str} : sameName a b = true ↔ Alike a b := by
  have : ∀ s : Str, s.map foldChar = lower s := by
    intro s; unfold lower; exact List.map_congr_left fun c _ => foldChar_eq c
  unfold sameName Alike
  rw [decide_eq_true_iff, this, this]
  exact eq_comm

theorem Alike.symm {a b : Str} (h : Alike a b) : Alike b a := Eq.symm h
theorem Alike.trans {a b c : Str} (h : Alike a b) (h' : Alike b c) : Alike a c := Eq.trans h h'

/-! ### Decoders and meanings -/

/-- The decoder accepts what has a meaning and gives the meaning, which is a part of the variable. -/
def ReadsAs {σ α : Type} (view : σ → α) (d : Dec σ) (zero : σ) (R : Json → α → Prop) : Prop :=
  ∀ v a, Plain v → (d.ok v = true ∧ view (d.apply v zero) = a ↔ R v a)

/-- The same for the whole variable. -/
abbrev Reads {α : Type} (d : Dec α) (zero : α) (R : Json → α → Prop) : Prop := ReadsAs id d zero R

theorem reads_string : Reads decString [] IsStr := by
  intro v a _
  constructor
  · rintro ⟨h, rfl⟩
    cases v <;> simp [decString] at h ⊢ <;> constructor
  · rintro (_ | _) <;> exact ⟨rfl, rfl⟩

theorem reads_int : Reads decInt 0 IsInt := by
  intro v a _
  constructor
  · rintro ⟨h, rfl⟩
    cases v <;> simp [decInt] at h ⊢
    · exact .null
    · exact .num h.1 h.2
  · rintro (⟨h1, h2⟩ | _)
    · exact ⟨by simp only [decInt]; exact decide_eq_true ⟨h1, h2⟩, rfl⟩
    · exact ⟨rfl, rfl⟩

theorem reads_any : Reads decAny false IsAny := by
  intro v a _
  unfold IsAny
  cases v <;> cases a <;> simp [decAny]

theorem reads_map : Reads decMap () IsMap := by
  intro v a _
  constructor
  · rintro ⟨h, _⟩
    cases v <;> simp [decMap] at h ⊢ <;> constructor
  · rintro (_ | _) <;> exact ⟨rfl, rfl⟩

theorem reads_slice {α : Type} {d : Dec α} {zero : α} {R : Json → α → Prop} (hd : Reads d zero R) :
    ReadsAs Slice.shown (decSlice d zero) .empty (IsList R) := by
  have each : ∀ vs, (∀ v ∈ vs, Plain v) → ∀ as,
      (vs.all d.ok = true ∧ vs.map (fun v => d.apply v zero) = as ↔ Each R vs as) := by
    intro vs
    induction vs with
    | nil =>
      intro _ as
      constructor
      · rintro ⟨_, rfl⟩; exact .nil
      · rintro ⟨⟩; exact ⟨rfl, rfl⟩
    | cons v vs ih =>
      intro hp as
      have ih := ih fun w hw => hp w (List.mem_cons_of_mem _ hw)
      have hv := hd v
      constructor
      · rintro ⟨h, rfl⟩
        rw [List.all_cons, Bool.and_eq_true] at h
        exact .cons ((hv _ (hp v List.mem_cons_self)).mp ⟨h.1, rfl⟩) ((ih _).mp ⟨h.2, rfl⟩)
      · rintro (_ | ⟨h1, h2⟩)
        have h1 := (hv _ (hp v List.mem_cons_self)).mpr h1
        have h2 := (ih _).mpr h2
        exact ⟨by rw [List.all_cons, h1.1, h2.1]; rfl, by
          rw [List.map_cons, show d.apply v zero = _ from h1.2, h2.2]⟩
  have fresh : ∀ vs, putElems d zero vs [] = vs.map fun v => d.apply v zero := by
    intro vs
    induction vs with
    | nil => rfl
    | cons v vs ih => rw [putElems, ih, List.map_cons]
  have shown : ∀ vs, ((decSlice d zero).apply (.arr vs) .empty).shown =
      vs.map fun v => d.apply v zero := by
    intro vs
    cases vs with
    | nil => rfl
    | cons v vs => exact fresh (v :: vs)
  intro v a hp
  constructor
  · rintro ⟨h, rfl⟩
    cases v with
    | null => exact .null
    | arr vs =>
      rw [shown]
      cases hp with
      | arr hp => exact .arr ((each vs hp _).mp ⟨h, rfl⟩)
    | _ => cases h
  · rintro (h | _)
    · rw [shown]
      cases hp with
      | arr hp => exact (each _ hp _).mpr h
    · exact ⟨rfl, rfl⟩

theorem reads_ptr {α : Type} {d : Dec α} {zero : α} {R : Json → α → Prop} (hd : Reads d zero R) :
    Reads (decPtr d zero) none (IsOpt R) := by
  intro v a hp
  have hne : v ≠ .null → (decPtr d zero).ok v = d.ok v ∧
      (decPtr d zero).apply v none = some (d.apply v zero) := by
    intro h
    cases v <;> first | exact absurd rfl h | exact ⟨rfl, rfl⟩
  by_cases hv : v = .null
  · subst hv
    constructor
    · rintro ⟨_, rfl⟩; exact .null
    · rintro (⟨h, _⟩ | _)
      · exact absurd rfl h
      · exact ⟨rfl, rfl⟩
  · rw [(hne hv).1, (hne hv).2]
    constructor
    · rintro ⟨h, rfl⟩
      exact .some hv ((hd v _ hp).mp ⟨h, rfl⟩)
    · rintro (⟨_, h⟩ | _)
      · have := (hd v _ hp).mpr h
        exact ⟨this.1, congrArg some this.2⟩
      · exact absurd rfl hv

/-! ### Structures -/

/-- Values of members with the name. -/
def valuesOf (name : Str) (ms : List (Str × Json)) : List Json :=
  (ms.filter fun m => sameName name m.1).map (·.2)

/-- The part `get` of a structure is changed by members called `name` and by no other ones. -/
def Part {σ α : Type} (fields : List (Field σ)) (name : Str) (d : Dec α) (get : σ → α) : Prop :=
  ∀ k v s, get (match fieldOf fields k with
    | none => s
    | some f => f.dec.apply v s) = if sameName name k then d.apply v (get s) else get s

theorem get_applyMembers {σ α : Type} {fields : List (Field σ)} {name : Str} {d : Dec α}
    {get : σ → α} (h : Part fields name d get) (ms : List (Str × Json)) (s : σ) :
    get (applyMembers fields ms s) = (valuesOf name ms).foldl (fun x v => d.apply v x) (get s) := by
  induction ms generalizing s with
  | nil => rfl
  | cons m ms ih =>
    obtain ⟨k, v⟩ := m
    have hk := h k v s
    have e : applyMembers fields ((k, v) :: ms) s = applyMembers fields ms
        (match fieldOf fields k with
          | none => s
          | some f => f.dec.apply v s) := by
      rw [applyMembers]; cases fieldOf fields k <;> rfl
    rw [e, ih, hk]
    unfold valuesOf
    rw [List.filter_cons]
    cases sameName name k <;> rfl

theorem valuesOf_plain {name : Str} {ms : List (Str × Json)}
    (h : ms.Pairwise (fun a b => ¬Alike a.1 b.1)) :
    (valuesOf name ms = [] ∧ ∀ m ∈ ms, ¬Alike name m.1) ∨
      (∃ m ∈ ms, Alike name m.1 ∧ valuesOf name ms = [m.2] ∧ ∀ m' ∈ ms, Alike name m'.1 → m' = m) := by
  induction ms with
  | nil => exact .inl ⟨rfl, by simp⟩
  | cons m ms ih =>
    rw [List.pairwise_cons] at h
    by_cases hm : sameName name m.1 = true
    · refine .inr ⟨m, List.mem_cons_self, sameName_iff.mp hm, ?_, ?_⟩
      · have : ms.filter (fun m => sameName name m.1) = [] := by
          rw [List.filter_eq_nil_iff]
          intro b hb hs
          exact h.1 b hb ((sameName_iff.mp hm).symm.trans (sameName_iff.mp hs))
        unfold valuesOf
        rw [List.filter_cons, if_pos hm, this]; rfl
      · intro m' hm' ha
        rcases List.mem_cons.mp hm' with rfl | hm'
        · rfl
        · exact absurd ((sameName_iff.mp hm).symm.trans ha) (h.1 m' hm')
    · have hm' : ¬Alike name m.1 := fun ha => hm (sameName_iff.mpr ha)
      have e : valuesOf name (m :: ms) = valuesOf name ms := by
        unfold valuesOf; rw [List.filter_cons, if_neg hm]
      rw [e]
      rcases ih h.2 with ⟨h1, h2⟩ | ⟨b, hb, h1, h2, h3⟩
      · refine .inl ⟨h1, ?_⟩
        intro x hx
        rcases List.mem_cons.mp hx with rfl | hx
        · exact hm'
        · exact h2 x hx
      · refine .inr ⟨b, List.mem_cons_of_mem _ hb, h1, h2, ?_⟩
        intro x hx ha
        rcases List.mem_cons.mp hx with rfl | hx
        · exact absurd ha hm'
        · exact h3 x hx ha

/-- All members called `name` are accepted. -/
def Fits (ms : List (Str × Json)) (name : Str) (ok : Json → Bool) : Prop :=
  ∀ m ∈ ms, Alike name m.1 → ok m.2 = true

theorem member_view {σ β α : Type} {fields : List (Field σ)} {name : String} {d : Dec β} {zero : β}
    {view : β → α} {get : σ → β} {R : Json → α → Prop} {ms : List (Str × Json)} {s : σ} {a : α}
    (hd : ReadsAs view d zero R) (h : Part fields name.toList d get) (hs : get s = zero)
    (hp : Plain (.obj ms)) :
    (Fits ms name.toList d.ok ∧ view (get (applyMembers fields ms s)) = a) ↔
      Member ms name R (view zero) a := by
  cases hp with
  | obj hp hu =>
  rw [get_applyMembers h, hs]
  rcases valuesOf_plain (name := name.toList) hu with ⟨h1, h2⟩ | ⟨m, hm, h1, h2, h3⟩
  · rw [h1]
    constructor
    · rintro ⟨_, rfl⟩
      exact .inr ⟨h2, rfl⟩
    · rintro (⟨m, hm, ha, _⟩ | ⟨_, rfl⟩)
      · exact absurd ha (h2 m hm)
      · exact ⟨fun m hm ha => absurd ha (h2 m hm), rfl⟩
  · rw [h2]
    show (Fits ms name.toList d.ok ∧ view (d.apply m.2 zero) = a) ↔ _
    have hr := hd m.2 a (hp m hm)
    constructor
    · rintro ⟨hf, he⟩
      exact .inl ⟨m, hm, h1, hr.mp ⟨hf m hm h1, he⟩⟩
    · rintro (⟨b, hb, ha, hR⟩ | ⟨hn, _⟩)
      · rw [h3 b hb ha] at hR
        have := hr.mpr hR
        exact ⟨fun x hx hax => by rw [h3 x hx hax]; exact this.1, this.2⟩
      · exact absurd h1 (hn m hm)

theorem member_iff {σ α : Type} {fields : List (Field σ)} {name : String} {d : Dec α} {zero : α}
    {get : σ → α} {R : Json → α → Prop} {ms : List (Str × Json)} {s : σ} {a : α}
    (hd : Reads d zero R) (h : Part fields name.toList d get) (hs : get s = zero)
    (hp : Plain (.obj ms)) :
    (Fits ms name.toList d.ok ∧ get (applyMembers fields ms s) = a) ↔ Member ms name R zero a :=
  member_view hd h hs hp

theorem member_list {σ α : Type} {fields : List (Field σ)} {name : String} {d : Dec (Slice α)}
    {get : σ → Slice α} {R : Json → List α → Prop} {ms : List (Str × Json)} {s : σ} {a : List α}
    (hd : ReadsAs Slice.shown d .empty R) (h : Part fields name.toList d get)
    (hs : get s = .empty) (hp : Plain (.obj ms)) :
    (Fits ms name.toList d.ok ∧ (get (applyMembers fields ms s)).shown = a) ↔
      Member ms name R [] a :=
  member_view hd h hs hp

theorem unused_iff {α : Type} {name : String} {d : Dec α} {zero : α} {R : Json → α → Prop}
    {ms : List (Str × Json)} (hd : Reads d zero R) (hp : Plain (.obj ms)) :
    Fits ms name.toList d.ok ↔ ∃ a, Member ms name R zero a := by
  cases hp with
  | obj hp hu =>
  rcases valuesOf_plain (name := name.toList) hu with ⟨_, h2⟩ | ⟨m, hm, h1, _, h3⟩
  · exact ⟨fun _ => ⟨zero, .inr ⟨h2, rfl⟩⟩, fun _ m hm ha => absurd ha (h2 m hm)⟩
  · constructor
    · intro hf
      exact ⟨d.apply m.2 zero, .inl ⟨m, hm, h1, (hd m.2 _ (hp m hm)).mp ⟨hf m hm h1, rfl⟩⟩⟩
    · rintro ⟨a, ⟨b, hb, ha, hR⟩ | ⟨hn, _⟩⟩
      · intro x hx hax
        rw [h3 x hx hax, ← h3 b hb ha]
        exact ((hd b.2 a (hp b hb)).mpr hR).1
      · exact absurd h1 (hn m hm)

/-- Names of fields are different. -/
def Distinct {σ : Type} (fields : List (Field σ)) : Prop :=
  fields.Pairwise fun f g => ¬Alike f.name g.name

theorem fieldOf_some {σ : Type} {fields : List (Field σ)} (h : Distinct fields) {k : Str}
    {f : Field σ} : fieldOf fields k = some f ↔ f ∈ fields ∧ Alike f.name k := by
  induction fields with
  | nil => simp [fieldOf]
  | cons g gs ih =>
    unfold Distinct at h
    rw [List.pairwise_cons] at h
    have ih := ih h.2
    unfold fieldOf at ih ⊢
    rw [List.find?_cons]
    cases hg : sameName g.name k with
    | true =>
      have hg := sameName_iff.mp hg
      constructor
      · intro he
        injection he with he
        subst he
        exact ⟨List.mem_cons_self, hg⟩
      · rintro ⟨hm, ha⟩
        rcases List.mem_cons.mp hm with rfl | hm
        · rfl
        · exact absurd (hg.trans ha.symm) (h.1 f hm)
    | false =>
      have hg : ¬Alike g.name k := fun ha => by rw [sameName_iff.mpr ha] at hg; cases hg
      show List.find? _ gs = some f ↔ _
      rw [ih]
      constructor
      · rintro ⟨hm, ha⟩; exact ⟨List.mem_cons_of_mem _ hm, ha⟩
      · rintro ⟨hm, ha⟩
        rcases List.mem_cons.mp hm with rfl | hm
        · exact absurd ha hg
        · exact ⟨hm, ha⟩

theorem struct_ok {σ : Type} {fields : List (Field σ)} (h : Distinct fields)
    (ms : List (Str × Json)) :
    (decStruct fields).ok (.obj ms) = true ↔ ∀ f ∈ fields, Fits ms f.name f.dec.ok := by
  show (ms.all fun m => match fieldOf fields m.1 with
    | none => true
    | some f => f.dec.ok m.2) = true ↔ _
  rw [List.all_eq_true]
  constructor
  · intro ha f hf m hm hal
    have := ha m hm
    rw [(fieldOf_some h).mpr ⟨hf, hal⟩] at this
    exact this
  · intro hf m hm
    cases he : fieldOf fields m.1 with
    | none => rfl
    | some f =>
      have := (fieldOf_some h).mp he
      exact hf f this.1 m hm this.2

theorem part_of {σ α : Type} {fields : List (Field σ)} {f : Field σ} {d : Dec α} {get : σ → α}
    (h : Distinct fields) (hf : f ∈ fields)
    (h1 : ∀ v s, get (f.dec.apply v s) = d.apply v (get s))
    (h2 : ∀ g ∈ fields, ¬Alike g.name f.name → ∀ v s, get (g.dec.apply v s) = get s) :
    Part fields f.name d get := by
  intro k v s
  by_cases hk : sameName f.name k = true
  · rw [if_pos hk, (fieldOf_some h).mpr ⟨hf, sameName_iff.mp hk⟩]
    exact h1 v s
  · rw [if_neg hk]
    cases he : fieldOf fields k with
    | none => rfl
    | some g =>
      have hg := (fieldOf_some h).mp he
      exact h2 g hg.1 (fun ha => hk (sameName_iff.mpr (ha.symm.trans hg.2))) v s

theorem reads_view {σ α : Type} {view : σ → α} {fields : List (Field σ)} {zero : σ}
    {M : List (Str × Json) → α → Prop}
    (h : ∀ ms, Plain (.obj ms) → ∀ a,
      ((decStruct fields).ok (.obj ms) = true ∧ view (applyMembers fields ms zero) = a ↔ M ms a)) :
    ReadsAs view (decStruct fields) zero (IsObj M (view zero)) := by
  intro v a hp
  constructor
  · rintro ⟨hok, rfl⟩
    cases v <;> simp only [decStruct, Bool.false_eq_true] at hok ⊢
    · exact .null
    · exact .obj ((h _ hp _).mp ⟨hok, rfl⟩)
  · rintro (hm | _)
    · exact (h _ hp _).mpr hm
    · exact ⟨rfl, rfl⟩

theorem reads_struct {σ : Type} {fields : List (Field σ)} {zero : σ}
    {M : List (Str × Json) → σ → Prop}
    (h : ∀ ms, Plain (.obj ms) → ∀ a,
      ((decStruct fields).ok (.obj ms) = true ∧ applyMembers fields ms zero = a ↔ M ms a)) :
    Reads (decStruct fields) zero (IsObj M zero) := reads_view h

theorem distinct_options : Distinct optionsFields := by unfold Distinct; decide +kernel
theorem distinct_mentions : Distinct mentionsFields := by unfold Distinct; decide +kernel
theorem distinct_location : Distinct locationFields := by unfold Distinct; decide +kernel
theorem distinct_format : Distinct formatFields := by unfold Distinct; decide +kernel
theorem distinct_hello : Distinct helloFields := by unfold Distinct; decide +kernel
theorem distinct_data : Distinct dataFields := by unfold Distinct; decide +kernel
theorem distinct_capture : Distinct captureFields := by unfold Distinct; decide +kernel
theorem distinct_linkSet : Distinct linkSetFields := by unfold Distinct; decide +kernel
theorem distinct_search : Distinct searchFields := by unfold Distinct; decide +kernel

/-- The part of the field number `i`. -/
theorem part_at {σ α : Type} {fields : List (Field σ)} {d : Dec α} {get : σ → α} (i : Nat)
    {f : Field σ} {name : String} (h : Distinct fields) (hf : fields[i]? = some f)
    (hn : f.name = name.toList)
    (h1 : ∀ v s, get (f.dec.apply v s) = d.apply v (get s))
    (h2 : ∀ g ∈ fields, ¬Alike g.name f.name → ∀ v s, get (g.dec.apply v s) = get s) :
    Part fields name.toList d get := by
  rw [← hn]
  exact part_of h (List.mem_of_getElem? hf) h1 h2

/-- Other fields do not change a part. -/
local macro "others" fs:ident : tactic => `(tactic| (
  unfold $fs
  simp only [List.forall_mem_cons, List.not_mem_nil, false_implies, implies_true, and_true]
  repeat' apply And.intro
  all_goals first
    | exact fun ha => absurd rfl ha
    | exact fun _ _ _ => rfl))

theorem reads_options : Reads decMentionsOptions 0 Options := by
  refine reads_struct fun ms hp a => ?_
  rw [struct_ok distinct_options]
  rw [← member_iff (fields := optionsFields) (get := id) (s := (0 : Int)) reads_int
    (part_at 0 distinct_options rfl rfl (fun _ _ => rfl) (by others optionsFields)) rfl hp]
  simp only [optionsFields, List.forall_mem_cons, List.not_mem_nil, false_implies, implies_true,
    and_true]
  exact Iff.rfl

theorem reads_mentions : ReadsAs MentionsArg.query decMentions ⟨.empty, none⟩ Mentions := by
  refine reads_view (view := MentionsArg.query) (zero := ⟨.empty, none⟩) fun ms hp a => ?_
  rw [struct_ok distinct_mentions]
  rw [← member_list (fields := mentionsFields) (get := MentionsArg.variants)
      (s := ⟨.empty, none⟩) (reads_slice reads_string)
      (part_at 0 distinct_mentions rfl rfl (fun _ _ => rfl) (by others mentionsFields)) rfl hp,
    ← member_iff (fields := mentionsFields) (get := MentionsArg.options)
      (s := ⟨.empty, none⟩) (reads_ptr reads_options)
      (part_at 1 distinct_mentions rfl rfl (fun _ _ => rfl) (by others mentionsFields)) rfl hp]
  have hf : (∀ f ∈ mentionsFields, Fits ms f.name f.dec.ok) ↔
      Fits ms "variants".toList (decSlice decString []).ok ∧
      Fits ms "options".toList (decPtr decMentionsOptions 0).ok := by
    simp only [mentionsFields, List.forall_mem_cons, List.not_mem_nil, false_implies, implies_true,
      and_true]
    exact Iff.rfl
  rw [hf]
  constructor
  · rintro ⟨⟨h1, h2⟩, rfl⟩; exact ⟨⟨h1, rfl⟩, h2, rfl⟩
  · rintro ⟨⟨h1, e1⟩, h2, e2⟩
    refine ⟨⟨h1, h2⟩, ?_⟩
    cases a
    cases e1; cases e2; rfl

theorem reads_location : Reads decLocation ⟨[], 0⟩ Location := by
  refine reads_struct fun ms hp a => ?_
  rw [struct_ok distinct_location]
  rw [← member_iff (fields := locationFields) (get := Emacs.Location.filePath) (s := ⟨[], 0⟩)
      reads_string
      (part_at 0 distinct_location rfl rfl (fun _ _ => rfl) (by others locationFields)) rfl hp,
    ← member_iff (fields := locationFields) (get := Emacs.Location.lineNo) (s := ⟨[], 0⟩)
      reads_int
      (part_at 1 distinct_location rfl rfl (fun _ _ => rfl) (by others locationFields)) rfl hp]
  have hf : (∀ f ∈ locationFields, Fits ms f.name f.dec.ok) ↔
      Fits ms "file".toList decString.ok ∧
      Fits ms "lineNo".toList decInt.ok := by
    simp only [locationFields, List.forall_mem_cons, List.not_mem_nil, false_implies, implies_true,
      and_true]
    exact Iff.rfl
  rw [hf]
  constructor
  · rintro ⟨⟨h1, h2⟩, rfl⟩; exact ⟨⟨h1, rfl⟩, h2, rfl⟩
  · rintro ⟨⟨h1, e1⟩, h2, e2⟩
    refine ⟨⟨h1, h2⟩, ?_⟩
    cases a
    cases e1; cases e2; rfl

theorem reads_format : Reads decHelloFormat ⟨[], []⟩ Format := by
  refine reads_struct fun ms hp a => ?_
  rw [struct_ok distinct_format]
  rw [← member_iff (fields := formatFields) (get := HelloFormat.format) (s := ⟨[], []⟩)
      reads_string
      (part_at 0 distinct_format rfl rfl (fun _ _ => rfl) (by others formatFields)) rfl hp,
    ← member_iff (fields := formatFields) (get := HelloFormat.version) (s := ⟨[], []⟩)
      reads_string
      (part_at 1 distinct_format rfl rfl (fun _ _ => rfl) (by others formatFields)) rfl hp,
    ← unused_iff reads_map hp]
  have hf : (∀ f ∈ formatFields, Fits ms f.name f.dec.ok) ↔
      Fits ms "format".toList decString.ok ∧
      Fits ms "version".toList decString.ok ∧
      Fits ms "options".toList decMap.ok := by
    simp only [formatFields, List.forall_mem_cons, List.not_mem_nil, false_implies, implies_true,
      and_true]
    exact Iff.rfl
  rw [hf]
  constructor
  · rintro ⟨⟨h1, h2, h3⟩, rfl⟩; exact ⟨⟨h1, rfl⟩, ⟨h2, rfl⟩, h3⟩
  · rintro ⟨⟨h1, e1⟩, ⟨h2, e2⟩, h3⟩
    refine ⟨⟨h1, h2, h3⟩, ?_⟩
    cases a
    cases e1; cases e2; rfl

theorem reads_hello : ReadsAs Slice.shown decHello .empty Hello := by
  refine reads_view (view := Slice.shown) (zero := .empty) fun ms hp a => ?_
  rw [struct_ok distinct_hello]
  rw [← member_list (fields := helloFields) (get := id) (s := Slice.empty)
      (reads_slice reads_format)
      (part_at 0 distinct_hello rfl rfl (fun _ _ => rfl) (by others helloFields)) rfl hp,
    ← unused_iff reads_string hp]
  have hf : (∀ f ∈ helloFields, Fits ms f.name f.dec.ok) ↔
      Fits ms "formats".toList (decSlice decHelloFormat ⟨[], []⟩).ok ∧
      Fits ms "version".toList decString.ok := by
    simp only [helloFields, List.forall_mem_cons, List.not_mem_nil, false_implies, implies_true,
      and_true]
    exact Iff.rfl
  rw [hf]
  constructor
  · rintro ⟨⟨h1, h2⟩, h⟩; exact ⟨⟨h1, h⟩, h2⟩
  · rintro ⟨⟨h1, h⟩, h2⟩; exact ⟨⟨h1, h2⟩, h⟩

theorem reads_data : Reads decCaptureData ([] : Str) Data := by
  refine reads_struct fun ms hp a => ?_
  rw [struct_ok distinct_data]
  rw [← member_iff (fields := dataFields) (get := id) (s := ([] : Str))
      reads_string
      (part_at 0 distinct_data rfl rfl (fun _ _ => rfl) (by others dataFields)) rfl hp,
    ← unused_iff reads_string hp]
  have hf : (∀ f ∈ dataFields, Fits ms f.name f.dec.ok) ↔
      Fits ms "url".toList decString.ok ∧
      Fits ms "title".toList decString.ok ∧
      Fits ms "body".toList decAny.ok := by
    simp only [dataFields, List.forall_mem_cons, List.not_mem_nil, false_implies, implies_true,
      and_true]
    exact Iff.rfl
  rw [hf]
  constructor
  · rintro ⟨⟨h1, h2, _⟩, h⟩; exact ⟨⟨h1, h⟩, h2⟩
  · rintro ⟨⟨h1, h⟩, h2⟩; exact ⟨⟨h1, h2, fun _ _ _ => rfl⟩, h⟩

theorem reads_capture : Reads decCapture ⟨[], [], false⟩ Capture := by
  refine reads_struct fun ms hp a => ?_
  rw [struct_ok distinct_capture]
  rw [← member_iff (fields := captureFields) (get := Emacs.CaptureQuery.format) (s := ⟨[], [], false⟩)
      reads_string
      (part_at 0 distinct_capture rfl rfl (fun _ _ => rfl) (by others captureFields)) rfl hp,
    ← member_iff (fields := captureFields) (get := Emacs.CaptureQuery.url) (s := ⟨[], [], false⟩)
      reads_data
      (part_at 3 distinct_capture rfl rfl (fun _ _ => rfl) (by others captureFields)) rfl hp,
    ← member_iff (fields := captureFields) (get := Emacs.CaptureQuery.hasError) (s := ⟨[], [], false⟩)
      reads_any
      (part_at 4 distinct_capture rfl rfl (fun _ _ => rfl) (by others captureFields)) rfl hp,
    ← unused_iff reads_string hp]
  have hf : (∀ f ∈ captureFields, Fits ms f.name f.dec.ok) ↔
      Fits ms "format".toList decString.ok ∧
      Fits ms "version".toList decString.ok ∧
      Fits ms "options".toList decAny.ok ∧
      Fits ms "data".toList decCaptureData.ok ∧
      Fits ms "error".toList decAny.ok := by
    simp only [captureFields, List.forall_mem_cons, List.not_mem_nil, false_implies, implies_true,
      and_true]
    exact Iff.rfl
  rw [hf]
  constructor
  · rintro ⟨⟨h1, h2, _, h4, h5⟩, rfl⟩; exact ⟨⟨h1, rfl⟩, h2, ⟨h4, rfl⟩, h5, rfl⟩
  · rintro ⟨⟨h1, e1⟩, h2, ⟨h4, e4⟩, h5, e5⟩
    refine ⟨⟨h1, h2, fun _ _ _ => rfl, h4, h5⟩, ?_⟩
    cases a
    cases e1; cases e4; cases e5; rfl

theorem reads_linkSet : ReadsAs Slice.shown decLinkSet .empty LinkSet := by
  refine reads_view (view := Slice.shown) (zero := .empty) fun ms hp a => ?_
  rw [struct_ok distinct_linkSet]
  rw [← member_list (fields := linkSetFields) (get := id) (s := Slice.empty)
      (reads_slice reads_string)
      (part_at 0 distinct_linkSet rfl rfl (fun _ _ => rfl) (by others linkSetFields)) rfl hp]
  have hf : (∀ f ∈ linkSetFields, Fits ms f.name f.dec.ok) ↔
      Fits ms "prefix".toList (decSlice decString []).ok := by
    simp only [linkSetFields, List.forall_mem_cons, List.not_mem_nil, false_implies, implies_true,
      and_true]
    exact Iff.rfl
  rw [hf]
  exact Iff.rfl

theorem reads_search : Reads decSearch ⟨[], none, none⟩ Search := by
  refine reads_struct fun ms hp a => ?_
  rw [struct_ok distinct_search]
  rw [← member_iff (fields := searchFields) (get := SearchQuery.query) (s := ⟨[], none, none⟩)
      reads_string
      (part_at 0 distinct_search rfl rfl (fun _ _ => rfl) (by others searchFields)) rfl hp,
    ← member_iff (fields := searchFields) (get := SearchQuery.limit) (s := ⟨[], none, none⟩)
      (reads_ptr reads_int)
      (part_at 1 distinct_search rfl rfl (fun _ _ => rfl) (by others searchFields)) rfl hp,
    ← member_iff (fields := searchFields) (get := SearchQuery.tolerance) (s := ⟨[], none, none⟩)
      (reads_ptr reads_int)
      (part_at 2 distinct_search rfl rfl (fun _ _ => rfl) (by others searchFields)) rfl hp]
  have hf : (∀ f ∈ searchFields, Fits ms f.name f.dec.ok) ↔
      Fits ms "q".toList decString.ok ∧
      Fits ms "limit".toList (decPtr decInt 0).ok ∧
      Fits ms "tol".toList (decPtr decInt 0).ok := by
    simp only [searchFields, List.forall_mem_cons, List.not_mem_nil, false_implies, implies_true,
      and_true]
    exact Iff.rfl
  rw [hf]
  constructor
  · rintro ⟨⟨h1, h2, h3⟩, rfl⟩; exact ⟨⟨h1, rfl⟩, ⟨h2, rfl⟩, h3, rfl⟩
  · rintro ⟨⟨h1, e1⟩, ⟨h2, e2⟩, h3, e3⟩
    refine ⟨⟨h1, h2, h3⟩, ?_⟩
    cases a
    cases e1; cases e2; cases e3; rfl

/-! ### Theorems -/

theorem decParams_iff {σ α : Type} {view : σ → α} {d : Dec σ} {zero : σ} {R : Json → α → Prop}
    (hd : ReadsAs view d zero R) (h0 : ∀ a, R .null a ↔ a = view zero) {p : Json} (hp : Plain p)
    (a : α) :
    (decParams d zero p).map view = some a ↔
      (p = .null ∨ p = .arr []) ∧ R .null a ∨ ∃ v vs, p = .arr (v :: vs) ∧ R v a := by
  cases p with
  | null => simp [decParams, h0, eq_comm]
  | arr l =>
    cases l with
    | nil => simp [decParams, h0, eq_comm]
    | cons v vs =>
      have hv : Plain v := by cases hp with | arr h => exact h v List.mem_cons_self
      have hr := hd v a hv
      by_cases hn : v = .null
      · subst hn; simp [decParams, h0, eq_comm]
      · have e : decParams d zero (.arr (v :: vs)) =
            if d.ok v then some (d.apply v zero) else none := by
          cases v <;> first | exact absurd rfl hn | rfl
        rw [e]
        constructor
        · intro h
          by_cases ho : d.ok v = true
          · rw [if_pos ho] at h
            exact .inr ⟨v, vs, rfl, hr.mp ⟨ho, by rw [Option.map_some] at h; injection h⟩⟩
          · rw [if_neg ho] at h; cases h
        · rintro (⟨h | h, _⟩ | ⟨v', vs', h, hR⟩)
          · cases h
          · cases h
          · cases h
            have := hr.mpr hR
            rw [if_pos this.1, Option.map_some, this.2]
  | bool | real | str | num | obj => simp [decParams]

theorem isObj_null {α : Type} {M : List (Str × Json) → α → Prop} {zero a : α} :
    IsObj M zero .null a ↔ a = zero :=
  ⟨fun h => by cases h; rfl, fun h => by subst h; exact .null⟩

/-- C61: a method is called exactly with what its parameters mean, and parameters without a meaning
are refused. -/
theorem c61_argument {m : Method} {p : Json} {a : Arg} (hp : Plain p) :
    argument m p = some a ↔ Params m p a := by
  have main : ∀ {σ α : Type} {view : σ → α} {d : Dec σ} {zero : σ} {R : Json → α → Prop}
      {mk : α → Arg}, ReadsAs view d zero R → (∀ a, R .null a ↔ a = view zero) →
      (∀ v b, Value m v b ↔ ∃ q, R v q ∧ b = mk q) →
      ((decParams d zero p).map (fun x => mk (view x)) = some a ↔ Params m p a) := by
    intro σ α view d zero R mk hd h0 hv
    rw [← Function.comp_def, ← Option.map_map, Option.map_eq_some_iff]
    constructor
    · rintro ⟨q, hq, rfl⟩
      rcases (decParams_iff hd h0 hp q).mp hq with ⟨h | h, hR⟩ | ⟨v, vs, h, hR⟩
      · subst h; exact .null ((hv _ _).mpr ⟨q, hR, rfl⟩)
      · subst h; exact .empty ((hv _ _).mpr ⟨q, hR, rfl⟩)
      · subst h; exact .first ((hv _ _).mpr ⟨q, hR, rfl⟩)
    · rintro (h | h | h)
      · obtain ⟨q, hR, rfl⟩ := (hv _ _).mp h
        exact ⟨q, (decParams_iff hd h0 hp q).mpr (.inr ⟨_, _, rfl, hR⟩), rfl⟩
      · obtain ⟨q, hR, rfl⟩ := (hv _ _).mp h
        exact ⟨q, (decParams_iff hd h0 hp q).mpr (.inl ⟨.inr rfl, hR⟩), rfl⟩
      · obtain ⟨q, hR, rfl⟩ := (hv _ _).mp h
        exact ⟨q, (decParams_iff hd h0 hp q).mpr (.inl ⟨.inl rfl, hR⟩), rfl⟩
  cases m
  all_goals unfold argument
  · exact main reads_hello (fun _ => isObj_null) fun v b =>
      ⟨fun h => by cases h with | hello h => exact ⟨_, h, rfl⟩, fun ⟨q, h, e⟩ => e ▸ .hello h⟩
  · exact main reads_capture (fun _ => isObj_null) fun v b =>
      ⟨fun h => by cases h with | capture h => exact ⟨_, h, rfl⟩, fun ⟨q, h, e⟩ => e ▸ .capture h⟩
  · exact main reads_mentions (fun _ => isObj_null) fun v b =>
      ⟨fun h => by cases h with | urlMentions h => exact ⟨_, h, rfl⟩,
        fun ⟨q, h, e⟩ => e ▸ .urlMentions h⟩
  · exact main reads_location (fun _ => isObj_null) fun v b =>
      ⟨fun h => by cases h with | visit h => exact ⟨_, h, rfl⟩, fun ⟨q, h, e⟩ => e ▸ .visit h⟩
  · exact main reads_search (fun _ => isObj_null) fun v b =>
      ⟨fun h => by cases h with | search h => exact ⟨_, h, rfl⟩, fun ⟨q, h, e⟩ => e ▸ .search h⟩
  · exact main reads_linkSet (fun _ => isObj_null) fun v b =>
      ⟨fun h => by cases h with | linkSet h => exact ⟨_, h, rfl⟩, fun ⟨q, h, e⟩ => e ▸ .linkSet h⟩

/-- C61: parameters have one meaning. -/
theorem c61_unique {m : Method} {p : Json} {a b : Arg} (hp : Plain p) (ha : Params m p a)
    (hb : Params m p b) : a = b := by
  have := (c61_argument hp).mpr ha
  rw [(c61_argument hp).mpr hb] at this
  injection this with this
  exact this.symm

theorem each_str (us : List Str) : Each IsStr (us.map .str) us := by
  induction us with
  | nil => exact .nil
  | cons u us ih => exact .cons .str ih

/-- C61: an object with `variants` and `options.countLimit` asks for these addresses and this limit,
whatever other members are added. -/
theorem c61_mentions {us : List Str} {n : Int} {more : List (Str × Json)} {rest : List Json}
    (h1 : -2 ^ 63 ≤ n) (h2 : n < 2 ^ 63)
    (hp : Plain (.arr (.obj (("variants".toList, .arr (us.map .str)) ::
      ("options".toList, .obj [("countLimit".toList, .num n)]) :: more) :: rest))) :
    argument .urlMentions (.arr (.obj (("variants".toList, .arr (us.map .str)) ::
      ("options".toList, .obj [("countLimit".toList, .num n)]) :: more) :: rest)) =
      some (.urlMentions ⟨us, some n⟩) := by
  rw [c61_argument hp]
  refine .first (.urlMentions (.obj ⟨.inl ⟨_, List.mem_cons_self, rfl, .arr (each_str us)⟩,
    .inl ⟨_, List.mem_cons_of_mem _ List.mem_cons_self, rfl, .some (by intro h; cases h) (.obj
      (.inl ⟨_, List.mem_cons_self, rfl, .num h1 h2⟩))⟩⟩))

/-- C61: without `options` there is no limit in the query, so the method takes its own one. -/
theorem c61_mentions_default {ms : List (Str × Json)} {rest : List Json}
    {q : Tree.MentionsQuery} (hp : Plain (.arr (.obj ms :: rest)))
    (hn : ∀ m ∈ ms, ¬Alike "options".toList m.1)
    (h : argument .urlMentions (.arr (.obj ms :: rest)) = some (.urlMentions q)) :
    q.countLimit = none := by
  cases (c61_argument hp).mp h with
  | first h =>
  cases h with
  | urlMentions h =>
  cases h with
  | obj h =>
  rcases h.2 with ⟨m, hm, ha, _⟩ | ⟨_, h⟩
  · exact absurd ha (hn m hm)
  · exact h

/-- C61: a request to open a file names one file and one line, these are what is checked and
opened. -/
theorem c61_visit {ms : List (Str × Json)} {rest : List Json} {q : Emacs.Location}
    (hp : Plain (.arr (.obj ms :: rest)))
    (h : argument .visit (.arr (.obj ms :: rest)) = some (.visit q)) {m : Str × Json} (hm : m ∈ ms) :
    (Alike "file".toList m.1 → IsStr m.2 q.filePath) ∧
      (Alike "lineNo".toList m.1 → IsInt m.2 q.lineNo) := by
  cases hpo : hp with
  | arr hpa =>
  cases hpa _ List.mem_cons_self with
  | obj hpm hu =>
  have same : ∀ {name : String} {b : Str × Json}, b ∈ ms → Alike name.toList b.1 →
      Alike name.toList m.1 → b = m := by
    intro name b hb h1 h2
    rcases valuesOf_plain (name := name.toList) hu with ⟨_, hn⟩ | ⟨c, _, _, _, h3⟩
    · exact absurd h1 (hn b hb)
    · rw [h3 b hb h1, h3 m hm h2]
  cases (c61_argument hp).mp h with
  | first h =>
  cases h with
  | visit h =>
  cases h with
  | obj h =>
  refine ⟨fun ha => ?_, fun ha => ?_⟩
  · rcases h.1 with ⟨b, hb, h1, hR⟩ | ⟨hn, _⟩
    · rw [← same hb h1 ha]; exact hR
    · exact absurd ha (hn m hm)
  · rcases h.2 with ⟨b, hb, h1, hR⟩ | ⟨hn, _⟩
    · rw [← same hb h1 ha]; exact hR
    · exact absurd ha (hn m hm)

/-! ### Cases -/

/-- Decides `Plain` for examples. -/
def plain? : Nat → Json → Bool
  | 0, _ => false
  | _ + 1, .null | _ + 1, .bool _ | _ + 1, .real _ | _ + 1, .str _ | _ + 1, .num _ => true
  | n + 1, .arr vs => vs.all (plain? n)
  | n + 1, .obj ms => ms.all (fun m => plain? n m.2) &&
      decide (ms.Pairwise (fun a b => ¬Alike a.1 b.1))

theorem plain_of {n : Nat} {v : Json} (h : plain? n v = true) : Plain v := by
  induction n generalizing v with
  | zero => cases h
  | succ n ih =>
    cases v with
    | null => exact .null
    | bool => exact .bool
    | real => exact .real
    | str => exact .str
    | num => exact .num
    | arr vs =>
      rw [plain?, List.all_eq_true] at h
      exact .arr fun v hv => ih (h v hv)
    | obj ms =>
      rw [plain?, Bool.and_eq_true, List.all_eq_true, decide_eq_true_iff] at h
      exact .obj (fun m hm => ih (h.1 m hm)) h.2

private def k (s : String) : Str := s.toList

example : argument .urlMentions (.arr [.obj [(k "variants", .arr [.str (k "http://a.org/")]),
    (k "options", .obj [(k "countLimit", .num 3)]), (k "unknown", .real (k "1.5"))]]) =
    some (.urlMentions ⟨[k "http://a.org/"], some 3⟩) :=
  c61_mentions (us := [k "http://a.org/"]) (by decide) (by decide)
    (plain_of (n := 9) (by decide +kernel))

example : argument .urlMentions (.arr [.obj [(k "variants", .arr [.str (k "http://a.org/")])]]) =
    some (.urlMentions ⟨[k "http://a.org/"], none⟩) := rfl

/-- Letter case does not matter. -/
example : argument .visit (.arr [.obj [(k "LINENO", .num 7), (k "File", .str (k "/a.org"))]]) =
    some (.visit ⟨k "/a.org", 7⟩) := rfl

/-- A number in quotation marks, a fraction, a number that is too large, an object that is not in an
array are refused. -/
example : argument .visit (.arr [.obj [(k "lineNo", .str (k "7"))]]) = none ∧
    argument .visit (.arr [.obj [(k "lineNo", .real (k "7.0"))]]) = none ∧
    argument .visit (.arr [.obj [(k "lineNo", .num (2 ^ 63))]]) = none ∧
    argument .visit (.obj [(k "lineNo", .num 7)]) = none := ⟨rfl, rfl, rfl, rfl⟩

/-- An error of capture that is `null` is no error. -/
example : argument .capture (.arr [.obj [(k "format", .str (k "org-protocol")),
    (k "version", .str (k "0.2")), (k "data", .obj [(k "url", .str (k "org-protocol:/capture")),
      (k "title", .str []), (k "body", .null)]), (k "error", .null)]]) =
    some (.capture ⟨k "org-protocol", k "org-protocol:/capture", false⟩) := rfl

example : Plain (.arr [.obj [(k "lineNo", .num 7), (k "file", .str (k "/a.org"))]]) :=
  plain_of (n := 9) (by decide +kernel)

end Burl.Backend
