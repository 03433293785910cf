import Verif.Tool.ClientText
import Verif.Tool.ClientProps
import Verif.JsonText.IndentProps
/-! What the command-line client prints (C73). -/
namespace Burl.Tool.Client
open Burl
open Burl.Json (Json)
open Burl.Backend (argument Arg Env world)
open Burl.Backend.Spec (seen Written Asked inside insideAll insideMembers insideMember member isA textOf numberOf demand)
open Burl.Rpc.Server (Request Answers)
open Burl.Rpc.Spec (Padded)
open Burl.JsonText.Spec (TextFor Plain AllPlain MembersPlain)
open Burl.Extract (All₂)
open Spec

namespace Spec

mutual
/-- The same value, but for the order of members of objects. -/
def Rearranged : Json → Json → Prop
  | .arr vs, w => ∃ ws, w = .arr ws ∧ RearrangedAll vs ws
  | .obj ms, w => ∃ ms' ms'', w = .obj ms'' ∧ RearrangedMembers ms ms' ∧ ms'.Perm ms''
  | .null, w => w = .null
  | .bool b, w => w = .bool b
  | .num n, w => w = .num n
  | .real t, w => w = .real t
  | .str s, w => w = .str s
def RearrangedAll : List Json → List Json → Prop
  | [], ws => ws = []
  | v :: vs, ws => ∃ w ws', ws = w :: ws' ∧ Rearranged v w ∧ RearrangedAll vs ws'
def RearrangedMembers : List (Str × Json) → List (Str × Json) → Prop
  | [], ws => ws = []
  | m :: ms, ws => ∃ w ws', ws = (m.1, w) :: ws' ∧ Rearranged m.2 w ∧ RearrangedMembers ms ws'
end

mutual
/-- Names of members are not repeated. -/
def Distinct : Json → Prop
  | .arr vs => DistinctAll vs
  | .obj ms => (ms.map (·.1)).Nodup ∧ DistinctMembers ms
  | _ => True
def DistinctAll : List Json → Prop
  | [] => True
  | v :: vs => Distinct v ∧ DistinctAll vs
def DistinctMembers : List (Str × Json) → Prop
  | [] => True
  | m :: ms => Distinct m.2 ∧ DistinctMembers ms
end

mutual
/-- Numbers are integers that are not too large. -/
def Small : Json → Prop
  | .arr vs => SmallAll vs
  | .obj ms => SmallMembers ms
  | .num n => -2 ^ 53 ≤ n ∧ n ≤ 2 ^ 53
  | .real _ => False
  | _ => True
def SmallAll : List Json → Prop
  | [] => True
  | v :: vs => Small v ∧ SmallAll vs
def SmallMembers : List (Str × Json) → Prop
  | [] => True
  | m :: ms => Small m.2 ∧ SmallMembers ms
end

/-- Integers that have exact representations are left as they are. -/
def Floats (float : Json → Option Json) : Prop :=
  ∀ n : Int, -2 ^ 53 ≤ n → n ≤ 2 ^ 53 → float (.num n) = some (.num n)

end Spec

/-! ### Values -/

theorem store_perm {k : Str} {v : Json} : ∀ {ms : List (Str × Json)}, k ∉ ms.map (·.1) →
    (store k v ms).Perm ((k, v) :: ms)
  | [], _ => List.Perm.refl _
  | m :: ms, h => by
    simp only [List.map_cons, List.mem_cons, not_or] at h
    rw [store, if_neg h.1]
    split
    · exact List.Perm.refl _
    · exact (List.Perm.cons _ (store_perm h.2)).trans (List.Perm.swap _ _ _)

theorem rearrangedMembers_names {ms ws : List (Str × Json)} (h : RearrangedMembers ms ws) :
    ws.map (·.1) = ms.map (·.1) := by
  induction ms generalizing ws with
  | nil => rw [RearrangedMembers] at h; subst h; rfl
  | cons m ms ih =>
    rw [RearrangedMembers] at h
    obtain ⟨w, ws', rfl, -, h⟩ := h
    simp [ih h]

mutual
/-- An `interface{}` keeps the value. -/
theorem generic_common {float : Json → Option Json} (hf : Floats float) :
    ∀ v : Json, Distinct v → Small v → ∃ g, generic float v = some g ∧ Rearranged v g
  | .null, _, _ => ⟨.null, rfl, rfl⟩
  | .bool b, _, _ => ⟨.bool b, rfl, rfl⟩
  | .str s, _, _ => ⟨.str s, rfl, rfl⟩
  | .num n, _, h => ⟨.num n, by rw [generic]; exact hf n h.1 h.2, rfl⟩
  | .real _, _, h => h.elim
  | .arr vs, h, h' => by
    obtain ⟨ws, h1, h2⟩ := genericAll_common hf vs h h'
    exact ⟨.arr ws, by rw [generic, h1]; rfl, ws, rfl, h2⟩
  | .obj ms, h, h' => by
    rw [Distinct] at h
    obtain ⟨ws, ms', h1, h2, h3⟩ := genericMembers_common hf ms [] h.2 h' h.1 (by simp)
    exact ⟨.obj ws, by rw [generic, h1]; rfl, ms', ws, rfl, h2, by simpa using h3.symm⟩
theorem genericAll_common {float : Json → Option Json} (hf : Floats float) :
    ∀ vs : List Json, DistinctAll vs → SmallAll vs → ∃ ws, genericAll float vs = some ws ∧ RearrangedAll vs ws
  | [], _, _ => ⟨[], rfl, rfl⟩
  | v :: vs, h, h' => by
    rw [DistinctAll] at h
    rw [SmallAll] at h'
    obtain ⟨w, h1, h2⟩ := generic_common hf v h.1 h'.1
    obtain ⟨ws, h3, h4⟩ := genericAll_common hf vs h.2 h'.2
    exact ⟨w :: ws, by rw [genericAll, h1, h3]; rfl, w, ws, rfl, h2, h4⟩
theorem genericMembers_common {float : Json → Option Json} (hf : Floats float) :
    ∀ (ms acc : List (Str × Json)), DistinctMembers ms → SmallMembers ms → (ms.map (·.1)).Nodup →
      (∀ k ∈ ms.map (·.1), k ∉ acc.map (·.1)) →
      ∃ ws ms', genericMembers float ms acc = some ws ∧ RearrangedMembers ms ms' ∧ ws.Perm (ms' ++ acc)
  | [], acc, _, _, _, _ => ⟨acc, [], rfl, rfl, List.Perm.refl _⟩
  | m :: ms, acc, h, h', hn, ha => by
    rw [DistinctMembers] at h
    rw [SmallMembers] at h'
    obtain ⟨w, h1, h2⟩ := generic_common hf m.2 h.1 h'.1
    simp only [List.map_cons, List.nodup_cons] at hn
    have hk : m.1 ∉ acc.map (·.1) := ha _ (by simp)
    have hp := store_perm (v := w) hk
    obtain ⟨ws, ms', h3, h4, h5⟩ := genericMembers_common hf ms (store m.1 w acc) h.2 h'.2 hn.2 (by
      intro k hkm hka
      have : k ∈ ((m.1, w) :: acc).map (·.1) := (hp.map _).mem_iff.1 hka
      rcases List.mem_cons.1 this with e | e
      · simp only at e; subst e; exact hn.1 hkm
      · exact ha k (by simp [hkm]) e)
    refine ⟨ws, (m.1, w) :: ms', by rw [genericMembers, h1]; exact h3, ⟨w, ms', rfl, h2, h4⟩, ?_⟩
    refine h5.trans ((List.Perm.append_left _ hp).trans ?_)
    exact List.perm_middle
end

theorem membersPlain_perm {d : Nat} {a b : List (Str × Json)} (h : a.Perm b) (ha : MembersPlain d a) :
    MembersPlain d b := by
  induction h with
  | nil => exact ha
  | cons x _ ih => rw [MembersPlain] at ha ⊢; exact ⟨ha.1, ih ha.2⟩
  | swap x y l => simp only [MembersPlain] at ha ⊢; exact ⟨ha.2.1, ha.1, ha.2.2⟩
  | trans _ _ ih1 ih2 => exact ih2 (ih1 ha)

mutual
theorem plain_rearranged : ∀ (d : Nat) (v g : Json), Rearranged v g → Plain d v → Plain d g
  | _, .null, g, h, hp => by rw [Rearranged] at h; subst h; exact hp
  | _, .bool _, g, h, hp => by rw [Rearranged] at h; subst h; exact hp
  | _, .num _, g, h, hp => by rw [Rearranged] at h; subst h; exact hp
  | _, .real _, g, h, hp => by rw [Rearranged] at h; subst h; exact hp
  | _, .str _, g, h, hp => by rw [Rearranged] at h; subst h; exact hp
  | 0, .arr _, g, _, hp => by rw [Plain] at hp; exact hp.elim
  | 0, .obj _, g, _, hp => by rw [Plain] at hp; exact hp.elim
  | d + 1, .arr vs, g, h, hp => by
    rw [Rearranged] at h
    obtain ⟨ws, rfl, h⟩ := h
    rw [Plain] at hp ⊢
    exact allPlain_rearranged d vs ws h hp
  | d + 1, .obj ms, g, h, hp => by
    rw [Rearranged] at h
    obtain ⟨ms', ws, rfl, h, hperm⟩ := h
    rw [Plain] at hp ⊢
    exact membersPlain_perm hperm (membersPlain_rearranged d ms ms' h hp)
theorem allPlain_rearranged : ∀ (d : Nat) (vs ws : List Json), RearrangedAll vs ws → AllPlain d vs →
    AllPlain d ws
  | _, [], ws, h, hp => by rw [RearrangedAll] at h; subst h; exact hp
  | d, v :: vs, ws, h, hp => by
    rw [RearrangedAll] at h
    obtain ⟨w, ws', rfl, h1, h2⟩ := h
    rw [AllPlain] at hp ⊢
    exact ⟨plain_rearranged d v w h1 hp.1, allPlain_rearranged d vs ws' h2 hp.2⟩
theorem membersPlain_rearranged : ∀ (d : Nat) (ms ws : List (Str × Json)), RearrangedMembers ms ws →
    MembersPlain d ms → MembersPlain d ws
  | _, [], ws, h, hp => by rw [RearrangedMembers] at h; subst h; exact hp
  | d, m :: ms, ws, h, hp => by
    rw [RearrangedMembers] at h
    obtain ⟨w, ws', rfl, h1, h2⟩ := h
    rw [MembersPlain] at hp ⊢
    exact ⟨plain_rearranged d m.2 w h1 hp.1, membersPlain_rearranged d ms ws' h2 hp.2⟩
end

/-! ### What is seen -/

theorem find_members {ms ws : List (Str × Json)} (h : RearrangedMembers ms ws) (k : Str) :
    (ms.find? fun m => m.1 = k) = none ∧ (ws.find? fun m => m.1 = k) = none ∨
    ∃ v w, ms.find? (fun m => m.1 = k) = some (k, v) ∧ ws.find? (fun m => m.1 = k) = some (k, w) ∧ Rearranged v w := by
  induction ms generalizing ws with
  | nil => rw [RearrangedMembers] at h; subst h; exact .inl ⟨rfl, rfl⟩
  | cons m ms ih =>
    rw [RearrangedMembers] at h
    obtain ⟨w, ws', rfl, h1, h2⟩ := h
    obtain ⟨k', v⟩ := m
    by_cases e : k' = k
    · subst e
      exact .inr ⟨v, w, by simp, by simp, h1⟩
    · rcases ih h2 with ⟨h3, h4⟩ | ⟨v', w', h3, h4, h5⟩
      · exact .inl ⟨by simpa [e] using h3, by simpa [e] using h4⟩
      · exact .inr ⟨v', w', by simpa [e] using h3, by simpa [e] using h4, h5⟩

theorem find_perm {ms ws : List (Str × Json)} (h : ms.Perm ws) (hn : (ms.map (·.1)).Nodup) (k : Str) :
    (ms.find? fun m => m.1 = k) = ws.find? fun m => m.1 = k := by
  induction h with
  | nil => rfl
  | cons x _ ih =>
    simp only [List.map_cons, List.nodup_cons] at hn
    simp only [List.find?_cons, ih hn.2]
  | swap x y l =>
    simp only [List.map_cons, List.nodup_cons, List.mem_cons, not_or] at hn
    by_cases h1 : x.1 = k
    · by_cases h2 : y.1 = k
      · exact absurd (h2.trans h1.symm) hn.1.1
      · simp [h1, h2]
    · by_cases h2 : y.1 = k <;> simp [h1, h2]
  | trans h1 _ ih1 ih2 => rw [ih1 hn, ih2 ((h1.map _).nodup_iff.1 hn)]

theorem member_rearranged {v g : Json} (h : Rearranged v g) (hc : Distinct v) (name : String) :
    member name v = none ∧ member name g = none ∨
    ∃ a b, member name v = some a ∧ member name g = some b ∧ Rearranged a b := by
  cases v with
  | obj ms =>
    rw [Rearranged] at h
    obtain ⟨ms', ws, rfl, h1, h2⟩ := h
    rw [Distinct] at hc
    have hp := find_perm h2 (by rw [rearrangedMembers_names h1]; exact hc.1) name.toList
    rcases find_members h1 name.toList with ⟨h3, h4⟩ | ⟨a, b, h3, h4, h5⟩
    · left
      rw [hp] at h4
      simp only [member, h3, h4]
      exact ⟨rfl, rfl⟩
    · right
      rw [hp] at h4
      refine ⟨a, b, ?_, ?_, h5⟩ <;> simp only [member, h3, h4] <;> rfl
  | arr vs => rw [Rearranged] at h; obtain ⟨ws, rfl, -⟩ := h; exact .inl ⟨rfl, rfl⟩
  | null => rw [Rearranged] at h; subst h; exact .inl ⟨rfl, rfl⟩
  | bool b => rw [Rearranged] at h; subst h; exact .inl ⟨rfl, rfl⟩
  | num n => rw [Rearranged] at h; subst h; exact .inl ⟨rfl, rfl⟩
  | real t => rw [Rearranged] at h; subst h; exact .inl ⟨rfl, rfl⟩
  | str s => rw [Rearranged] at h; subst h; exact .inl ⟨rfl, rfl⟩

theorem textOf_rearranged {v g : Json} (h : Rearranged v g) (hc : Distinct v) (name : String) :
    textOf name g = textOf name v := by
  unfold textOf
  rcases member_rearranged h hc name with ⟨h1, h2⟩ | ⟨a, b, h1, h2, h3⟩
  · rw [h1, h2]
  · rw [h1, h2]
    cases a <;> rw [Rearranged] at h3
    case arr => obtain ⟨ws, rfl, -⟩ := h3; rfl
    case obj => obtain ⟨_, ws, rfl, -⟩ := h3; rfl
    all_goals subst h3; rfl

theorem numberOf_rearranged {v g : Json} (h : Rearranged v g) (hc : Distinct v) (name : String) :
    numberOf name g = numberOf name v := by
  unfold numberOf
  rcases member_rearranged h hc name with ⟨h1, h2⟩ | ⟨a, b, h1, h2, h3⟩
  · rw [h1, h2]
  · rw [h1, h2]
    cases a <;> rw [Rearranged] at h3
    case arr => obtain ⟨ws, rfl, -⟩ := h3; rfl
    case obj => obtain ⟨_, ws, rfl, -⟩ := h3; rfl
    all_goals subst h3; rfl

theorem isA_rearranged {v g : Json} (h : Rearranged v g) (hc : Distinct v) (type : String) :
    isA type g = isA type v := by
  unfold isA
  rcases member_rearranged h hc "_type" with ⟨h1, h2⟩ | ⟨a, b, h1, h2, h3⟩
  · rw [h1, h2]
  · rw [h1, h2]
    cases a <;> rw [Rearranged] at h3
    case arr => obtain ⟨ws, rfl, -⟩ := h3; rfl
    case obj => obtain ⟨_, ws, rfl, -⟩ := h3; rfl
    all_goals subst h3; rfl

/-- Values in both lists correspond, in some order. -/
def Alike (as bs : List Json) : Prop :=
  ∃ cs, All₂ (fun a c => Distinct a ∧ Rearranged a c) as cs ∧ cs.Perm bs

theorem all₂_append {α β : Type} {R : α → β → Prop} {a c : List α} {b d : List β} (h : All₂ R a b)
    (h' : All₂ R c d) : All₂ R (a ++ c) (b ++ d) := by
  induction h with
  | nil => exact h'
  | cons hr _ ih => exact .cons hr ih

theorem Alike.append {a b c d : List Json} (h : Alike a b) (h' : Alike c d) : Alike (a ++ c) (b ++ d) := by
  obtain ⟨x, h1, h2⟩ := h
  obtain ⟨y, h3, h4⟩ := h'
  exact ⟨x ++ y, all₂_append h1 h3, h2.append h4⟩

theorem insideMembers_perm (type : String) {a b : List (Str × Json)} (h : a.Perm b) :
    (insideMembers type a).Perm (insideMembers type b) := by
  induction h with
  | nil => exact List.Perm.refl _
  | cons x _ ih => simp only [insideMembers]; exact List.Perm.append_left _ ih
  | swap x y l =>
    simp only [insideMembers, ← List.append_assoc]
    exact List.Perm.append_right _ List.perm_append_comm
  | trans _ _ ih1 ih2 => exact ih1.trans ih2

mutual
theorem inside_rearranged (type : String) : ∀ (v g : Json), Rearranged v g → Distinct v →
    Alike (inside type v) (inside type g)
  | .obj ms, g, h, hc => by
    have hi := isA_rearranged h hc type
    have h0 := h
    rw [Rearranged] at h
    obtain ⟨ms', ws, rfl, h1, h2⟩ := h
    rw [inside, inside, hi]
    split
    · exact ⟨[.obj ws], .cons ⟨hc, h0⟩ .nil, List.Perm.refl _⟩
    · rw [Distinct] at hc
      obtain ⟨cs, h3, h4⟩ := insideMembers_rearranged type ms ms' h1 hc.2
      exact ⟨cs, h3, h4.trans (insideMembers_perm type h2)⟩
  | .arr vs, g, h, hc => by
    rw [Rearranged] at h
    obtain ⟨ws, rfl, h⟩ := h
    rw [inside, inside]
    exact insideAll_rearranged type vs ws h hc
  | .null, g, h, _ => by rw [Rearranged] at h; subst h; exact ⟨[], .nil, List.Perm.refl _⟩
  | .bool _, g, h, _ => by rw [Rearranged] at h; subst h; exact ⟨[], .nil, List.Perm.refl _⟩
  | .num _, g, h, _ => by rw [Rearranged] at h; subst h; exact ⟨[], .nil, List.Perm.refl _⟩
  | .real _, g, h, _ => by rw [Rearranged] at h; subst h; exact ⟨[], .nil, List.Perm.refl _⟩
  | .str _, g, h, _ => by rw [Rearranged] at h; subst h; exact ⟨[], .nil, List.Perm.refl _⟩
theorem insideAll_rearranged (type : String) : ∀ (vs ws : List Json), RearrangedAll vs ws → DistinctAll vs →
    Alike (insideAll type vs) (insideAll type ws)
  | [], ws, h, _ => by rw [RearrangedAll] at h; subst h; exact ⟨[], .nil, List.Perm.refl _⟩
  | v :: vs, ws, h, hc => by
    rw [RearrangedAll] at h
    obtain ⟨w, ws', rfl, h1, h2⟩ := h
    rw [DistinctAll] at hc
    rw [insideAll, insideAll]
    exact (inside_rearranged type v w h1 hc.1).append (insideAll_rearranged type vs ws' h2 hc.2)
theorem insideMembers_rearranged (type : String) : ∀ (ms ws : List (Str × Json)), RearrangedMembers ms ws →
    DistinctMembers ms → Alike (insideMembers type ms) (insideMembers type ws)
  | [], ws, h, _ => by rw [RearrangedMembers] at h; subst h; exact ⟨[], .nil, List.Perm.refl _⟩
  | (k, v) :: ms, ws, h, hc => by
    rw [RearrangedMembers] at h
    obtain ⟨w, ws', rfl, h1, h2⟩ := h
    rw [DistinctMembers] at hc
    rw [insideMembers, insideMembers, insideMember, insideMember]
    exact (inside_rearranged type v w h1 hc.1).append (insideMembers_rearranged type ms ws' h2 hc.2)
end

theorem alike_map {α : Type} (f : Json → α) (hf : ∀ a c, Distinct a → Rearranged a c → f c = f a)
    {as bs : List Json} (h : Alike as bs) : (as.map f).Perm (bs.map f) := by
  obtain ⟨cs, h1, h2⟩ := h
  have : as.map f = cs.map f := by
    clear h2
    induction h1 with
    | nil => rfl
    | cons h _ ih => simp only [List.map_cons, ih, hf _ _ h.1 h.2]
  rw [this]
  exact h2.map f

/-- The same is seen. -/
theorem seen_rearranged {v g : Json} (h : Rearranged v g) (hc : Distinct v) : (seen v).Perm (seen g) := by
  obtain ⟨cs, h1, h2⟩ := inside_rearranged "File" v g h hc
  unfold seen
  refine List.Perm.trans ?_ (h2.flatMap_right _)
  clear h2
  generalize inside "File" v = fs at h1
  induction h1 with
  | nil => exact List.Perm.refl _
  | @cons a c _ _ hr _ ih =>
    simp only [List.flatMap_cons]
    refine List.Perm.append ?_ ih
    obtain ⟨ds, h3, h4⟩ := inside_rearranged "Link" a c hr.2 hr.1
    rw [textOf_rearranged hr.2 hr.1]
    refine List.Perm.trans ?_ (h4.map _)
    clear h4
    generalize inside "Link" a = ls at h3
    have : ls.map (fun l => (textOf "path" a, textOf "url" l, numberOf "lineNo" l)) =
        ds.map (fun l => (textOf "path" a, textOf "url" l, numberOf "lineNo" l)) := by
      induction h3 with
      | nil => rfl
      | cons hr _ ih => simp only [List.map_cons, ih, textOf_rearranged hr.2 hr.1, numberOf_rearranged hr.2 hr.1]
    rw [this]

theorem alike_length {as bs : List Json} (h : Alike as bs) : as.length = bs.length := by
  obtain ⟨cs, h1, h2⟩ := h
  rw [← h2.length_eq]
  exact JsonText.all₂_length h1

/-! ### Results of the backend -/

theorem distinct_link (l : Tree.Spec.Link) : Distinct (Json.Spec.renderLink l) := by
  unfold Json.Spec.renderLink
  by_cases h : l.descr = []
  · rw [if_pos h]
    simp only [List.nil_append, Distinct, DistinctMembers, and_true, List.map_cons, List.map_nil]
    decide
  · rw [if_neg h]
    simp only [List.cons_append, List.nil_append, Distinct, DistinctMembers, and_true, List.map_cons, List.map_nil]
    decide

theorem distinct_links (ls : List Tree.Spec.Link) : DistinctAll (ls.map Json.Spec.renderLink) := by
  induction ls with
  | nil => trivial
  | cons l ls ih => exact ⟨distinct_link l, ih⟩

theorem distinct_strings (ls : List Str) : DistinctAll (ls.map .str) := by
  induction ls with
  | nil => trivial
  | cons l ls ih => exact ⟨trivial, ih⟩

mutual
theorem distinct_render : ∀ y : Tree.Spec.Annot, Distinct (Json.Spec.render y)
  | .body n k ls => by
    have := distinct_links ls
    simp only [Json.Spec.render, Distinct, DistinctMembers, and_true, true_and, List.map_cons, List.map_nil]
    exact ⟨by decide, this⟩
  | .node n k p cs => by
    have hall := distinct_renderAll cs
    cases p with
    | unset => rw [Json.Spec.render]; simp [Distinct, DistinctMembers]
    | missingHeading => rw [Json.Spec.render]; simp [Distinct, DistinctMembers]
    | file path =>
      rw [Json.Spec.render]
      simp only [Json.Spec.nodeObj, List.cons_append, List.nil_append, Distinct, DistinctMembers, and_true, true_and,
        List.map_cons, List.map_nil]
      exact ⟨by decide, hall⟩
    | heading ln text =>
      rw [Json.Spec.render]
      simp only [Json.Spec.nodeObj, List.cons_append, List.nil_append, Distinct, DistinctMembers, and_true, true_and,
        List.map_cons, List.map_nil]
      exact ⟨by decide, hall⟩
    | fileGroup =>
      match cs with
      | [c] => rw [Json.Spec.render]; exact distinct_render c
      | [] =>
        rw [Json.Spec.render]
        · simp only [Json.Spec.nodeObj, List.cons_append, List.nil_append, Distinct, DistinctMembers, and_true, true_and,
            List.map_cons, List.map_nil]
          exact ⟨by decide, hall⟩
        · simp
      | c :: c' :: cs =>
        rw [Json.Spec.render]
        · simp only [Json.Spec.nodeObj, List.cons_append, List.nil_append, Distinct, DistinctMembers, and_true, true_and,
            List.map_cons, List.map_nil]
          exact ⟨by decide, hall⟩
        · simp
theorem distinct_renderAll : ∀ ys : List Tree.Spec.Annot, DistinctAll (Json.Spec.renderAll ys)
  | [] => trivial
  | y :: ys => ⟨distinct_render y, distinct_renderAll ys⟩
end

/-- Results do not repeat names. -/
theorem distinct_returns {e : Env} {m : Rpc.Method} {a : Arg} {v : Json} (h : Backend.Returns e m a v none) :
    Distinct v := by
  cases h with
  | @hello fs r _ =>
    simp only [Backend.helloJson, Backend.mem, Distinct, DistinctMembers, and_true, true_and, List.map_cons,
      List.map_nil]
    refine ⟨by decide, ?_, by decide⟩
    unfold Backend.strings
    split
    · trivial
    · exact distinct_strings _
  | capture _ =>
    simp only [Backend.captureJson, Backend.mem, Distinct, DistinctMembers, and_true, List.map_cons, List.map_nil]
    decide
  | mentions h1 h2 h3 h4 =>
    rename_i q _ _
    obtain ⟨order, hp, g, trees, h', a, hs⟩ := Backend.Returns.served (q := q) (.mentions h1 h2 h3 h4)
    have hf : Tree.Decides q fun l => decide (l.url ∈ Tree.mentionVariants order q) := fun l => by
      rw [decide_eq_true_iff, Tree.mentionVariants_mem hs.orders]
    obtain ⟨y, hy, hcount⟩ := Tree.c18_counts hs.orders hs.rep q hs.asks hf hs.reply
    obtain ⟨n, k, ys, rfl, -, -, -, rfl⟩ := hs.seen hy hcount
    exact distinct_render _
  | visit _ => trivial
  | linkSet _ _ =>
    simp only [Backend.linkSetJson, Backend.mem, Distinct, DistinctMembers, and_true, List.map_cons, List.map_nil]
    exact ⟨by decide, distinct_strings _⟩

theorem small_strings (ls : List Str) : SmallAll (ls.map .str) := by
  induction ls with
  | nil => trivial
  | cons l ls ih => exact ⟨trivial, ih⟩

mutual
def small? : Json → Bool
  | .arr vs => smallAll? vs
  | .obj ms => smallMembers? ms
  | .num n => decide (-2 ^ 53 ≤ n) && decide (n ≤ 2 ^ 53)
  | .real _ => false
  | _ => true
def smallAll? : List Json → Bool
  | [] => true
  | v :: vs => small? v && smallAll? vs
def smallMembers? : List (Str × Json) → Bool
  | [] => true
  | m :: ms => small? m.2 && smallMembers? ms
end

mutual
theorem small_of : ∀ v : Json, small? v = true → Small v
  | .null, _ => trivial
  | .bool _, _ => trivial
  | .str _, _ => trivial
  | .real _, h => by cases h
  | .num n, h => by simpa [small?, Small] using h
  | .arr vs, h => smallAll_of vs h
  | .obj ms, h => smallMembers_of ms h
theorem smallAll_of : ∀ vs : List Json, smallAll? vs = true → SmallAll vs
  | [], _ => trivial
  | v :: vs, h => by
    rw [smallAll?, Bool.and_eq_true] at h
    exact ⟨small_of v h.1, smallAll_of vs h.2⟩
theorem smallMembers_of : ∀ ms : List (Str × Json), smallMembers? ms = true → SmallMembers ms
  | [], _ => trivial
  | m :: ms, h => by
    rw [smallMembers?, Bool.and_eq_true] at h
    exact ⟨small_of m.2 h.1, smallMembers_of ms h.2⟩
end

/-- There are no numbers in results of other methods. -/
theorem small_returns {e : Env} {m : Rpc.Method} {a : Arg} {v : Json} (h : Backend.Returns e m a v none)
    (hm : m ≠ .urlMentions) : Small v := by
  cases h with
  | @hello fs r _ =>
    refine ⟨trivial, trivial, ?_, ⟨trivial, trivial⟩, trivial⟩
    simp only [Backend.mem, Backend.strings]
    split
    · trivial
    · exact small_strings _
  | capture _ => exact ⟨trivial, trivial, trivial⟩
  | mentions h1 h2 h3 h4 => exact absurd rfl hm
  | visit _ => trivial
  | linkSet _ _ => exact ⟨small_strings _, trivial⟩

/-! ### Output -/

/-- C73: if there is a result then the standard output is a JSON text that says this result, which is
the answer of the backend to the query on the command line. -/
theorem c73_output (short : Bool) {float : Json → Option Json} (hf : Floats float) {e : Env} {w : World}
    (hw : Connected e w.call) {args : List Str} {cmd : Str}
    {b q : List Str} {c : Rpc.Spec.Call} {arg : Arg} {v : Json} (hl : Line args cmd b q)
    (hq : Query q c arg) (h : (run w args).printed = some v) (hs : Small v) :
    ∃ g, Rearranged v g ∧ Distinct v ∧ Padded (TextFor 9999 g) (output short float (run w args)) ∧
      ∃ (r : Request Json Json) (p : Json), c.Name r.method ∧ r.params = some p ∧
        argument (Rpc.Server.reached c) p = some arg ∧ Answers (world e) r (.result v) := by
  obtain ⟨r, p, h1, h2, h3, h4, hd⟩ := reply_plain hw hl hq h
  have hdist : Distinct v := by
    obtain ⟨_, _, _, _, h5⟩ := Backend.answered h1 h4
    exact distinct_returns h5
  obtain ⟨g, h5, h6⟩ := generic_common hf v hdist hs
  refine ⟨g, h6, hdist, ?_, r, p, h1, h2, h3, h4⟩
  have : output short float (run w args) = JsonText.printed short g := by
    unfold output
    rw [h, Option.bind_some, h5]
  rw [this]
  exact JsonText.c71_text short (plain_rearranged 9999 v g h6 hd)

/-- C73: other methods have no numbers in their results. -/
theorem c73_small {e : Env} {w : World} (hw : Connected e w.call) {args : List Str} {cmd : Str}
    {b q : List Str} {c : Rpc.Spec.Call} {arg : Arg} {v : Json} (hl : Line args cmd b q)
    (hq : Query q c arg) (h : (run w args).printed = some v) (hc : c ≠ .urlMentions) : Small v := by
  obtain ⟨r, p, h1, h2, h3, h4⟩ := c63_reply hw hl hq h
  obtain ⟨_, _, _, _, h5⟩ := Backend.answered h1 h4
  exact small_returns h5 (by cases c <;> first | exact absurd rfl hc | decide)

/-- C73: who reads the text printed by `mentions` sees links that are written in source files of the
backend at these lines, their addresses are variants of those on the command line, there are at most 8
of them; if there are at most 8 such links in the files then each of them is seen. -/
theorem c73_mentions (short : Bool) {float : Json → Option Json} (hf : Floats float) {e : Env} {w : World}
    (hw : Connected e w.call) {args : List Str} {cmd : Str}
    {b us : List Str} {v : Json} (hl : Line args cmd b ("mentions".toList :: us))
    (h : (run w args).printed = some v) (hs : Small v) :
    ∃ g, Padded (TextFor 9999 g) (output short float (run w args)) ∧
      (∀ path url n, (path, url, n) ∈ seen g → Written e path url n ∧ Asked ⟨us, none⟩ url) ∧
      ∀ f : Str → Bool, (∀ u, f u = true ↔ Asked ⟨us, none⟩ u) →
        (demand e f < 2 ^ 31 → (inside "Link" g).length ≤ 8) ∧
        (demand e f ≤ 8 → ∀ path url n, Written e path url n → Asked ⟨us, none⟩ url →
          ∃ n', (path, url, n') ∈ seen g) := by
  obtain ⟨g, h1, h2, h3, -⟩ := c73_output short hf hw hl .mentions h hs
  obtain ⟨h4, h5⟩ := c63_mentions hw hl h
  have hp := seen_rearranged h1 h2
  refine ⟨g, h3, fun path url n hm => h4 path url n (hp.mem_iff.2 hm), fun f hf => ⟨fun hd => ?_, ?_⟩⟩
  · rw [← alike_length (inside_rearranged "Link" v g h1 h2)]
    exact h5 f hf hd
  · intro hd path url n hwr ha
    obtain ⟨n', hn⟩ := c63_mentions_all hw hl h hf hd hwr ha
    exact ⟨n', hp.mem_iff.1 hn⟩

/-- C73: if `visit` gets a result then `true` is printed and the last file on the command line is a source
file of the backend. -/
theorem c73_visit (short : Bool) (float : Json → Option Json) {e : Env} {w : World}
    (hw : Connected e w.call) {args : List Str} {cmd : Str}
    {b ws : List Str} {ss : List Setting} {v : Json} (hl : Line args cmd b ("visit".toList :: ws))
    (hs : AllWords ss ws) (h : (run w args).printed = some v) :
    output short float (run w args) = "true\n".toList.flatMap JsonText.putRune ∧
      ∃ src ∈ e.sources, src.name = file ss [] := by
  obtain ⟨rfl, h2⟩ := c63_visit hw hl hs h
  refine ⟨?_, h2⟩
  unfold output
  rw [h]
  show JsonText.printed short (.bool true) = _
  cases short <;> decide +kernel

theorem rearranged_strings : ∀ us ws : List Json, RearrangedAll us ws → (∀ u ∈ us, ∃ s, u = .str s) → ws = us
  | [], ws, h, _ => by rw [RearrangedAll] at h; exact h
  | u :: us, ws, h, hs => by
    rw [RearrangedAll] at h
    obtain ⟨w, ws', rfl, h1, h2⟩ := h
    obtain ⟨s, rfl⟩ := hs u (by simp)
    rw [Rearranged] at h1
    rw [h1, rearranged_strings us ws' h2 fun u hu => hs u (by simp [hu])]

theorem listed_str {e : Env} {ps : List Str} {us : List Json} (h : Backend.Spec.Listed e ps us) (u : Json)
    (hu : u ∈ us) : ∃ s, u = .str s := by
  obtain ⟨_, _, _, h⟩ := h
  obtain ⟨s, h, -⟩ := h u hu
  exact ⟨s, h⟩

/-- C73: who reads the text printed by `set` sees addresses from the files that begin with prefixes on the
command line. -/
theorem c73_set (short : Bool) {float : Json → Option Json} (hf : Floats float) {e : Env} {w : World}
    (hw : Connected e w.call) {args : List Str} {cmd : Str}
    {b ps : List Str} {v : Json} (hl : Line args cmd b ("set".toList :: ps))
    (h : (run w args).printed = some v) :
    e.disableLinkSet = false ∧ ps.length ≤ 16 ∧
      ∃ g us, Padded (TextFor 9999 g) (output short float (run w args)) ∧
        member "urls" g = some (.arr us) ∧ Backend.Spec.Listed e ps us := by
  obtain ⟨g, h1, h2, h3, -⟩ := c73_output short hf hw hl .set h (c73_small hw hl .set h (by decide))
  obtain ⟨h4, h5, us, h6, h7⟩ := c63_set hw hl h
  refine ⟨h4, h5, g, us, h3, ?_, h7⟩
  rcases member_rearranged h1 h2 "urls" with ⟨h8, -⟩ | ⟨a, b, h8, h9, h10⟩
  · rw [h6] at h8; cases h8
  · rw [h6] at h8
    injection h8 with h8
    subst h8
    rw [Rearranged] at h10
    obtain ⟨ws, rfl, h10⟩ := h10
    rw [h9, rearranged_strings us ws h10 fun u hu => ?_]
    exact listed_str h7 u hu

/-- C73: nothing is printed without a result. -/
theorem c73_silent (short : Bool) (float : Json → Option Json) {w : World} {args : List Str}
    (h : output short float (run w args) ≠ []) : ∃ v, (run w args).printed = some v := by
  unfold output at h
  cases hv : (run w args).printed with
  | none => rw [hv] at h; exact absurd rfl h
  | some v => exact ⟨v, rfl⟩

/-- C73: the argument of `hello` may be any JSON text; what it says is sent, however the text is written. -/
theorem c73_hello {float : Json → Option Json} (hf : Floats float) {text : Str} {d : Json}
    (ht : Padded (TextFor 10000 d) (JsonText.utf8 text)) (hd : Distinct d) (hs : Small d) :
    ∃ g, Rearranged d g ∧ subcommand (parseArgument float) ["hello".toList, text] =
      .ok ("linkremark.hello".toList, g) := by
  obtain ⟨g, h1, h2⟩ := generic_common hf d hd hs
  refine ⟨g, h2, c63_helloText ?_⟩
  unfold parseArgument
  rw [JsonText.c68_decode ht]
  exact h1

/-- C73: without an argument the text in the program is sent, it says the query of C63. -/
theorem c73_hello_default {float : Json → Option Json} (hf : Floats float) :
    ∃ g, Rearranged helloDefault g ∧ parseArgument float helloText = some g := by
  have hp : JsonText.Spec.Plain 10000 helloDefault := JsonText.plain_of _ _ (by decide +kernel)
  have hu : JsonText.unmarshal (JsonText.utf8 helloText) = some helloDefault := by
    have h : (JsonText.unmarshal (JsonText.utf8 helloText)).map
        (fun v => (JsonText.plain? 10 v, JsonText.enc true v)) =
        some (true, JsonText.enc true helloDefault) := by decide +kernel
    obtain ⟨v, h1, h2⟩ := Option.map_eq_some_iff.1 h
    simp only [Prod.mk.injEq] at h2
    rw [h1, JsonText.c68_injective true (JsonText.plain_mono _ _ 10000 (by omega) (JsonText.plain_of _ _ h2.1)) hp h2.2]
  have hd : Distinct helloDefault := by
    simp only [helloDefault, Backend.mem, Distinct, DistinctAll, DistinctMembers, List.map_cons, List.map_nil,
      List.nil_append, List.append_nil, List.cons_append, and_true]
    decide
  obtain ⟨g, h1, h2⟩ := generic_common hf helloDefault hd (small_of _ (by decide +kernel))
  refine ⟨g, h2, ?_⟩
  unfold parseArgument
  rw [hu]
  exact h1

/-! ### Cases -/

/-- Numbers are left as they are. -/
private theorem floats_some : Floats some := fun _ _ _ => rfl

private def kTwo : List (Str × Str × Int) := [(k "a.txt", k "http://a", 1), (k "b.txt", k "http://a", 1)]

/-- Hypotheses of `c73_mentions` are met: both files are printed. -/
example : ∃ w v, Connected Backend.exTwo w.call ∧ (run w exLine).printed = some v ∧ Small v ∧ seen v = kTwo ∧
    ∃ g, JsonText.unmarshal (output true some (run w exLine)) = some g ∧ (seen g).Perm kTwo := by
  have hy : ∃ y v, Backend.exTwoReply 8 = .ok y ∧ Json.renderR y = .ok v ∧ seen v = kTwo ∧
      JsonText.Spec.Plain 9999 v ∧ v ≠ .null ∧
      (JsonText.replyText true ⟨some (JsonText.encNat 0), .result v⟩).length ≤ 2000 ∧ small? v = true := by
    exact ⟨_, _, rfl, rfl, by decide +kernel, JsonText.plain_of _ _ (by decide +kernel), nofun, by decide +kernel,
      by decide +kernel⟩
  obtain ⟨y, v, hy, hv, h3, h4, h5, h6, hsm⟩ := hy
  have hret := Backend.exTwo_returns none hy hv
  obtain ⟨h7, h8⟩ := only_run (v := v) exLine_line rfl
  have key : ∀ w : World, Connected Backend.exTwo w.call → (run w exLine).printed = some v →
      ∃ g, JsonText.unmarshal (output true some (run w exLine)) = some g ∧ (seen g).Perm kTwo := by
    intro w hw h7
    obtain ⟨g, h9, h10, ⟨a, x, b, h11, ⟨t, h12, h13, h14⟩, h15, h16⟩, -⟩ :=
      c73_output true floats_some hw exLine_line .mentions h7 (small_of _ hsm)
    refine ⟨g, JsonText.c68_decode ?_, ?_⟩
    · exact ⟨a, x, b, h11, ⟨t, JsonText.ok_mono t _ _ (by omega) h12, h13, h14⟩, h15, h16⟩
    · rw [← h3]; exact (seen_rearranged h9 h10).symm
  have hw : ∃ w : World, Connected Backend.exTwo w.call ∧ (run w exLine).printed = some v :=
    ⟨_, only_connected (meth := .urlMentions) rfl rfl hret
      (JsonText.plain_of _ _ (by decide +kernel)) h4 h5 (by decide +kernel) h6, h7⟩
  obtain ⟨w, hw, h7⟩ := hw
  exact ⟨w, v, hw, h7, small_of _ hsm, h3, key w hw h7⟩

/-- The order of members changes, values do not. -/
example : generic some (.obj [(k "type", .str (k "Link")), (k "lineNo", .num 3), (k "children", .arr [.null])]) =
    some (.obj [(k "children", .arr [.null]), (k "lineNo", .num 3), (k "type", .str (k "Link"))]) := rfl

/-- Hypotheses of `c73_hello` are met by a text with white space and escapes. -/
example : (parseArgument some (k " { \"version\" : \"0\\u002e2\", \"formats\": [{\"format\": \"object\"}] }")).map (JsonText.enc true) =
    some (JsonText.utf8 (k "{\"formats\":[{\"format\":\"object\"}],\"version\":\"0.2\"}")) := by
  decide +kernel

/-- C73 is about the last of members with one name. -/
example : (parseArgument some (k "{\"a\": 1, \"a\": [2]}")).map (JsonText.enc true) =
    some (JsonText.utf8 (k "{\"a\":[2]}")) := by
  decide +kernel

end Burl.Tool.Client
