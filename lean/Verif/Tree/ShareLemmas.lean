import Mathlib.Tactic.Linarith
import Verif.Tree.FilterLemmas
/-! Arithmetic of shares and the choice of children. -/
namespace Burl.Tree
open Burl.Tree.Spec

theorem wrap64_id {x : Int} (h0 : 0 ≤ x) (h1 : x < 2 ^ 63) : wrap64 x = x := by
  unfold wrap64
  rw [Int.emod_eq_of_lt (by omega) (by omega)]
  omega

/-- One item of the loop handing out shares. -/
theorem share_step {c S T m : Int} (hc : 0 < c) (hm : 1 ≤ m) (hS : c * m ≤ S) (hT : m ≤ T)
    (hlt : S * T < 2 ^ 63) (it : Int)
    (hit : it = if Int.tdiv (wrap64 (c * T)) S = 0 then 1 else Int.tdiv (wrap64 (c * T)) S) :
    1 ≤ it ∧ it ≤ T - (m - 1) ∧ (S = c → it = T) ∧ (S ≤ T → c ≤ it ∧ S - c ≤ T - it) := by
  have hSpos : 0 < S := by nlinarith
  have hcS : c ≤ S := by nlinarith
  have h0 : 0 ≤ c * T := by nlinarith
  have h1 : c * T ≤ S * T := by nlinarith
  rw [wrap64_id h0 (by omega), Int.tdiv_eq_ediv_of_nonneg h0] at hit
  have d1 : S * (c * T / S) ≤ c * T := Int.mul_ediv_self_le (by omega)
  have d2 : c * T < S * (c * T / S + 1) := by
    have := Int.lt_mul_ediv_self_add (x := c * T) hSpos
    linarith
  have d0 : 0 ≤ c * T / S := Int.ediv_nonneg h0 (by omega)
  generalize c * T / S = q at *
  have hqm : q * m ≤ T := by
    have : c * (q * m) ≤ c * T := by nlinarith
    exact le_of_mul_le_mul_left this hc
  split at hit
  · rename_i hq
    subst hq
    subst hit
    refine ⟨le_refl _, by omega, ?_, ?_⟩
    · intro e
      subst e
      have : S * T < S * 1 := by simpa using d2
      have := lt_of_mul_lt_mul_left this (by omega)
      omega
    · intro hle
      have : c * T < S * 1 := by simpa using d2
      have : T < S := by nlinarith
      omega
  · rename_i hq
    subst hit
    have hq1 : 1 ≤ it := by omega
    refine ⟨hq1, by nlinarith, ?_, ?_⟩
    · intro e
      subst e
      have a1 := le_of_mul_le_mul_left d1 hSpos
      have a2 := lt_of_mul_lt_mul_left d2 (by omega)
      omega
    · intro hle
      constructor
      · have : S * c < S * (it + 1) := by nlinarith
        have := lt_of_mul_lt_mul_left this (by omega)
        omega
      · have : S * (S - c) ≤ S * (T - it) := by nlinarith
        exact le_of_mul_le_mul_left this hSpos

/-- The share of an item is 1 or in proportion to its part, so a share in the same or smaller
proportion is not greater. -/
theorem share_step_mono {c S T : Int} (hc : 0 < c) (hcS : c ≤ S) (hT : 0 < T)
    (hlt : S * T < 2 ^ 63) (it : Int)
    (hit : it = if Int.tdiv (wrap64 (c * T)) S = 0 then 1 else Int.tdiv (wrap64 (c * T)) S) :
    (it = 1 ∨ it * S ≤ c * T) ∧ ∀ b, b * S ≤ c * T → b ≤ it := by
  have hSpos : 0 < S := by omega
  have h0 : 0 ≤ c * T := by nlinarith
  have h1 : c * T ≤ S * T := by nlinarith
  rw [wrap64_id h0 (by omega), Int.tdiv_eq_ediv_of_nonneg h0] at hit
  have d1 : S * (c * T / S) ≤ c * T := Int.mul_ediv_self_le (by omega)
  have hb : ∀ b, b * S ≤ c * T → b ≤ c * T / S := fun b hb =>
    Int.le_ediv_of_mul_le hSpos hb
  generalize c * T / S = q at *
  split at hit
  · rename_i hq
    exact ⟨.inl hit, fun b h => by have := hb b h; omega⟩
  · subst hit
    exact ⟨.inr (by linarith), hb⟩

/-- When there is not enough for all, an item gets at most what it has, and there is not enough
for the rest. -/
theorem share_step_cap {c S T : Int} (hc : 0 < c) (hcS : c ≤ S) (hT : 0 < T)
    (hlt : S * T < 2 ^ 63) (it : Int)
    (hit : it = if Int.tdiv (wrap64 (c * T)) S = 0 then 1 else Int.tdiv (wrap64 (c * T)) S) :
    T ≤ S → it ≤ c ∧ T - it ≤ S - c := by
  intro hle
  have hSpos : 0 < S := by omega
  have h0 : 0 ≤ c * T := by nlinarith
  have h1 : c * T ≤ S * T := by nlinarith
  rw [wrap64_id h0 (by omega), Int.tdiv_eq_ediv_of_nonneg h0] at hit
  have d1 : S * (c * T / S) ≤ c * T := Int.mul_ediv_self_le (by omega)
  have d2 : c * T < S * (c * T / S + 1) := by
    have := Int.lt_mul_ediv_self_add (x := c * T) hSpos
    linarith
  have d0 : 0 ≤ c * T / S := Int.ediv_nonneg h0 (by omega)
  generalize c * T / S = q at *
  have hqc : q ≤ c := by
    have : S * q ≤ S * c := by nlinarith
    exact le_of_mul_le_mul_left this hSpos
  have hrest : T - q ≤ S - c := by
    have h2 : S * (T - q) < S * (S - c + 1) := by nlinarith
    have := lt_of_mul_lt_mul_left h2 (by omega)
    omega
  split at hit <;> subst hit
  · omega
  · exact ⟨hqc, hrest⟩

theorem sum_ge_of_le {c : Int} (l : List (Nat × Int)) (h : ∀ x ∈ l, c ≤ x.2) :
    c * (l.length : Int) ≤ (l.map (·.2)).sum := by
  induction l with
  | nil => simp
  | cons x xs ih =>
    have h1 := h x (by simp)
    have h2 := ih (fun y hy => h y (by simp [hy]))
    simp only [List.map_cons, List.sum_cons, List.length_cons, Nat.cast_add, Nat.cast_one]
    nlinarith

theorem sum_nonneg' (l : List (Nat × Int)) (h : ∀ x ∈ l, 0 < x.2) : 0 ≤ (l.map (·.2)).sum := by
  have := sum_ge_of_le (c := 0) l (fun x hx => Int.le_of_lt (h x hx))
  omega

/-- What the loop hands out: `l` is ascending with positive counts, and there is at least one
link to hand out for every item. -/
theorem handOut_spec (l : List (Nat × Int)) : ∀ (S T : Int), S = (l.map (·.2)).sum →
    (∀ x ∈ l, 0 < x.2) → l.Pairwise (fun a b => a.2 ≤ b.2) → (l.length : Int) ≤ T →
    S * T < 2 ^ 63 →
    (∀ x ∈ handOut l S T, 1 ≤ x.2 ∧ x.2 ≤ T) ∧
    (l ≠ [] → ((handOut l S T).map (·.2)).sum = T) ∧
    (S ≤ T → ∀ i c s, (i, c) ∈ l → (i, s) ∈ handOut l S T → (l.map (·.1)).Nodup → c ≤ s) ∧
    (handOut l S T).map (·.1) = l.map (·.1) := by
  induction l with
  | nil => intro S T _ _ _ _ _; simp [handOut]
  | cons e rest ih =>
    obtain ⟨k, c⟩ := e
    intro S T hS hpos hord hlen hlt
    have hc : 0 < c := hpos (k, c) (by simp)
    have hrpos : ∀ x ∈ rest, 0 < x.2 := fun x hx => hpos x (by simp [hx])
    rw [List.pairwise_cons] at hord
    have hge := sum_ge_of_le (c := c) rest (fun x hx => hord.1 x hx)
    simp only [List.map_cons, List.sum_cons] at hS
    have hlen' : (rest.length : Int) + 1 ≤ T := by simpa using hlen
    obtain ⟨a1, a2, a3, a4⟩ := share_step (c := c) (S := S) (T := T) (m := rest.length + 1) hc
      (by omega) (by rw [hS]; nlinarith) hlen' hlt _ rfl
    simp only [handOut]
    generalize (if Int.tdiv (wrap64 (c * T)) S = 0 then 1 else Int.tdiv (wrap64 (c * T)) S) = it
      at a1 a2 a3 a4
    have hnn := sum_nonneg' rest hrpos
    have hS' : S - c = (rest.map (·.2)).sum := by omega
    have hprod : (S - c) * (T - it) < 2 ^ 63 := by
      have : (S - c) * (T - it) ≤ S * T := by
        have h1 : (S - c) * (T - it) ≤ S * (T - it) := by nlinarith
        have h2 : S * (T - it) ≤ S * T := by nlinarith
        omega
      omega
    obtain ⟨b1, b2, b3, b4⟩ := ih (S - c) (T - it) hS' hrpos hord.2 (by omega) hprod
    refine ⟨?_, ?_, ?_, ?_⟩
    · intro x hx
      rcases List.mem_cons.mp hx with rfl | hx
      · exact ⟨a1, by simp only; omega⟩
      · have := b1 x hx; omega
    · intro _
      by_cases hr : rest = []
      · subst hr
        simp only [handOut, List.map_cons, List.map_nil, List.sum_cons, List.sum_nil]
        have := a3 (by simp at hS; omega)
        omega
      · simp only [List.map_cons, List.sum_cons, b2 hr]
        omega
    · intro hle i c' s hm hms hnd
      simp only [List.map_cons, List.nodup_cons] at hnd
      have hkeys : ∀ s', (k, s') ∉ handOut rest (S - c) (T - it) := by
        intro s' hm'
        have : k ∈ (handOut rest (S - c) (T - it)).map (·.1) := List.mem_map_of_mem hm'
        rw [b4] at this
        exact hnd.1 this
      rcases List.mem_cons.mp hm with e | hm
      · injection e with e1 e2
        subst e1 e2
        rcases List.mem_cons.mp hms with e | hms
        · injection e with _ e2
          subst e2
          exact (a4 hle).1
        · exact absurd hms (hkeys s)
      · rcases List.mem_cons.mp hms with e | hms
        · injection e with e1 e2
          have := List.mem_map_of_mem (f := (·.1)) hm
          rw [e1] at this
          exact absurd this hnd.1
        · exact b3 (a4 hle).2 i c' s hm hms hnd.2
    · simp [b4]

/-- Shares of the rest of the loop are not less than a share given before. -/
theorem handOut_ge (l : List (Nat × Int)) : ∀ (S T b : Int), S = (l.map (·.2)).sum →
    (∀ x ∈ l, 0 < x.2) → l.Pairwise (fun a b => a.2 ≤ b.2) → (l.length : Int) ≤ T →
    S * T < 2 ^ 63 → (b ≤ 1 ∨ ∀ x ∈ l, b * S ≤ x.2 * T) →
    ∀ x ∈ handOut l S T, b ≤ x.2 := by
  induction l with
  | nil => intro S T b _ _ _ _ _ _ x hx; simp [handOut] at hx
  | cons e rest ih =>
    obtain ⟨k, c⟩ := e
    intro S T b hS hpos hord hlen hlt hb
    have hc : 0 < c := hpos (k, c) (by simp)
    have hrpos : ∀ x ∈ rest, 0 < x.2 := fun x hx => hpos x (by simp [hx])
    rw [List.pairwise_cons] at hord
    have hge := sum_ge_of_le (c := c) rest (fun x hx => hord.1 x hx)
    simp only [List.map_cons, List.sum_cons] at hS
    have hlen' : (rest.length : Int) + 1 ≤ T := by simpa using hlen
    obtain ⟨a1, a2, a3, a4⟩ := share_step (c := c) (S := S) (T := T) (m := rest.length + 1) hc
      (by omega) (by rw [hS]; nlinarith) hlen' hlt _ rfl
    have hm := share_step_mono (c := c) (S := S) (T := T) hc
      (by rw [hS]; nlinarith) (by omega) hlt _ rfl
    simp only [handOut]
    generalize (if Int.tdiv (wrap64 (c * T)) S = 0 then 1 else Int.tdiv (wrap64 (c * T)) S) = it
      at a1 a2 a3 a4 hm
    have hnn := sum_nonneg' rest hrpos
    have hS' : S - c = (rest.map (·.2)).sum := by omega
    have hprod : (S - c) * (T - it) < 2 ^ 63 := by
      have : (S - c) * (T - it) ≤ S * T := by
        have h1 : (S - c) * (T - it) ≤ S * (T - it) := by nlinarith
        have h2 : S * (T - it) ≤ S * T := by nlinarith
        omega
      omega
    have hbit : b ≤ it := by
      rcases hb with hb | hb
      · omega
      · exact hm.2 b (hb (k, c) (by simp))
    intro x hx
    rcases List.mem_cons.mp hx with rfl | hx
    · exact hbit
    · have := ih (S - c) (T - it) it hS' hrpos hord.2 (by omega) hprod ?_ x hx
      · omega
      · rcases hm.1 with h1 | h1
        · exact .inl (by omega)
        · right
          intro y hy
          have := hord.1 y hy
          have h2 : it * (S - c) ≤ c * (T - it) := by nlinarith
          have h3 : c * (T - it) ≤ y.2 * (T - it) := by
            have : 0 ≤ T - it := by omega
            simp only at *
            nlinarith
          omega

/-- More of what the loop hands out: more matches get no smaller share; no item gets more than it
has when there is not enough for all. -/
theorem handOut_fair (l : List (Nat × Int)) : ∀ (S T : Int), S = (l.map (·.2)).sum →
    (∀ x ∈ l, 0 < x.2) → l.Pairwise (fun a b => a.2 ≤ b.2) → (l.length : Int) ≤ T →
    S * T < 2 ^ 63 → (l.map (·.1)).Nodup →
    (∀ i c s i' c' s', (i, c) ∈ l → (i, s) ∈ handOut l S T → (i', c') ∈ l →
      (i', s') ∈ handOut l S T → c < c' → s ≤ s') ∧
    (T ≤ S → ∀ i c s, (i, c) ∈ l → (i, s) ∈ handOut l S T → s ≤ c) := by
  induction l with
  | nil => intro S T _ _ _ _ _ _; simp
  | cons e rest ih =>
    obtain ⟨k, c⟩ := e
    intro S T hS hpos hord hlen hlt hnd
    have hall := handOut_ge
    have hc : 0 < c := hpos (k, c) (by simp)
    have hrpos : ∀ x ∈ rest, 0 < x.2 := fun x hx => hpos x (by simp [hx])
    rw [List.pairwise_cons] at hord
    have hge := sum_ge_of_le (c := c) rest (fun x hx => hord.1 x hx)
    simp only [List.map_cons, List.sum_cons] at hS
    have hlen' : (rest.length : Int) + 1 ≤ T := by simpa using hlen
    obtain ⟨a1, a2, a3, a4⟩ := share_step (c := c) (S := S) (T := T) (m := rest.length + 1) hc
      (by omega) (by rw [hS]; nlinarith) hlen' hlt _ rfl
    have hm := share_step_mono (c := c) (S := S) (T := T) hc
      (by rw [hS]; nlinarith) (by omega) hlt _ rfl
    have hcap := share_step_cap (c := c) (S := S) (T := T) hc
      (by rw [hS]; nlinarith) (by omega) hlt _ rfl
    simp only [handOut]
    generalize (if Int.tdiv (wrap64 (c * T)) S = 0 then 1 else Int.tdiv (wrap64 (c * T)) S) = it
      at a1 a2 a3 a4 hm hcap
    have hnn := sum_nonneg' rest hrpos
    have hS' : S - c = (rest.map (·.2)).sum := by omega
    have hprod : (S - c) * (T - it) < 2 ^ 63 := by
      have : (S - c) * (T - it) ≤ S * T := by
        have h1 : (S - c) * (T - it) ≤ S * (T - it) := by nlinarith
        have h2 : S * (T - it) ≤ S * T := by nlinarith
        omega
      omega
    simp only [List.map_cons, List.nodup_cons] at hnd
    obtain ⟨b1, b2⟩ := ih (S - c) (T - it) hS' hrpos hord.2 (by omega) hprod hnd.2
    have b4 := (handOut_spec rest (S - c) (T - it) hS' hrpos hord.2 (by omega) hprod).2.2.2
    have hkeys : ∀ s', (k, s') ∉ handOut rest (S - c) (T - it) := by
      intro s' hm'
      have : k ∈ (handOut rest (S - c) (T - it)).map (·.1) := List.mem_map_of_mem hm'
      rw [b4] at this
      exact hnd.1 this
    have hkeys' : ∀ s', (k, s') ∉ rest := by
      intro s' hm'
      exact hnd.1 (List.mem_map_of_mem (f := (·.1)) hm')
    have hrest : ∀ x ∈ handOut rest (S - c) (T - it), it ≤ x.2 := by
      refine handOut_ge rest (S - c) (T - it) it hS' hrpos hord.2 (by omega) hprod ?_
      rcases hm.1 with h1 | h1
      · exact .inl (by omega)
      · right
        intro y hy
        have := hord.1 y hy
        have h2 : it * (S - c) ≤ c * (T - it) := by nlinarith
        have h3 : c * (T - it) ≤ y.2 * (T - it) := by
          have : 0 ≤ T - it := by omega
          simp only at *
          nlinarith
        omega
    -- which element is meant by a key
    have hsplit : ∀ i c' s, (i, c') ∈ (k, c) :: rest →
        (i, s) ∈ (k, it) :: handOut rest (S - c) (T - it) →
        (i = k ∧ c' = c ∧ s = it) ∨ ((i, c') ∈ rest ∧ (i, s) ∈ handOut rest (S - c) (T - it)) := by
      intro i c' s h1 h2
      rcases List.mem_cons.mp h1 with e | h1
      · injection e with e1 e2
        subst e1 e2
        rcases List.mem_cons.mp h2 with e | h2
        · injection e with _ e2
          exact .inl ⟨rfl, rfl, e2⟩
        · exact absurd h2 (hkeys s)
      · rcases List.mem_cons.mp h2 with e | h2
        · injection e with e1 e2
          rw [e1] at h1
          exact absurd h1 (hkeys' c')
        · exact .inr ⟨h1, h2⟩
    refine ⟨?_, ?_⟩
    · intro i c1 s i' c' s' h1 h2 h3 h4 hlt'
      rcases hsplit _ _ _ h1 h2 with ⟨_, g1, g2⟩ | ⟨g1, g2⟩ <;>
        rcases hsplit _ _ _ h3 h4 with ⟨_, g3, g4⟩ | ⟨g3, g4⟩
      · omega
      · rw [g2]; exact hrest _ g4
      · have := hord.1 _ g1
        simp only at this
        omega
      · exact b1 _ _ _ _ _ _ g1 g2 g3 g4 hlt'
    · intro hle i c1 s h1 h2
      rcases hsplit _ _ _ h1 h2 with ⟨rfl, rfl, rfl⟩ | ⟨h1, h2⟩
      · exact (hcap hle).1
      · exact b2 (hcap hle).2 i c1 s h1 h2

/-! ### Sorting -/

theorem insertDesc_perm (x : Nat × Int) (l : List (Nat × Int)) : (insertDesc x l).Perm (x :: l) := by
  induction l with
  | nil => exact List.Perm.refl _
  | cons y ys ih =>
    unfold insertDesc
    split
    · exact List.Perm.refl _
    · exact (ih.cons y).trans (List.Perm.swap _ _ _)

theorem sortStable_perm (l : List (Nat × Int)) : (sortStable l).Perm l := by
  induction l with
  | nil => exact List.Perm.refl _
  | cons x xs ih => exact (insertDesc_perm x _).trans (ih.cons x)

/-- `x` comes before `y`: more matches, or as many and earlier. -/
def Before (x y : Nat × Int) : Prop := y.2 < x.2 ∨ (x.2 = y.2 ∧ x.1 < y.1)

theorem insertDesc_sorted (x : Nat × Int) (l : List (Nat × Int)) (hx : ∀ y ∈ l, x.1 < y.1)
    (hl : l.Pairwise Before) : (insertDesc x l).Pairwise Before := by
  induction l with
  | nil => simp [insertDesc]
  | cons y ys ih =>
    rw [List.pairwise_cons] at hl
    unfold insertDesc
    split
    · rename_i hge
      rw [List.pairwise_cons]
      refine ⟨?_, List.pairwise_cons.mpr hl⟩
      intro z hz
      have hzi := hx z hz
      rcases List.mem_cons.mp hz with rfl | hz
      · unfold Before; omega
      · have := hl.1 z hz
        unfold Before at *; omega
    · rename_i hlt
      rw [List.pairwise_cons]
      refine ⟨?_, ih (fun z hz => hx z (by simp [hz])) hl.2⟩
      intro z hz
      rcases List.mem_cons.mp ((insertDesc_perm x ys).subset hz) with rfl | hz
      · unfold Before; omega
      · exact hl.1 z hz

theorem sortStable_sorted (l : List (Nat × Int)) (h : l.Pairwise fun a b => a.1 < b.1) :
    (sortStable l).Pairwise Before := by
  induction l with
  | nil => simp [sortStable]
  | cons x xs ih =>
    rw [List.pairwise_cons] at h
    exact insertDesc_sorted x _ (fun y hy => h.1 y ((sortStable_perm xs).subset hy)) (ih h.2)

/-! ### Lookup in the list of shares -/

theorem lookup_some_of_mem {sh : List (Nat × Int)} (hnd : (sh.map (·.1)).Nodup) {k : Nat} {s : Int}
    (h : (k, s) ∈ sh) : sh.lookup k = some s := by
  induction sh with
  | nil => simp at h
  | cons e es ih =>
    obtain ⟨k', s'⟩ := e
    simp only [List.map_cons, List.nodup_cons] at hnd
    rw [List.lookup_cons]
    rcases List.mem_cons.mp h with e | h
    · injection e with e1 e2
      subst e1 e2
      simp
    · have hne : (k == k') = false := by
        have : k ≠ k' := fun e => hnd.1 (e ▸ List.mem_map_of_mem (f := (·.1)) h)
        simpa using this
      rw [hne]
      exact ih hnd.2 h

theorem mem_of_lookup {sh : List (Nat × Int)} {k : Nat} {s : Int} (h : sh.lookup k = some s) :
    (k, s) ∈ sh := by
  induction sh with
  | nil => simp at h
  | cons e es ih =>
    obtain ⟨k', s'⟩ := e
    rw [List.lookup_cons] at h
    by_cases hk : k = k'
    · subst hk
      simp at h
      simp [h]
    · have hne : (k == k') = false := by simpa using hk
      rw [hne] at h
      exact List.mem_cons_of_mem _ (ih h)

theorem filterMap_congr' {α β : Type} {f g : α → Option β} {l : List α}
    (h : ∀ x ∈ l, f x = g x) : l.filterMap f = l.filterMap g := by
  induction l with
  | nil => rfl
  | cons x xs ih =>
    rw [List.filterMap_cons, List.filterMap_cons, h x (by simp), ih fun y hy => h y (by simp [hy])]

theorem lookups_perm (sh : List (Nat × Int)) : ∀ (R : List Nat), R.Nodup → (sh.map (·.1)).Nodup →
    (∀ k ∈ sh.map (·.1), k ∈ R) → (R.filterMap fun i => sh.lookup i).Perm (sh.map (·.2)) := by
  induction sh with
  | nil => intro R _ _ _; simp
  | cons e es ih =>
    obtain ⟨k, s⟩ := e
    intro R hR hnd hsub
    simp only [List.map_cons, List.nodup_cons] at hnd
    have hkR : k ∈ R := hsub k (by simp)
    have hp : R.Perm (k :: R.erase k) := List.perm_cons_erase hkR
    refine (hp.filterMap _).trans ?_
    have h1 : ((k, s) :: es).lookup k = some s := by simp
    rw [List.filterMap_cons_some (f := fun i => ((k, s) :: es).lookup i) h1, List.map_cons]
    refine List.Perm.cons _ ?_
    have hRe : (R.erase k).Nodup := hR.sublist List.erase_sublist
    have hcongr : (R.erase k).filterMap (fun i => ((k, s) :: es).lookup i) =
        (R.erase k).filterMap (fun i => es.lookup i) := by
      apply filterMap_congr'
      intro i hi
      have hne : i ≠ k := fun e => by
        subst e
        have := (List.nodup_cons.mp (hp.nodup_iff.mp hR)).1
        exact this hi
      rw [List.lookup_cons]
      have : (i == k) = false := by simpa using hne
      rw [this]
    rw [hcongr]
    refine ih _ hRe hnd.2 ?_
    intro k' hk'
    have hne : k' ≠ k := fun e => hnd.1 (e ▸ hk')
    exact (List.mem_erase_of_ne hne).mpr (hsub k' (by simp [hk']))

theorem perm_sum {a b : List Int} (h : a.Perm b) : a.sum = b.sum := by
  induction h with
  | nil => rfl
  | cons x _ ih => simp [ih]
  | swap x y l => simp only [List.sum_cons]; omega
  | trans _ _ h1 h2 => omega

/-- Matches and shares of the children in their order. -/
def pairsC (sh : List (Nat × Int)) (counts : List Int) : List (Int × Option Int) :=
  ((List.range counts.length).zip counts).map fun x => (x.2, sh.lookup x.1)

theorem range_zip_sorted (counts : List Int) :
    ((List.range counts.length).zip counts).Pairwise fun a b => a.1 < b.1 := by
  have h : (((List.range counts.length).zip counts).map Prod.fst).Pairwise (· < ·) := by
    rw [List.map_fst_zip (by simp)]
    exact List.pairwise_lt_range
  exact List.pairwise_map.mp h

theorem sum_sublist_le (l : List (Nat × Int)) (h : ∀ x ∈ l, 0 < x.2) (n : Nat) :
    ((l.take n).map (·.2)).sum ≤ (l.map (·.2)).sum := by
  have e : (l.map (·.2)).sum = ((l.take n).map (·.2)).sum + ((l.drop n).map (·.2)).sum := by
    rw [← List.sum_append, ← List.map_append, List.take_append_drop]
  have := sum_nonneg' (l.drop n) (fun x hx => h x (List.mem_of_mem_drop hx))
  omega

theorem limitShares_spec (counts : List Int) (t : Int) (hpos : ∀ c ∈ counts, 0 < c) (ht : 0 ≤ t)
    (hlt : counts.sum * t < 2 ^ 63) :
    ∃ sh, limitShares counts t = .ok sh ∧ Choice t (pairsC sh counts) ∧
      (∀ i s, sh.lookup i = some s → 1 ≤ s ∧ s ≤ t) ∧
      (counts.sum ≤ t → ∀ i c, counts[i]? = some c → ∃ s, sh.lookup i = some s ∧ c ≤ s) := by
  obtain ⟨W0, hW0⟩ : ∃ W0, W0 = (List.range counts.length).zip counts := ⟨_, rfl⟩
  have hsort0 : W0.Pairwise fun a b => a.1 < b.1 := hW0 ▸ range_zip_sorted counts
  have hlen0 : W0.length = counts.length := by rw [hW0]; simp
  have hpos0 : ∀ x ∈ W0, 0 < x.2 := by
    intro x hx
    rw [hW0] at hx
    exact hpos _ (List.of_mem_zip hx).2
  have hsum0 : (W0.map (·.2)).sum = counts.sum := by
    rw [hW0]
    have : ((List.range counts.length).zip counts).map (·.2) = counts := by
      exact List.map_snd_zip (by simp)
    rw [this]
  have hkeys0 : W0.map (·.1) = List.range counts.length := by
    rw [hW0]; exact List.map_fst_zip (by simp)
  obtain ⟨W, hW⟩ : ∃ W, W = sortStable W0 := ⟨_, rfl⟩
  have hperm : W.Perm W0 := hW ▸ sortStable_perm W0
  have hsorted : W.Pairwise Before := hW ▸ sortStable_sorted W0 hsort0
  have hWpos : ∀ x ∈ W, 0 < x.2 := fun x hx => hpos0 x (hperm.subset hx)
  have hWlen : W.length = counts.length := by rw [hperm.length_eq, hlen0]
  have hWkeys : (W.map (·.1)).Nodup := by
    rw [(hperm.map _).nodup_iff, hkeys0]
    exact List.nodup_range
  obtain ⟨K, hK⟩ : ∃ K, K = W.take t.toNat := ⟨_, rfl⟩
  obtain ⟨D, hD⟩ : ∃ D, D = W.drop t.toNat := ⟨_, rfl⟩
  have hKD : W = K ++ D := by rw [hK, hD, List.take_append_drop]
  have hKpos : ∀ x ∈ K, 0 < x.2 := fun x hx => hWpos x (by rw [hKD]; simp [hx])
  have hKlen : (K.length : Int) = min t (counts.length : Int) := by
    rw [hK, List.length_take, hWlen]; omega
  have hKsum : (K.map (·.2)).sum ≤ counts.sum := by
    have := sum_sublist_le W hWpos t.toNat
    rw [← hK, perm_sum (hperm.map (·.2)), hsum0] at this
    exact this
  have hKnn := sum_nonneg' K hKpos
  obtain ⟨S, hS⟩ : ∃ S, S = (K.map (·.2)).sum := ⟨_, rfl⟩
  have hprod : S * t < 2 ^ 63 := by
    have : S * t ≤ counts.sum * t := by rw [hS]; nlinarith
    omega
  have hrev : S = (K.reverse.map (·.2)).sum := by
    rw [hS, List.map_reverse, List.sum_reverse]
  have hsortedK : K.Pairwise Before := by
    rw [hKD] at hsorted
    exact (List.pairwise_append.mp hsorted).1
  obtain ⟨b1, b2, b3, b4⟩ := handOut_spec K.reverse S t hrev
    (fun x hx => hKpos x (List.mem_reverse.mp hx))
    (by rw [List.pairwise_reverse]
        exact hsortedK.imp (fun h => by unfold Before at h; omega))
    (by rw [List.length_reverse]; omega) hprod
  obtain ⟨sh, hsh⟩ : ∃ sh, sh = handOut K.reverse S t := ⟨_, rfl⟩
  obtain ⟨b5, b6⟩ := handOut_fair K.reverse S t hrev
    (fun x hx => hKpos x (List.mem_reverse.mp hx))
    (by rw [List.pairwise_reverse]
        exact hsortedK.imp (fun h => by unfold Before at h; omega))
    (by rw [List.length_reverse]; omega) hprod
    (by rw [List.map_reverse, (List.reverse_perm _).nodup_iff]
        rw [hKD, List.map_append] at hWkeys
        exact (List.nodup_append.mp hWkeys).1)
  rw [← hsh] at b1 b2 b3 b4 b5 b6
  have heq : limitShares counts t = .ok sh := by
    unfold limitShares
    simp only [← hW0, ← hW]
    have htw : ∀ l : List (Nat × Int), (∀ x ∈ l, 0 < x.2) →
        l.takeWhile (fun x => decide (x.2 > 0)) = l := by
      intro l hl
      induction l with
      | nil => rfl
      | cons x xs ih =>
        rw [List.takeWhile_cons, if_pos (by simpa using hl x (by simp)),
          ih (fun y hy => hl y (by simp [hy]))]
    by_cases hc : t < (W.length : Int)
    · rw [if_pos hc, if_neg (by omega)]
      simp only [Res.bind_ok]
      rw [← hK, htw K hKpos, ← hS, ← hsh]
    · rw [if_neg hc]
      simp only [Res.bind_ok]
      have : K = W := by rw [hK]; exact List.take_of_length_le (by omega)
      rw [htw W hWpos, ← this, ← hS, ← hsh]
  have hshkeys : (sh.map (·.1)).Nodup := limitShares_nodup heq
  have hKkeys : ∀ k, k ∈ sh.map (·.1) ↔ k ∈ K.map (·.1) := by
    intro k
    rw [b4, List.map_reverse, List.mem_reverse]
  have hlk : ∀ x ∈ K, ∃ s, sh.lookup x.1 = some s := by
    intro x hx
    have : x.1 ∈ sh.map (·.1) := (hKkeys x.1).mpr (List.mem_map_of_mem hx)
    obtain ⟨y, hy, e⟩ := List.mem_map.mp this
    exact ⟨y.2, lookup_some_of_mem hshkeys (by rw [← e]; exact hy)⟩
  have hld : ∀ x ∈ D, sh.lookup x.1 = none := by
    intro x hx
    refine lookup_none ?_
    intro hm
    have hm := (hKkeys x.1).mp hm
    rw [hKD, List.map_append, List.nodup_append] at hWkeys
    exact hWkeys.2.2 _ hm _ (List.mem_map_of_mem hx) rfl
  have hpm : ((List.range counts.length).filterMap fun i => sh.lookup i).Perm (sh.map (·.2)) := by
    refine lookups_perm sh _ List.nodup_range hshkeys ?_
    intro k hk
    rw [← hkeys0, ← (hperm.map (·.1)).mem_iff, hKD, List.map_append]
    exact List.mem_append_left _ ((hKkeys k).mp hk)
  have hfm : (pairsC sh counts).filterMap (·.2) =
      (List.range counts.length).filterMap fun i => sh.lookup i := by
    unfold pairsC
    rw [← hW0, List.filterMap_map, ← hkeys0, List.filterMap_map]
    rfl
  have hshlen : sh.length = K.length := by
    have := congrArg List.length b4
    simpa using this
  -- a pair with a share is an item handed out
  have hpair : ∀ c s, (c, some s) ∈ pairsC sh counts →
      ∃ i, (i, c) ∈ K.reverse ∧ (i, s) ∈ sh := by
    intro c s hm
    unfold pairsC at hm
    rw [← hW0] at hm
    obtain ⟨x, hx, e⟩ := List.mem_map.mp hm
    injection e with e1 e2
    have h2 := mem_of_lookup e2
    have hx := hperm.mem_iff.mpr hx
    rw [hKD] at hx
    rcases List.mem_append.mp hx with hx | hx
    · exact ⟨x.1, List.mem_reverse.mpr (by rw [← e1]; exact hx), h2⟩
    · rw [hld x hx] at e2; simp at e2
  have hpsum : ((pairsC sh counts).map (·.1)).sum = counts.sum := by
    unfold pairsC
    rw [← hW0, List.map_map, ← hsum0]
    rfl
  refine ⟨sh, heq, ⟨?_, ?_, ?_, ?_, ?_, ?_⟩, ?_, ?_⟩
  · intro c s hm
    unfold pairsC at hm
    rw [← hW0] at hm
    obtain ⟨x, hx, e⟩ := List.mem_map.mp hm
    injection e with e1 e2
    have := b1 _ (mem_of_lookup e2)
    exact ⟨by simp only at this; omega, e1 ▸ hpos0 x hx⟩
  · unfold pairsC
    rw [← hW0, List.pairwise_map]
    refine List.Pairwise.imp_of_mem ?_ hsort0
    intro a b ha hb hab
    have ha := hperm.mem_iff.mpr ha
    have hb := hperm.mem_iff.mpr hb
    rw [hKD] at ha hb hsorted
    have hcross := (List.pairwise_append.mp hsorted).2.2
    rcases List.mem_append.mp ha with ha | ha <;> rcases List.mem_append.mp hb with hb | hb
    · obtain ⟨s, hs⟩ := hlk a ha
      obtain ⟨s', hs'⟩ := hlk b hb
      simp [hs, hs']
    · have := hcross a ha b hb
      obtain ⟨s, hs⟩ := hlk a ha
      simp only [hs, hld b hb]
      unfold Before at this
      refine ⟨by simp, fun _ _ => by omega⟩
    · have := hcross b hb a ha
      obtain ⟨s, hs⟩ := hlk b hb
      simp only [hs, hld a ha]
      unfold Before at this
      refine ⟨fun _ _ => by omega, by simp⟩
    · simp [hld a ha, hld b hb]
  · rw [hfm, hpm.length_eq, List.length_map, hshlen, hKlen]
    have : (pairsC sh counts).filter (fun x => decide (0 < x.1)) = pairsC sh counts := by
      rw [List.filter_eq_self]
      intro x hx
      unfold pairsC at hx
      rw [← hW0] at hx
      obtain ⟨y, hy, rfl⟩ := List.mem_map.mp hx
      simpa using hpos0 y hy
    rw [this]
    simp [pairsC]
  · intro hne
    rw [hfm] at hne ⊢
    rw [perm_sum hpm]
    refine b2 ?_
    intro e
    have : K.length = 0 := by
      have := congrArg List.length e
      simpa using this
    rw [this] at hshlen
    have := hpm.length_eq
    rw [List.length_map, hshlen] at this
    exact hne (List.length_eq_zero_iff.mp this)
  · intro c s c' s' h1 h2 hlt'
    obtain ⟨i, i1, i2⟩ := hpair c s h1
    obtain ⟨i', j1, j2⟩ := hpair c' s' h2
    exact b5 i c s i' c' s' i1 i2 j1 j2 hlt'
  · intro hle c s h1
    rw [hpsum] at hle
    obtain ⟨i, i1, i2⟩ := hpair c s h1
    refine b6 ?_ i c s i1 i2
    by_cases hcut : t ≤ (counts.length : Int)
    · have := sum_ge_of_le (c := 1) K (fun x hx => by have := hKpos x hx; omega)
      omega
    · have hKW : K = W := by rw [hK]; exact List.take_of_length_le (by omega)
      rw [hS, hKW, perm_sum (hperm.map (·.2)), hsum0]
      exact hle
  · intro i s hs
    exact b1 _ (mem_of_lookup hs)
  · intro hle i c hc
    have hlei : i < counts.length := (List.getElem?_eq_some_iff.mp hc).1
    have hmem : (i, c) ∈ W0 := by
      rw [hW0]
      apply List.mem_of_getElem? (i := i)
      rw [List.getElem?_zip_eq_some]
      exact ⟨by simp [hlei], hc⟩
    have hall : (counts.length : Int) ≤ t := by
      have := sum_ge_of_le (c := 1) W0 (fun x hx => by have := hpos0 x hx; omega)
      rw [hsum0, hlen0] at this
      omega
    have hKW : K = W := by rw [hK]; exact List.take_of_length_le (by omega)
    have hmK : (i, c) ∈ K := by rw [hKW]; exact hperm.mem_iff.mpr hmem
    obtain ⟨s, hs⟩ := hlk _ hmK
    refine ⟨s, hs, b3 (by omega) i c s (List.mem_reverse.mpr hmK) (mem_of_lookup hs) ?_⟩
    rw [List.map_reverse, (List.reverse_perm _).nodup_iff, hKW]
    exact hWkeys

end Burl.Tree
