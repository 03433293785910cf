import Verif.Fuzzy.Model
import Verif.Fuzzy.Spec
/-! The two-row loop computes the optimal semi-global edit distance. -/
namespace Burl.Fuzzy
open Burl.Fuzzy.Spec

/-! ### Edit scripts -/

theorem Spec.Edit.append {α : Type} {p s p' s' : List α} {n n' : Nat} (h : Edit p s n)
    (h' : Edit p' s' n') : Edit (p ++ p') (s ++ s') (n + n') := by
  induction h with
  | done => simpa using h'
  | keep a _ ih => exact .keep a ih
  | subst a b _ ih => rw [Nat.add_right_comm]; exact .subst a b ih
  | delete a _ ih => rw [Nat.add_right_comm]; exact .delete a ih
  | insert b _ ih => rw [Nat.add_right_comm]; exact .insert b ih
  | swap a b _ ih => rw [Nat.add_right_comm]; exact .swap a b ih

theorem Spec.Edit.reverse {α : Type} {p s : List α} {n : Nat} (h : Edit p s n) :
    Edit p.reverse s.reverse n := by
  induction h with
  | done => exact .done
  | keep a _ ih => simpa using ih.append (.keep a .done)
  | subst a b _ ih => simpa using ih.append (.subst a b .done)
  | delete a _ ih => simpa using ih.append (.delete a .done)
  | insert b _ ih => simpa using ih.append (.insert b .done)
  | swap a b _ ih => simpa using ih.append (.swap b a .done)

theorem Spec.Edit.deleteAll {α : Type} (p : List α) : Edit p [] p.length := by
  induction p with
  | nil => exact .done
  | cons a p ih => exact .delete a ih

theorem Spec.Edit.refl {α : Type} (p : List α) : Edit p p 0 := by
  induction p with
  | nil => exact .done
  | cons a p ih => exact .keep a ih

theorem Spec.Edit.zero {α : Type} {p s : List α} (h : Edit p s 0) : p = s := by
  generalize hn : 0 = n at h
  induction h with
  | done => rfl
  | keep a _ ih => rw [ih hn]
  | _ => simp at hn

theorem Spec.Edit.length_le {α : Type} {p s : List α} {n : Nat} (h : Edit p s n) :
    p.length ≤ s.length + n := by
  induction h <;> simp_all <;> omega

/-! ### The table -/

section
variable {α : Type} [DecidableEq α]

/-- Cost of comparing two symbols. -/
def neq (a b : α) : Nat := if a = b then 0 else 1

/-- Distance of `p` to the best prefix of `w` (both lists run towards the past). -/
def D (p w : List α) : Nat :=
  match p, w with
  | [], _ => 0
  | _ :: p, [] => p.length + 1
  | a :: p, b :: w =>
    min (min (D p w + neq a b) (D (a :: p) w + 1))
      (min (D p (b :: w) + 1)
        (match p, w with
         | a' :: p', b' :: w' => if a = b' ∧ a' = b then D p' w' + 1 else D p (b :: w) + 1
         | _, _ => D p (b :: w) + 1))
termination_by p.length + w.length
decreasing_by all_goals (simp_all [List.length_cons] <;> omega)

@[simp] theorem D_nil (w : List α) : D [] w = 0 := by rw [D]

theorem D_nil_right (p : List α) : D p [] = p.length := by
  cases p with
  | nil => simp
  | cons a p => rw [D]; simp

/-- The transposition term. -/
def tr (a : α) (p : List α) (b : α) (w : List α) : Option Nat :=
  match p, w with
  | a' :: p', b' :: w' => if a = b' ∧ a' = b then some (D p' w' + 1) else none
  | _, _ => none

theorem D_cons (a b : α) (p w : List α) :
    D (a :: p) (b :: w) = min (min (D p w + neq a b) (D (a :: p) w + 1))
      (min (D p (b :: w) + 1) ((tr a p b w).getD (D p (b :: w) + 1))) := by
  conv => lhs; rw [D.eq_def]
  simp only
  congr 2
  unfold tr
  cases p with
  | nil => rfl
  | cons a' p' =>
    cases w with
    | nil => rfl
    | cons b' w' =>
      simp only
      split <;> rfl

theorem D_le_del (a : α) (p w : List α) : D (a :: p) w ≤ D p w + 1 := by
  cases w with
  | nil => simp [D_nil_right]
  | cons b w => rw [D_cons]; omega

theorem D_le_ins (p : List α) (b : α) (w : List α) : D p (b :: w) ≤ D p w + 1 := by
  cases p with
  | nil => simp
  | cons a p => rw [D_cons]; omega

theorem D_le_length (p w : List α) : D p w ≤ p.length := by
  induction p with
  | nil => simp
  | cons a p ih => have := D_le_del a p w; simp; omega

theorem D_sound (p w : List α) : ∃ s, s <+: w ∧ Edit p s (D p w) := by
  match p, w with
  | [], w => exact ⟨[], List.nil_prefix, by simpa using Edit.done⟩
  | a :: p, [] => exact ⟨[], List.nil_prefix, by rw [D_nil_right]; exact Edit.deleteAll _⟩
  | a :: p, b :: w =>
    obtain ⟨s1, h1, e1⟩ := D_sound p w
    obtain ⟨s2, h2, e2⟩ := D_sound (a :: p) w
    obtain ⟨s3, h3, e3⟩ := D_sound p (b :: w)
    have hc := D_cons a b p w
    have hcase : D (a :: p) (b :: w) = D p w + neq a b ∨ D (a :: p) (b :: w) = D (a :: p) w + 1 ∨
        D (a :: p) (b :: w) = D p (b :: w) + 1 ∨
        (∃ a' p' b' w', p = a' :: p' ∧ w = b' :: w' ∧ a = b' ∧ a' = b ∧
          D (a :: p) (b :: w) = D p' w' + 1) := by
      cases ht : tr a p b w with
      | none => rw [ht] at hc; simp at hc; omega
      | some t =>
        rw [ht] at hc; simp at hc
        unfold tr at ht
        split at ht
        · rename_i a' p' b' w'
          split at ht
          · rename_i hab
            simp at ht
            by_cases h : D (a :: a' :: p') (b :: b' :: w') = D p' w' + 1
            · exact .inr (.inr (.inr ⟨a', p', b', w', rfl, rfl, hab.1, hab.2, h⟩))
            · omega
          · simp at ht
        · simp at ht
    rcases hcase with h | h | h | ⟨a', p', b', w', rfl, rfl, rfl, rfl, h⟩
    · refine ⟨b :: s1, (List.prefix_cons_inj b).mpr h1, ?_⟩
      rw [h]
      unfold neq
      by_cases hab : a = b
      · subst hab; simp; exact .keep a e1
      · simp [hab]; exact .subst a b e1
    · exact ⟨b :: s2, (List.prefix_cons_inj b).mpr h2, by rw [h]; exact .insert b e2⟩
    · exact ⟨s3, h3, by rw [h]; exact .delete a e3⟩
    · obtain ⟨s4, h4, e4⟩ := D_sound p' w'
      refine ⟨a' :: a :: s4, (List.prefix_cons_inj _).mpr ((List.prefix_cons_inj _).mpr h4), ?_⟩
      rw [h]; exact .swap a a' e4
termination_by p.length + w.length
decreasing_by all_goals (simp_all [List.length_cons] <;> omega)

theorem D_complete {p s : List α} {n : Nat} (h : Edit p s n) (w : List α) (hs : s <+: w) :
    D p w ≤ n := by
  induction h generalizing w with
  | done => simp
  | @keep a p s n _ ih =>
    obtain ⟨t, rfl⟩ := hs
    have := ih (s ++ t) (List.prefix_append _ _)
    rw [List.cons_append, D_cons]
    simp [neq]; omega
  | @subst a b p s n _ ih =>
    obtain ⟨t, rfl⟩ := hs
    have := ih (s ++ t) (List.prefix_append _ _)
    rw [List.cons_append, D_cons]
    have : neq a b ≤ 1 := by unfold neq; split <;> omega
    omega
  | @delete a p s n _ ih =>
    have := ih w hs
    have := D_le_del a p w
    omega
  | @insert b p s n _ ih =>
    obtain ⟨t, rfl⟩ := hs
    have := ih (s ++ t) (List.prefix_append _ _)
    rw [List.cons_append]
    have := D_le_ins p b (s ++ t)
    omega
  | @swap a b p s n _ ih =>
    obtain ⟨t, rfl⟩ := hs
    have := ih (s ++ t) (List.prefix_append _ _)
    simp only [List.cons_append]
    rw [D_cons]
    simp only [tr, and_self, if_true, Option.getD_some]
    omega

/-! ### Rows -/

/-- Table entry for the first `i` symbols of the pattern and the first `j` of the word. -/
def T (p w : List α) (i j : Nat) : Nat := D (p.take i).reverse (w.take j).reverse

omit [DecidableEq α] in
theorem take_succ_reverse (l : List α) (i : Nat) (h : i < l.length) :
    (l.take (i + 1)).reverse = l[i] :: (l.take i).reverse := by
  rw [List.take_succ_eq_append_getElem h]; simp

theorem T_zero (p w : List α) (j : Nat) : T p w 0 j = 0 := by simp [T]

theorem T_right_zero (p w : List α) (i : Nat) (h : i ≤ p.length) : T p w i 0 = i := by
  simp [T, D_nil_right]; omega

/-- First row. -/
theorem T_one (p w : List α) (j : Nat) (hp : 0 < p.length) (hj : j < w.length) :
    T p w 1 (j + 1) = neq p[0] w[j] := by
  unfold T
  rw [take_succ_reverse w j hj]
  have : (p.take 1).reverse = [p[0]] := by
    have := take_succ_reverse p 0 hp; simpa using this
  rw [this, D_cons]
  have h1 : neq p[0] w[j] ≤ 1 := by unfold neq; split <;> omega
  simp [tr]
  omega

/-- First column (word index 0), later rows. -/
theorem T_first (p w : List α) (i : Nat) (hi : i < p.length) (hw : 0 < w.length) :
    T p w (i + 1) 1 = min (i + neq p[i] w[0]) (min (i + 1) (T p w i 1 + 1)) := by
  unfold T
  have hw1 : (w.take 1).reverse = [w[0]] := by
    have := take_succ_reverse w 0 hw; simpa using this
  rw [take_succ_reverse p i hi, hw1, D_cons]
  have hl : ((p.take i).reverse).length = i := by simp; omega
  have h1 := D_le_length (p.take i).reverse [w[0]]
  rw [hl] at h1
  have h2 : D (p.take i).reverse [] = i := by rw [D_nil_right, hl]
  have h3 : D (p[i] :: (p.take i).reverse) [] = i + 1 := by rw [D_nil_right]; simp; omega
  have h4 : tr p[i] (p.take i).reverse w[0] [] = none := by unfold tr; split <;> simp_all
  rw [h2, h3, h4]
  simp; omega

/-- Inner entries. -/
theorem T_inner (p w : List α) (i j : Nat) (hi : i + 1 < p.length) (hj : j + 1 < w.length) :
    T p w (i + 2) (j + 2) =
      min (min (T p w (i + 1) (j + 1) + neq p[i + 1] w[j + 1]) (T p w (i + 2) (j + 1) + 1))
        (min (T p w (i + 1) (j + 2) + 1)
          (if p[i] = w[j + 1] ∧ p[i + 1] = w[j] then T p w i j + 1
           else T p w (i + 1) (j + 2) + 1)) := by
  have e1 := take_succ_reverse p (i + 1) hi
  have e2 := take_succ_reverse w (j + 1) hj
  have e3 := take_succ_reverse p i (by omega)
  have e4 := take_succ_reverse w j (by omega)
  unfold T
  rw [e1, e2, D_cons]
  congr 2
  rw [e3, e4]
  unfold tr
  simp only
  by_cases hc : p[i + 1] = w[j] ∧ p[i] = w[j + 1]
  · rw [if_pos hc, if_pos ⟨hc.2, hc.1⟩]; simp
  · rw [if_neg hc, if_neg (fun h => hc ⟨h.2, h.1⟩)]; simp

/-! ### The loops -/

/-- Saturated table entry. -/
def R (p w : List α) (i j : Nat) : Int := min 32767 (T p w i j : Int)

theorem ite_lt_min (v r : Int) : (if v < r then v else r) = min r v := by
  split <;> omega

theorem min4 (a b c d : Int) : minDistance [a, b, c, d] = min 32767 (min a (min b (min c d))) := by
  simp only [minDistance, List.foldl, cutCost]
  omega

theorem min3 (a b c : Int) : minDistance [a, b, c] = min 32767 (min a (min b c)) := by
  simp only [minDistance, List.foldl, cutCost]
  omega

theorem sameRune_eq (a b : α) : sameRune a b = (neq a b : Int) := by
  unfold sameRune neq; split <;> simp

theorem idx_ok {β : Type} (l : List β) (i : Nat) (v : β) (h : l[i]? = some v) :
    idx l i = .ok v := by
  unfold idx; rw [h]

theorem idx_lt {β : Type} (l : List β) (i : Nat) (h : i < l.length) : idx l i = .ok l[i] :=
  idx_ok l i _ (List.getElem?_eq_getElem h)

theorem Prev.get_set_other (p : Prev) (t : Nat) (v : Int) :
    (p.set t v).get (t + 1) = p.get (t + 1) := by
  unfold Prev.get Prev.set
  by_cases h : t % 2 = 0
  · rw [if_pos h, if_neg (by omega), if_neg (by omega)]
  · rw [if_neg h, if_pos (by omega), if_pos (by omega)]

theorem Prev.get_set_same (p : Prev) (t : Nat) (v : Int) : (p.set t v).get (t + 2) = v := by
  unfold Prev.get Prev.set
  by_cases h : t % 2 = 0
  · rw [if_pos h, if_pos (by omega)]
  · rw [if_neg h, if_neg (by omega)]

/-- Row `i` of the table as a slice over word positions. -/
def IsRow (p w : List α) (i : Nat) (l : List Int) : Prop :=
  l.length = w.length ∧ ∀ j, j < w.length → l[j]? = some (R p w i (j + 1))

structure InnerInv (p w : List α) (i t : Nat) (cost : List Int) (prev : Prev) : Prop where
  len : cost.length = w.length
  new : ∀ j, j < t → j < w.length → cost[j]? = some (R p w (i + 2) (j + 1))
  old : ∀ j, t ≤ j → j < w.length → cost[j]? = some (R p w i (j + 1))
  prev0 : min 32767 (prev.get t) = R p w i (t - 1)
  prev1 : min 32767 (prev.get (t + 1)) = R p w i t

theorem innerStep_spec (p w : List α) (i t : Nat) (alt cost : List Int) (prev : Prev)
    (hi : i + 1 < p.length) (ht1 : 1 ≤ t) (ht : t < w.length) (halt : IsRow p w (i + 1) alt)
    (h : InnerInv p w i t cost prev) :
    ∃ cost' prev', innerStep p w (i + 1) t alt cost prev = .ok (cost', prev') ∧
      InnerInv p w i (t + 1) cost' prev' := by
  obtain ⟨j, rfl⟩ : ∃ j, t = j + 1 := ⟨t - 1, by omega⟩
  have e1 := idx_lt p i (by omega)
  have e2 := idx_lt p (i + 1) hi
  have e3 := idx_lt w (j + 1) ht
  have e4 := idx_lt w j (by omega)
  have e5 := idx_ok _ _ _ (h.old (j + 1) (by omega) ht)
  have e6 := idx_ok _ _ _ (halt.2 j (by omega))
  have e7 := idx_ok _ _ _ (h.new j (by omega) (by omega))
  have e8 := idx_ok _ _ _ (halt.2 (j + 1) ht)
  unfold innerStep
  simp only [Nat.add_sub_cancel, e1, e2, e3, e4, e5, e6, e7, e8, Res.bind_ok]
  refine ⟨_, _, rfl, ?_, ?_, ?_, ?_, ?_⟩
  · simp [h.len]
  · intro k hk hkw
    by_cases hkt : k = j + 1
    · subst hkt
      rw [List.getElem?_set_self (by rw [h.len]; exact ht), min4, sameRune_eq]
      congr 1
      have hT := T_inner p w i j hi ht
      have hp0 := h.prev0
      unfold R at hp0 ⊢
      simp only [Nat.add_sub_cancel] at hp0
      rw [show j + 1 + 1 = j + 2 from rfl]
      by_cases hc : p[i] = w[j + 1] ∧ p[i + 1] = w[j]
      · rw [if_pos hc] at hT ⊢
        omega
      · rw [if_neg hc] at hT ⊢
        unfold cutCost; omega
    · rw [List.getElem?_set_ne (by omega)]
      exact h.new k (by omega) hkw
  · intro k hk hkw
    rw [List.getElem?_set_ne (by omega)]
    exact h.old k (by omega) hkw
  · rw [Prev.get_set_other]
    exact h.prev1
  · rw [Prev.get_set_same]
    unfold R; omega

theorem innerLoop_spec (p w : List α) (i : Nat) (alt : List Int) (hi : i + 1 < p.length)
    (halt : IsRow p w (i + 1) alt) :
    ∀ (fuel t : Nat) (cost : List Int) (prev : Prev), 1 ≤ t → t + fuel = w.length →
      InnerInv p w i t cost prev →
      ∃ cost', innerLoop p w (i + 1) alt fuel t cost prev = .ok cost' ∧ IsRow p w (i + 2) cost' := by
  intro fuel
  induction fuel with
  | zero =>
    intro t cost prev _ hf h
    exact ⟨cost, rfl, h.len, fun j hj => h.new j (by omega) hj⟩
  | succ fuel ih =>
    intro t cost prev ht hf h
    obtain ⟨c', p', h1, h2⟩ := innerStep_spec p w i t alt cost prev hi ht (by omega) halt h
    unfold innerLoop
    rw [h1, Res.bind_ok]
    exact ih (t + 1) c' p' (by omega) (by omega) h2

theorem outerStep_spec (p w : List α) (i : Nat) (hi : i + 1 < p.length) (hw : 0 < w.length)
    (cost alt : List Int) (hc : IsRow p w (i + 1) cost) (ha : IsRow p w i alt) :
    ∃ cost', outerStep p w (i + 1) cost alt = .ok (cost', cost) ∧ IsRow p w (i + 2) cost' := by
  have e1 := idx_ok _ _ _ (ha.2 0 hw)
  have e2 := idx_lt p (i + 1) hi
  have e3 := idx_lt w 0 hw
  have e4 := idx_ok _ _ _ (hc.2 0 hw)
  have hinv : InnerInv p w i 1
      (alt.set 0 (minDistance [sameRune p[i + 1] w[0] + ((i + 1 : Nat) : Int),
        1 + ((i + 1 : Nat) : Int), R p w (i + 1) (0 + 1) + 1]))
      ⟨R p w i (0 + 1), ((i + 1 : Nat) : Int) - 1⟩ := by
    refine ⟨by simp [ha.1], ?_, ?_, ?_, ?_⟩
    · intro j hj hjw
      have : j = 0 := by omega
      subst this
      rw [List.getElem?_set_self (by rw [ha.1]; exact hw), min3, sameRune_eq]
      congr 1
      have hT := T_first p w (i + 1) hi hw
      unfold R
      rw [hT]
      simp only [Nat.zero_add]
      omega
    · intro j hj hjw
      rw [List.getElem?_set_ne (by omega)]
      exact ha.2 j hjw
    · have hT := T_right_zero p w i (by omega)
      unfold R Prev.get
      simp only [Nat.sub_self, hT]
      rw [if_neg (by omega)]
      simp
    · unfold R Prev.get
      simp only [Nat.zero_add]
      rw [if_pos trivial]
      omega
  obtain ⟨cost', h1, h2⟩ := innerLoop_spec p w i cost hi hc (w.length - 1) 1 _ _ (by omega)
    (by omega) hinv
  refine ⟨cost', ?_, h2⟩
  unfold outerStep
  simp only [e1, e2, e3, e4, Res.bind_ok]
  rw [h1]
  rfl

theorem outerLoop_spec (p w : List α) (hw : 0 < w.length) :
    ∀ (fuel i : Nat) (cost alt : List Int), i + 1 + fuel = p.length →
      IsRow p w (i + 1) cost → IsRow p w i alt →
      ∃ cost', outerLoop p w fuel (i + 1) cost alt = .ok cost' ∧ IsRow p w p.length cost' := by
  intro fuel
  induction fuel with
  | zero =>
    intro i cost alt hf hc _
    exact ⟨cost, rfl, by rw [← hf]; exact hc⟩
  | succ fuel ih =>
    intro i cost alt hf hc ha
    obtain ⟨c', h1, h2⟩ := outerStep_spec p w i (by omega) hw cost alt hc ha
    unfold outerLoop
    rw [h1, Res.bind_ok]
    exact ih (i + 1) c' cost (by omega) h2 hc

theorem minDistance_spec (l : List Int) :
    minDistance l ≤ 32767 ∧ (∀ x ∈ l, minDistance l ≤ x) ∧
      (minDistance l = 32767 ∨ minDistance l ∈ l) := by
  have key : ∀ (l : List Int) (r : Int),
      let m := l.foldl (fun result v => if v < result then v else result) r
      m ≤ r ∧ (∀ x ∈ l, m ≤ x) ∧ (m = r ∨ m ∈ l) := by
    intro l
    induction l with
    | nil => intro r; simp
    | cons a l ih =>
      intro r
      obtain ⟨h1, h2, h3⟩ := ih (if a < r then a else r)
      simp only [List.foldl_cons]
      generalize hg : (if a < r then a else r) = r' at h1 h2 h3 ⊢
      have hr : r' ≤ r ∧ r' ≤ a := by rw [← hg]; split <;> omega
      refine ⟨by omega, ?_, ?_⟩
      · intro x hx
        rcases List.mem_cons.mp hx with rfl | hx
        · omega
        · exact h2 x hx
      · rcases h3 with h3 | h3
        · by_cases har : a < r
          · right; rw [if_pos har] at hg; rw [h3, ← hg]; simp
          · left; rw [if_neg har] at hg; rw [h3, ← hg]
        · right; simp [h3]
  exact key l cutCost

theorem infix_iff_take {β : Type} (s w : List β) :
    s <:+: w ↔ ∃ j, j ≤ w.length ∧ s.reverse <+: (w.take j).reverse := by
  constructor
  · rintro ⟨x, y, rfl⟩
    refine ⟨x.length + s.length, by simp, ?_⟩
    have : (x ++ s ++ y).take (x.length + s.length) = x ++ s := by
      rw [← List.length_append]; exact List.take_left
    rw [this, List.reverse_append]
    exact List.prefix_append _ _
  · rintro ⟨j, _, h⟩
    have h2 : s <:+ w.take j := List.reverse_prefix.mp h
    exact h2.isInfix.trans (List.take_prefix _ _).isInfix

/-- Main result: the loops compute the saturated optimum. -/
theorem editorDistanceRunes_spec (p w : List α) (hp : p ≠ []) (hw : w ≠ []) :
    ∃ d, IsBest p w d ∧ editorDistanceRunes p w = .ok (min 32767 (d : Int)) := by
  have hpl : 0 < p.length := List.length_pos_iff.mpr hp
  have hwl : 0 < w.length := List.length_pos_iff.mpr hw
  -- initial rows
  obtain ⟨p0, p', rfl⟩ : ∃ p0 p', p = p0 :: p' := by
    cases p with
    | nil => exact absurd rfl hp
    | cons a b => exact ⟨a, b, rfl⟩
  have hrow1 : IsRow (p0 :: p') w 1 (w.map fun x => minDistance [1, 1] * sameRune p0 x) := by
    refine ⟨by simp, fun j hj => ?_⟩
    rw [List.getElem?_map, List.getElem?_eq_getElem hj]
    have hT := T_one (p0 :: p') w j hpl hj
    simp only [Option.map_some, sameRune_eq, R, hT, List.getElem_cons_zero]
    have e : minDistance [1, 1] = 1 := by decide
    have : neq p0 w[j] ≤ 1 := by unfold neq; split <;> omega
    rw [e]
    congr 1
    omega
  have hrow0 : IsRow (p0 :: p') w 0 (w.map fun _ => (0 : Int)) := by
    refine ⟨by simp, fun j hj => ?_⟩
    rw [List.getElem?_map, List.getElem?_eq_getElem hj]
    simp only [R, T_zero, Option.map_some]; rfl
  obtain ⟨cost, h1, h2⟩ := outerLoop_spec (p0 :: p') w hwl p'.length 0 _ _ (by simp; omega)
    hrow1 hrow0
  have hred : editorDistanceRunes (p0 :: p') w = .ok (minDistance cost) := by
    unfold editorDistanceRunes
    cases w with
    | nil => exact absurd rfl hw
    | cons b w' =>
      simp only [Res.bind_ok, List.length_cons, Nat.add_sub_cancel] at h1 ⊢
      rw [show (1 : Nat) = 0 + 1 from rfl, h1]
      rfl
  rw [hred]
  -- the least entry of the last row
  generalize hP : p0 :: p' = P at *
  have hTfull : ∀ j, T P w P.length j = D P.reverse (w.take j).reverse := by
    intro j; simp [T]
  have hmem : ∀ j, j < w.length → R P w P.length (j + 1) ∈ cost := by
    intro j hj
    exact List.mem_of_getElem? (h2.2 j hj)
  have hmem' : ∀ x ∈ cost, ∃ j, j < w.length ∧ x = R P w P.length (j + 1) := by
    intro x hx
    obtain ⟨j, hj, rfl⟩ := List.getElem_of_mem hx
    have hjw : j < w.length := by rw [← h2.1]; exact hj
    refine ⟨j, hjw, ?_⟩
    have := h2.2 j hjw
    rw [List.getElem?_eq_getElem hj] at this
    simpa using this
  -- choose the best position
  have hex : ∃ j, j < w.length ∧ ∀ k, k < w.length → T P w P.length (j + 1) ≤ T P w P.length (k + 1) := by
    have : ∀ n, 0 < n → ∃ j, j < n ∧ ∀ k, k < n → T P w P.length (j + 1) ≤ T P w P.length (k + 1) := by
      intro n
      induction n with
      | zero => intro h; omega
      | succ n ih =>
        intro _
        by_cases hn : n = 0
        · subst hn
          exact ⟨0, by omega, fun k hk => by have : k = 0 := by omega
                                             subst this; exact Nat.le_refl _⟩
        · obtain ⟨j, hj, hmin⟩ := ih (by omega)
          by_cases hle : T P w P.length (j + 1) ≤ T P w P.length (n + 1)
          · refine ⟨j, by omega, fun k hk => ?_⟩
            by_cases hkn : k = n
            · subst hkn; exact hle
            · exact hmin k (by omega)
          · refine ⟨n, by omega, fun k hk => ?_⟩
            by_cases hkn : k = n
            · subst hkn; exact Nat.le_refl _
            · have := hmin k (by omega); omega
    exact this w.length hwl
  obtain ⟨j, hj, hmin⟩ := hex
  refine ⟨T P w P.length (j + 1), ⟨?_, ?_⟩, ?_⟩
  · rw [hTfull]
    obtain ⟨s, hs, he⟩ := D_sound P.reverse (w.take (j + 1)).reverse
    refine ⟨s.reverse, (infix_iff_take _ _).mpr ⟨j + 1, by omega, by simpa using hs⟩, ?_⟩
    simpa using he.reverse
  · intro s n hs he
    obtain ⟨k, hk, hpre⟩ := (infix_iff_take s w).mp hs
    have hle := D_complete he.reverse _ hpre
    by_cases hk0 : k = 0
    · subst hk0
      rw [List.take_zero, List.reverse_nil, D_nil_right] at hle
      have h1 := D_le_length P.reverse (w.take (j + 1)).reverse
      rw [hTfull]
      omega
    · have := hmin (k - 1) (by omega)
      rw [show k - 1 + 1 = k by omega, hTfull k] at this
      omega
  · congr 1
    obtain ⟨m1, m2, m3⟩ := minDistance_spec cost
    have hj' := m2 _ (hmem j hj)
    unfold R at hj'
    rcases m3 with h | h
    · omega
    · obtain ⟨k, hk, hx⟩ := hmem' _ h
      have := hmin k hk
      unfold R at hx
      omega

end

end Burl.Fuzzy
