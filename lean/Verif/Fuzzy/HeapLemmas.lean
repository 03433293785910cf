import Verif.Fuzzy.Model
import Verif.Fuzzy.Spec
/-! `container/heap` operations keep the heap shape, and the bounded heap keeps the best `k`
elements added so far. -/
namespace Burl.Fuzzy
open Burl.Fuzzy.Spec

/-- A strict weak order given by a comparison function. -/
structure Weak {α : Type} (less : α → α → Bool) : Prop where
  asymm : ∀ a b, less a b = true → less b a = false
  trans : ∀ a b c, less b a = false → less c b = false → less c a = false

variable {α : Type} {less : α → α → Bool}

/-! ### Swapping -/

theorem getD_lt (h : List α) (k : Nat) (d : α) (hk : k < h.length) : h[k]? = some (h.getD k d) := by
  simp [List.getD, List.getElem?_eq_getElem hk]

theorem swap_eq (h : List α) (d : α) (i j : Nat) (hi : i < h.length) (hj : j < h.length) :
    swap h i j = (h.set i (h.getD j d)).set j (h.getD i d) := by
  unfold swap
  rw [getD_lt h i d hi, getD_lt h j d hj]

theorem swap_length (h : List α) (i j : Nat) : (swap h i j).length = h.length := by
  unfold swap; split <;> simp

theorem swap_getD (h : List α) (d : α) (i j k : Nat) (hi : i < h.length) (hj : j < h.length)
    (hij : i ≠ j) :
    (swap h i j).getD k d = if k = i then h.getD j d else if k = j then h.getD i d else h.getD k d := by
  rw [swap_eq h d i j hi hj]
  by_cases h1 : k = i
  · subst h1
    rw [if_pos rfl]
    simp only [List.getD]
    rw [List.getElem?_set_ne (Ne.symm hij), List.getElem?_set_self hi]; rfl
  · rw [if_neg h1]
    by_cases h2 : k = j
    · subst h2
      rw [if_pos rfl]
      simp only [List.getD]
      rw [List.getElem?_set_self (by simpa using hj)]; rfl
    · rw [if_neg h2]
      simp only [List.getD]
      rw [List.getElem?_set_ne (Ne.symm h2), List.getElem?_set_ne (Ne.symm h1)]

theorem set_perm (h : List α) (i : Nat) (x : α) (hi : i < h.length) :
    (h[i] :: h.set i x).Perm (x :: h) := by
  induction h generalizing i with
  | nil => simp at hi
  | cons a t ih =>
    cases i with
    | zero => simpa using List.Perm.swap x a t
    | succ i =>
      simp only [List.set_cons_succ, List.getElem_cons_succ]
      have := ih i (by simpa using hi)
      exact ((List.Perm.swap _ _ _).trans (this.cons a)).trans (List.Perm.swap _ _ _)

theorem swap_perm (h : List α) (i j : Nat) (hij : i ≠ j) : (swap h i j).Perm h := by
  unfold swap
  split
  · rename_i a b ha hb
    obtain ⟨hi, rfl⟩ := List.getElem?_eq_some_iff.mp ha
    obtain ⟨hj, rfl⟩ := List.getElem?_eq_some_iff.mp hb
    have h1 := set_perm h i h[j] hi
    have h2 := set_perm (h.set i h[j]) j h[i] (by simpa using hj)
    have e : (h.set i h[j])[j]'(by simpa using hj) = h[j] := by
      rw [List.getElem_set_ne hij]
    rw [e] at h2
    have h3 := h2.trans h1
    exact (List.perm_cons _).mp h3
  · exact List.Perm.refl _

theorem hLess_eq (h : List α) (d : α) (i j : Nat) (hi : i < h.length) (hj : j < h.length) :
    hLess less h i j = less (h.getD j d) (h.getD i d) := by
  unfold hLess
  rw [getD_lt h i d hi, getD_lt h j d hj]

/-! ### Heap shape -/

/-- Every element but the root is not after its parent's position in rank: the root is the
worst element. -/
def IsHeap (less : α → α → Bool) (d : α) (h : List α) : Prop :=
  ∀ k, 0 < k → k < h.length → less (h.getD ((k - 1) / 2) d) (h.getD k d) = false

structure UpPre (less : α → α → Bool) (d : α) (h : List α) (j : Nat) : Prop where
  other : ∀ k, 0 < k → k < h.length → k ≠ j →
    less (h.getD ((k - 1) / 2) d) (h.getD k d) = false
  child : ∀ k, 0 < k → k < h.length → (k - 1) / 2 = j → 0 < j →
    less (h.getD ((j - 1) / 2) d) (h.getD k d) = false

theorem up_spec (hw : Weak less) (d : α) :
    ∀ (fuel : Nat) (h : List α) (j : Nat), j < fuel → j < h.length → UpPre less d h j →
      IsHeap less d (up less fuel h j) ∧ (up less fuel h j).Perm h := by
  intro fuel
  induction fuel with
  | zero => intro h j hj; omega
  | succ fuel ih =>
    intro h j hjf hj hpre
    unfold up
    simp only
    split
    · rename_i hc
      refine ⟨?_, List.Perm.refl _⟩
      intro k hk hkl
      by_cases hkj : k = j
      · subst hkj
        rcases hc with hc | hc
        · omega
        · rw [hLess_eq h d _ _ hkl (by omega)] at hc
          simpa using hc
      · exact hpre.other k hk hkl hkj
    · rename_i hc
      simp only [not_or, Bool.not_eq_true', Bool.not_eq_false] at hc
      obtain ⟨hij, hless⟩ := hc
      generalize hi : (j - 1) / 2 = i at *
      have hilt : i < j := by omega
      have hil : i < h.length := by omega
      rw [hLess_eq h d _ _ hj hil] at hless
      have hsw : ∀ k, (swap h i j).getD k d = if k = i then h.getD j d
          else if k = j then h.getD i d else h.getD k d :=
        fun k => swap_getD h d i j k hil hj hij
      have hle : less (h.getD j d) (h.getD i d) = false := hw.asymm _ _ hless
      have hnext : UpPre less d (swap h i j) i := by
        constructor
        · intro k hk hkl hki
          rw [swap_length] at hkl
          rw [hsw k, hsw ((k - 1) / 2), if_neg hki]
          by_cases hkj : k = j
          · subst hkj
            rw [if_pos rfl, if_pos hi]
            exact hle
          · rw [if_neg hkj]
            have hk1 := hpre.other k hk hkl hkj
            by_cases h1 : (k - 1) / 2 = i
            · rw [if_pos h1]
              rw [h1] at hk1
              exact hw.trans _ _ _ hk1 hle
            · rw [if_neg h1]
              by_cases h2 : (k - 1) / 2 = j
              · rw [if_pos h2]
                have := hpre.child k hk hkl h2 (by omega)
                rwa [hi] at this
              · rw [if_neg h2]; exact hk1
        · intro k hk hkl hki h0
          rw [swap_length] at hkl
          rw [hsw k, hsw ((i - 1) / 2), if_neg (by omega), if_neg (show (i - 1) / 2 ≠ j by omega),
            if_neg (by omega)]
          have hi1 := hpre.other i h0 hil (by omega)
          by_cases hkj : k = j
          · rw [if_pos hkj]; exact hi1
          · rw [if_neg hkj]
            have hk1 := hpre.other k hk hkl hkj
            rw [hki] at hk1
            exact hw.trans _ _ _ hk1 hi1
      obtain ⟨r1, r2⟩ := ih (swap h i j) i (by omega) (by rw [swap_length]; exact hil) hnext
      exact ⟨r1, r2.trans (swap_perm h i j hij)⟩

structure DownPre (less : α → α → Bool) (d : α) (h : List α) (i : Nat) : Prop where
  other : ∀ k, 0 < k → k < h.length → (k - 1) / 2 ≠ i →
    less (h.getD ((k - 1) / 2) d) (h.getD k d) = false
  child : ∀ k, 0 < k → k < h.length → (k - 1) / 2 = i → 0 < i →
    less (h.getD ((i - 1) / 2) d) (h.getD k d) = false

theorem down_spec (hw : Weak less) (d : α) :
    ∀ (fuel : Nat) (h : List α) (i : Nat), h.length ≤ i + fuel → DownPre less d h i →
      IsHeap less d (down less h.length fuel h i).1 ∧ (down less h.length fuel h i).1.Perm h := by
  intro fuel
  induction fuel with
  | zero =>
    intro h i hf hpre
    refine ⟨?_, List.Perm.refl _⟩
    intro k hk hkl
    exact hpre.other k hk hkl (by simp only [down] at hkl; omega)
  | succ fuel ih =>
    intro h i hf hpre
    unfold down
    simp only
    split
    · rename_i hge
      refine ⟨fun k hk hkl => hpre.other k hk hkl (by simp only at hkl; omega), List.Perm.refl _⟩
    · rename_i hlt
      generalize hj : (if 2 * i + 1 + 1 < h.length ∧ hLess less h (2 * i + 1 + 1) (2 * i + 1) = true
        then 2 * i + 1 + 1 else 2 * i + 1) = j
      have hjr : (j = 2 * i + 1 ∨ j = 2 * i + 2) ∧ j < h.length := by
        rw [← hj]; split <;> omega
      have hij : i ≠ j := by omega
      have hil : i < h.length := by omega
      -- the chosen child is at least as bad as its sibling
      have hsib : ∀ k, 0 < k → k < h.length → (k - 1) / 2 = i →
          less (h.getD j d) (h.getD k d) = false := by
        intro k hk hkl hki
        have hkr : k = 2 * i + 1 ∨ k = 2 * i + 2 := by omega
        have hrefl : ∀ x, less x x = false := fun x => by
          cases hx : less x x with
          | false => rfl
          | true => have := hw.asymm _ _ hx; rw [hx] at this; exact this
        by_cases hc : 2 * i + 1 + 1 < h.length ∧ hLess less h (2 * i + 1 + 1) (2 * i + 1) = true
        · rw [if_pos hc] at hj
          rcases hkr with rfl | rfl
          · rw [← hj]
            have := hc.2
            rw [hLess_eq h d _ _ hc.1 (by omega)] at this
            exact hw.asymm _ _ this
          · rw [← hj]; exact hrefl _
        · rw [if_neg hc] at hj
          rcases hkr with rfl | rfl
          · rw [← hj]; exact hrefl _
          · rw [← hj]
            have h2 : hLess less h (2 * i + 1 + 1) (2 * i + 1) = false := by
              cases hb : hLess less h (2 * i + 1 + 1) (2 * i + 1) with
              | false => rfl
              | true => exact absurd ⟨by omega, hb⟩ hc
            rwa [hLess_eq h d _ _ (by omega) (by omega)] at h2
      split
      · rename_i hnl
        refine ⟨?_, List.Perm.refl _⟩
        intro k hk hkl
        by_cases hki : (k - 1) / 2 = i
        · rw [hki]
          rw [hLess_eq h d _ _ hjr.2 hil] at hnl
          exact hw.trans _ _ _ (hsib k hk hkl hki) (by simpa using hnl)
        · exact hpre.other k hk hkl hki
      · rename_i hnl
        have hless : less (h.getD i d) (h.getD j d) = true := by
          rw [hLess_eq h d _ _ hjr.2 hil] at hnl; simpa using hnl
        have hle := hw.asymm _ _ hless
        have hsw : ∀ k, (swap h i j).getD k d = if k = i then h.getD j d
            else if k = j then h.getD i d else h.getD k d :=
          fun k => swap_getD h d i j k hil hjr.2 hij
        have hnext : DownPre less d (swap h i j) j := by
          constructor
          · intro k hk hkl hkp
            rw [swap_length] at hkl
            rw [hsw k, hsw ((k - 1) / 2), if_neg hkp]
            by_cases h1 : (k - 1) / 2 = i
            · rw [if_pos h1, if_neg (by omega)]
              by_cases h2 : k = j
              · rw [if_pos h2]; exact hle
              · rw [if_neg h2]; exact hsib k hk hkl h1
            · rw [if_neg h1]
              by_cases h2 : k = i
              · subst h2
                rw [if_pos rfl]
                exact hpre.child j (by omega) hjr.2 (by omega) hk
              · rw [if_neg h2, if_neg (by omega)]
                exact hpre.other k hk hkl h1
          · intro k hk hkl hkp _
            rw [swap_length] at hkl
            have hpj : (j - 1) / 2 = i := by omega
            rw [hsw k, hsw ((j - 1) / 2), if_pos hpj, if_neg (by omega), if_neg (by omega)]
            have := hpre.other k hk hkl (by omega)
            rwa [hkp] at this
        have := ih (swap h i j) j (by rw [swap_length]; omega) hnext
        rw [swap_length] at this
        exact ⟨this.1, this.2.trans (swap_perm h i j hij)⟩

theorem getD_append_lt (h : List α) (x d : α) (k : Nat) (hk : k < h.length) :
    (h ++ [x]).getD k d = h.getD k d := by
  simp only [List.getD]; rw [List.getElem?_append_left hk]

theorem heapPush_spec (hw : Weak less) (d : α) (h : List α) (x : α) (hh : IsHeap less d h) :
    IsHeap less d (heapPush less h x) ∧ (heapPush less h x).Perm (x :: h) := by
  unfold heapPush
  simp only
  have hl : (h ++ [x]).length = h.length + 1 := by simp
  have hpre : UpPre less d (h ++ [x]) ((h ++ [x]).length - 1) := by
    constructor
    · intro k hk hkl hkn
      rw [getD_append_lt h x d k (by omega), getD_append_lt h x d _ (by omega)]
      exact hh k hk (by omega)
    · intro k hk hkl hkp h0
      omega
  obtain ⟨r1, r2⟩ := up_spec hw d (h ++ [x]).length (h ++ [x]) ((h ++ [x]).length - 1)
    (by omega) (by omega) hpre
  exact ⟨r1, r2.trans (List.perm_append_singleton x h)⟩

theorem up_zero (less : α → α → Bool) (fuel : Nat) (h : List α) : up less fuel h 0 = h := by
  cases fuel <;> simp [up]

theorem heapFix_zero_spec (hw : Weak less) (d : α) (h : List α) (x : α) (hh : IsHeap less d h) :
    IsHeap less d (heapFix less (h.set 0 x) 0) ∧
      (heapFix less (h.set 0 x) 0).Perm (h.set 0 x) := by
  have hpre : DownPre less d (h.set 0 x) 0 := by
    constructor
    · intro k hk hkl hkp
      simp only [List.length_set] at hkl
      simp only [List.getD]
      rw [List.getElem?_set_ne (by omega), List.getElem?_set_ne (by omega)]
      exact hh k hk hkl
    · intro k _ _ _ h0; omega
  have hd := down_spec hw d (h.set 0 x).length (h.set 0 x) 0 (by omega) hpre
  have : heapFix less (h.set 0 x) 0 =
      (down less (h.set 0 x).length (h.set 0 x).length (h.set 0 x) 0).1 := by
    unfold heapFix
    simp only
    split
    · rfl
    · rw [up_zero]
  rw [this]
  exact hd

/-- The root is the worst element. -/
theorem root_worst (hw : Weak less) (d : α) (h : List α) (hh : IsHeap less d h) :
    ∀ k, k < h.length → less (h.getD 0 d) (h.getD k d) = false := by
  intro k
  induction k using Nat.strongRecOn with
  | _ k ih =>
    intro hk
    by_cases h0 : k = 0
    · subst h0
      cases hx : less (h.getD 0 d) (h.getD 0 d) with
      | false => rfl
      | true => have := hw.asymm _ _ hx; rw [hx] at this; exact this
    · have h1 := ih ((k - 1) / 2) (by omega) (by omega)
      have h2 := hh k (by omega) hk
      exact hw.trans _ _ _ h2 h1

/-- What the bounded heap holds after adding `xs`. -/
structure Holds (less : α → α → Bool) (d : α) (k : Nat) (xs h : List α) : Prop where
  heap : IsHeap less d h
  len : h.length = min k xs.length
  best : ∃ rest, xs.Perm (h ++ rest) ∧ ∀ a ∈ h, ∀ b ∈ rest, less b a = false

theorem Holds.nil (d : α) (k : Nat) : Holds less d k [] [] :=
  ⟨fun k _ hk => by simp at hk, by simp, [], List.Perm.refl _, by simp⟩

theorem heapAdd_spec (hw : Weak less) (d : α) (k : Nat) (hk : 0 < k) (xs h : List α) (x : α)
    (hh : Holds less d k xs h) :
    ∃ h', heapAdd less (k : Int) h x = .ok h' ∧ Holds less d k (x :: xs) h' := by
  obtain ⟨heap, len, rest, hperm, hbest⟩ := hh
  have hlen := hperm.length_eq
  simp only [List.length_append] at hlen
  unfold heapAdd
  by_cases hlt : (h.length : Int) < (k : Int)
  · rw [if_pos hlt]
    obtain ⟨r1, r2⟩ := heapPush_spec hw d h x heap
    have hrest : rest = [] := List.eq_nil_of_length_eq_zero (by omega)
    subst hrest
    refine ⟨_, rfl, r1, ?_, [], ?_, by simp⟩
    · rw [r2.length_eq]; simp only [List.length_cons]; omega
    · simp only [List.append_nil] at hperm ⊢
      exact (hperm.cons x).trans r2.symm
  · rw [if_neg hlt]
    have hpos : 0 < h.length := by omega
    have htop : idx h 0 = .ok (h.getD 0 d) := by
      unfold idx; rw [getD_lt h 0 d hpos]
    rw [htop, Res.bind_ok]
    have hworst : ∀ a ∈ h, less (h.getD 0 d) a = false := by
      intro a ha
      obtain ⟨i, hi, rfl⟩ := List.getElem_of_mem ha
      have := root_worst hw d h heap i hi
      simpa [List.getD, List.getElem?_eq_getElem hi] using this
    have h0mem : h.getD 0 d ∈ h := List.mem_of_getElem? (getD_lt h 0 d hpos)
    by_cases hl : less x (h.getD 0 d) = true
    · rw [if_pos hl]
      obtain ⟨r1, r2⟩ := heapFix_zero_spec hw d h x heap
      have hset := set_perm h 0 x hpos
      have e0 : h[0] = h.getD 0 d := by simp [List.getD, List.getElem?_eq_getElem hpos]
      rw [e0] at hset
      refine ⟨_, rfl, r1, ?_, h.getD 0 d :: rest, ?_, ?_⟩
      · rw [r2.length_eq, List.length_set]; simp only [List.length_cons]; omega
      · refine (hperm.cons x).trans ?_
        refine (hset.symm.append_right rest).trans ?_
        refine List.Perm.trans ?_ (r2.symm.append_right _)
        simp only [List.cons_append]
        exact (List.perm_middle).symm
      · intro a ha b hb
        have ha' : a ∈ h.set 0 x := r2.mem_iff.mp ha
        have hb' : less b (h.getD 0 d) = false := by
          rcases List.mem_cons.mp hb with rfl | hb
          · exact hworst _ h0mem
          · exact hbest _ h0mem b hb
        have hax : less (h.getD 0 d) a = false := by
          rcases List.mem_or_eq_of_mem_set ha' with ha' | rfl
          · exact hworst a ha'
          · exact hw.asymm _ _ hl
        exact hw.trans _ _ _ hax hb'
    · rw [if_neg hl]
      have hl' : less x (h.getD 0 d) = false := by simpa using hl
      refine ⟨_, rfl, heap, ?_, x :: rest, ?_, ?_⟩
      · simp only [List.length_cons]; omega
      · exact (hperm.cons x).trans (List.perm_middle).symm
      · intro a ha b hb
        rcases List.mem_cons.mp hb with rfl | hb
        · exact hw.trans _ _ _ (hworst a ha) hl'
        · exact hbest a ha b hb

/-! ### The element order -/

theorem strLt_irrefl (a : Str) : strLt a a = false := by
  induction a with
  | nil => rfl
  | cons c cs ih => simp [strLt, ih]

theorem strLt_iff (a b : Str) : strLt a b = true ↔ a.map Char.toNat < b.map Char.toNat := by
  induction a generalizing b with
  | nil => cases b <;> simp [strLt]
  | cons c cs ih =>
    cases b with
    | nil => simp [strLt]
    | cons e es =>
      simp only [strLt, List.map_cons, List.cons_lt_cons_iff]
      by_cases h : c = e
      · subst h; simp [ih]
      · rw [if_neg h]
        have : c.toNat ≠ e.toNat := fun hh => h (Char.toNat_inj.mp hh)
        simp [this]

theorem less_iff (a b : WS) : a.less b = true ↔ Spec.Before (a.weight, a.word) (b.weight, b.word) := by
  unfold WS.less Spec.Before
  simp only
  by_cases h1 : a.weight = b.weight
  · rw [if_neg (by simpa using h1)]
    by_cases h2 : utf8Len a.word = utf8Len b.word
    · rw [if_neg (by simpa using h2), strLt_iff]
      simp [h1, h2]
    · rw [if_pos h2]
      simp [h1, h2]
  · rw [if_pos h1]
    simp [h1]

theorem before_asymm (a b : Int × Str) (h : Spec.Before a b) : ¬ Spec.Before b a := by
  unfold Spec.Before at *
  rintro h'
  rcases h with h | ⟨h, h | ⟨h2, h⟩⟩ <;> rcases h' with h' | ⟨h', h' | ⟨h2', h'⟩⟩ <;>
    first | omega | exact absurd h' (List.lt_asymm h)

theorem before_trichotomy (a b : Int × Str) : Spec.Before a b ∨ a = b ∨ Spec.Before b a := by
  unfold Spec.Before
  obtain ⟨aw, as⟩ := a
  obtain ⟨bw, bs⟩ := b
  simp only [Prod.mk.injEq]
  rcases Int.lt_trichotomy aw bw with h | h | h
  · exact .inl (.inl h)
  · rcases Nat.lt_trichotomy (utf8Len as) (utf8Len bs) with h2 | h2 | h2
    · exact .inl (.inr ⟨h, .inl h2⟩)
    · by_cases e : as = bs
      · exact .inr (.inl ⟨h, e⟩)
      · have hne : as.map Char.toNat ≠ bs.map Char.toNat := by
          intro hh
          exact e ((List.map_inj_right (fun x y hxy => Char.toNat_inj.mp hxy)).mp hh)
        by_cases hl : as.map Char.toNat < bs.map Char.toNat
        · exact .inl (.inr ⟨h, .inr ⟨h2, hl⟩⟩)
        · have hle : bs.map Char.toNat ≤ as.map Char.toNat := hl
          have : bs.map Char.toNat < as.map Char.toNat := by
            by_cases hg : bs.map Char.toNat < as.map Char.toNat
            · exact hg
            · exact absurd (List.le_antisymm (as := as.map Char.toNat) hg hle) hne
          exact .inr (.inr (.inr ⟨h.symm, .inr ⟨h2.symm, this⟩⟩))
    · exact .inr (.inr (.inr ⟨h.symm, .inl h2⟩))
  · exact .inr (.inr (.inl h))

theorem before_trans (a b c : Int × Str) (h : Spec.Before a b) (h' : Spec.Before b c) :
    Spec.Before a c := by
  unfold Spec.Before at *
  rcases h with h | ⟨h, h | ⟨h2, h⟩⟩ <;> rcases h' with h' | ⟨h', h' | ⟨h2', h'⟩⟩ <;>
    first
    | exact .inl (by omega)
    | exact .inr ⟨by omega, .inl (by omega)⟩
    | exact .inr ⟨by omega, .inr ⟨by omega, List.lt_trans h h'⟩⟩

theorem weak_less : Weak WS.less where
  asymm a b h := by
    have h1 := before_asymm _ _ ((less_iff a b).mp h)
    cases hx : WS.less b a with
    | false => rfl
    | true => exact absurd ((less_iff b a).mp hx) h1
  trans a b c h h' := by
    cases hx : WS.less c a with
    | false => rfl
    | true =>
      have h1 := (less_iff c a).mp hx
      have h2 : ¬ Spec.Before (b.weight, b.word) (a.weight, a.word) := fun hh => by
        rw [(less_iff b a).mpr hh] at h; simp at h
      have h3 : ¬ Spec.Before (c.weight, c.word) (b.weight, b.word) := fun hh => by
        rw [(less_iff c b).mpr hh] at h'; simp at h'
      rcases before_trichotomy (a.weight, a.word) (b.weight, b.word) with h4 | h4 | h4
      · exact absurd (before_trans _ _ _ h1 h4) h3
      · rw [h4] at h1; exact absurd h1 h3
      · exact absurd h4 h2

end Burl.Fuzzy
