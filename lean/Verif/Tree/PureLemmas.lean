import Verif.Tree.ShareLemmas
/-! Counting and limiting as functions on trees satisfy the specification. -/
namespace Burl.Tree
open Burl.Tree.Spec

/-! ### Counts -/

theorem matches_nonneg (f : Link → Bool) (t : Tree) : 0 ≤ matches_ f t := by
  unfold matches_; omega

mutual
theorem countA_total (f : Link → Bool) (t : Tree) :
    (match countA f t with | none => 0 | some x => x.total) = matches_ f t := by
  match t with
  | .body ls =>
    simp only [countA, matches_, links]
    split
    · rename_i h
      split at h
      · rename_i he
        rw [List.isEmpty_iff.mp he]; rfl
      · simp at h
    · rename_i x h
      split at h
      · simp at h
      · injection h with h
        subst h
        rfl
  | .node p cs =>
    simp only [countA, Annot.total, matches_, links]
    exact countAs_total f cs
theorem countAs_total (f : Link → Bool) (ts : List Tree) :
    sumTotals (countAs f ts) = (((linksAll ts).filter f).length : Int) := by
  match ts with
  | [] => simp [countAs, sumTotals, linksAll]
  | t :: ts =>
    have h1 := countA_total f t
    have h2 := countAs_total f ts
    have h3 := matches_nonneg f t
    simp only [countAs, linksAll, List.filter_append, List.length_append]
    unfold matches_ at h1 h3
    cases hc : countA f t with
    | none =>
      rw [hc] at h1
      simp only at h1 ⊢
      omega
    | some a =>
      rw [hc] at h1
      simp only at h1 ⊢
      split
      · simp only [sumTotals, List.map_cons, List.sum_cons] at h2 ⊢
        omega
      · omega
end

theorem countA_some_total {f : Link → Bool} {t : Tree} {x : Annot} (h : countA f t = some x) :
    x.total = matches_ f t := by
  have := countA_total f t
  rw [h] at this
  exact this

theorem countA_none_total {f : Link → Bool} {t : Tree} (h : countA f t = none) :
    matches_ f t = 0 := by
  have := countA_total f t
  rw [h] at this
  exact this.symm

/-- Whether a child is kept by counting. -/
theorem countAs_cons (f : Link → Bool) (t : Tree) (ts : List Tree) :
    (∃ x, countA f t = some x ∧ 0 < x.total ∧ countAs f (t :: ts) = x :: countAs f ts) ∨
      (matches_ f t = 0 ∧ countAs f (t :: ts) = countAs f ts) := by
  have h3 := matches_nonneg f t
  cases hc : countA f t with
  | none => exact .inr ⟨countA_none_total hc, by simp [countAs, hc]⟩
  | some x =>
    by_cases hp : 0 < x.total
    · exact .inl ⟨x, rfl, hp, by simp [countAs, hc, hp]⟩
    · have := countA_some_total hc
      exact .inr ⟨by omega, by simp [countAs, hc, hp]⟩

theorem countAs_pos (f : Link → Bool) (ts : List Tree) : ∀ x ∈ countAs f ts, 0 < x.total := by
  induction ts with
  | nil => simp [countAs]
  | cons t ts ih =>
    rcases countAs_cons f t ts with ⟨x, _, hp, e⟩ | ⟨_, e⟩
    · rw [e]
      intro y hy
      rcases List.mem_cons.mp hy with rfl | hy
      · exact hp
      · exact ih y hy
    · rw [e]; exact ih

/-! ### Bodies -/

theorem firstByUrl_sublist (seen : List Str) (ls : List Link) : (firstByUrl seen ls).Sublist ls := by
  induction ls generalizing seen with
  | nil => exact List.Sublist.refl _
  | cons l ls ih =>
    unfold firstByUrl
    split
    · exact (ih _).cons l
    · exact (ih _).cons_cons l

theorem dedupLoop_eq (t : Int) (ls : List Link) : ∀ (seen : List Str) (n : Int), n < t →
    dedupLoop t ls seen n = (firstByUrl seen ls).take (t - n).toNat := by
  induction ls with
  | nil => intro seen n _; simp [dedupLoop, firstByUrl]
  | cons l ls ih =>
    intro seen n hn
    unfold dedupLoop firstByUrl
    split
    · exact ih seen n hn
    · obtain ⟨k, hk⟩ : ∃ k, (t - n).toNat = k + 1 := ⟨(t - n).toNat - 1, by omega⟩
      rw [hk, List.take_succ_cons]
      congr 1
      split
      · have : k = 0 := by omega
        rw [this]; simp
      · rw [ih _ _ (by omega)]
        congr 1
        omega

theorem limitLeaf_spec (ls : List Link) (t : Int) (ht : 1 ≤ t) (hl : ls ≠ []) :
    limitLeaf ls t = .ok ((firstByUrl [] ls).take t.toNat) := by
  have hlen : ls.length ≠ 0 := fun h => hl (List.length_eq_zero_iff.mp h)
  unfold limitLeaf
  rw [if_neg hlen]
  have hs := (firstByUrl_sublist [] ls).length_le
  simp only
  split
  · rw [if_neg (by omega), dedupLoop_eq _ _ _ _ (by omega), List.take_of_length_le (by omega),
      List.take_of_length_le (by omega)]
  · rw [if_neg (by omega), dedupLoop_eq _ _ _ _ (by omega), Int.sub_zero]

theorem firstByUrl_ne {ls : List Link} (h : ls ≠ []) : firstByUrl [] ls ≠ [] := by
  cases ls with
  | nil => exact absurd rfl h
  | cons l ls => simp [firstByUrl]

/-! ### Shares given to children of a source node -/

/-- Shares of the source children: none for those without matches. -/
def sharesT (f : Link → Bool) (sh : List (Nat × Int)) : Nat → List Tree → List (Option Int)
  | _, [] => []
  | i, t :: ts => if 0 < matches_ f t then sh.lookup i :: sharesT f sh (i + 1) ts
    else none :: sharesT f sh i ts

theorem sharesT_length (f : Link → Bool) (sh : List (Nat × Int)) (ts : List Tree) :
    ∀ i, (sharesT f sh i ts).length = ts.length := by
  induction ts with
  | nil => intro i; rfl
  | cons t ts ih => intro i; unfold sharesT; split <;> simp [ih]

/-- `pairsC` counting indices from a number. -/
def pairsFrom (sh : List (Nat × Int)) : Nat → List Int → List (Int × Option Int)
  | _, [] => []
  | i, c :: cs => (c, sh.lookup i) :: pairsFrom sh (i + 1) cs

theorem pairsFrom_eq (sh : List (Nat × Int)) (counts : List Int) : ∀ i,
    pairsFrom sh i counts =
      ((List.range' i counts.length).zip counts).map fun x => (x.2, sh.lookup x.1) := by
  induction counts with
  | nil => intro i; rfl
  | cons c cs ih =>
    intro i
    rw [pairsFrom, ih, List.length_cons, List.range'_succ, List.zip_cons_cons, List.map_cons]

theorem pairsC_eq (sh : List (Nat × Int)) (counts : List Int) :
    pairsC sh counts = pairsFrom sh 0 counts := by
  rw [pairsFrom_eq, pairsC, List.range_eq_range']

theorem sharesT_filter (f : Link → Bool) (sh : List (Nat × Int)) (ts : List Tree) : ∀ i,
    ((ts.map (matches_ f)).zip (sharesT f sh i ts)).filter (fun x => decide (0 < x.1)) =
      pairsFrom sh i ((countAs f ts).map Annot.total) ∧
    ∀ x ∈ (ts.map (matches_ f)).zip (sharesT f sh i ts), ¬ 0 < x.1 → x = (0, none) := by
  induction ts with
  | nil => intro i; simp [countAs, pairsFrom, sharesT]
  | cons t ts ih =>
    intro i
    have h3 := matches_nonneg f t
    rcases countAs_cons f t ts with ⟨x, hx, hp, e⟩ | ⟨h0, e⟩
    · have hm := countA_some_total hx
      have hpos : 0 < matches_ f t := by omega
      rw [e]
      simp only [List.map_cons, sharesT, if_pos hpos, List.zip_cons_cons, pairsFrom]
      refine ⟨?_, ?_⟩
      · rw [List.filter_cons, if_pos (by simpa using hpos), (ih (i + 1)).1, hm]
      · intro y hy hny
        rcases List.mem_cons.mp hy with rfl | hy
        · exact absurd hpos hny
        · exact (ih (i + 1)).2 y hy hny
    · have hpos : ¬ 0 < matches_ f t := by omega
      rw [e]
      simp only [List.map_cons, sharesT, if_neg hpos, List.zip_cons_cons]
      refine ⟨?_, ?_⟩
      · rw [List.filter_cons, if_neg (by simpa using hpos), (ih i).1]
      · intro y hy hny
        rcases List.mem_cons.mp hy with rfl | hy
        · rw [h0]
        · exact (ih i).2 y hy hny

theorem Choice.insert {t : Int} {l : List (Int × Option Int)}
    (h : Choice t (l.filter fun x => decide (0 < x.1)))
    (hz : ∀ x ∈ l, ¬ 0 < x.1 → x = (0, none)) : Choice t l := by
  have hfm : ∀ l : List (Int × Option Int), (∀ x ∈ l, ¬ 0 < x.1 → x = (0, none)) →
      (l.filter fun x => decide (0 < x.1)).filterMap (·.2) = l.filterMap (·.2) := by
    intro l
    induction l with
    | nil => intro _; rfl
    | cons x xs ih =>
      intro hz
      have ih := ih (fun y hy => hz y (by simp [hy]))
      rw [List.filter_cons]
      by_cases hx : 0 < x.1
      · rw [if_pos (by simpa using hx), List.filterMap_cons, List.filterMap_cons, ih]
      · rw [if_neg (by simpa using hx), ih, hz x (by simp) hx]
        rfl
  obtain ⟨h1, h2, h3, h4, h5, h6⟩ := h
  have hmemf : ∀ c s, (c, some s) ∈ l → (c, some s) ∈ l.filter fun x => decide (0 < x.1) := by
    intro c s hm
    by_cases hc : 0 < c
    · exact List.mem_filter.mpr ⟨hm, by simpa using hc⟩
    · have := hz _ hm hc
      simp at this
  have hsumf : ∀ l : List (Int × Option Int), (∀ x ∈ l, ¬ 0 < x.1 → x = (0, none)) →
      ((l.filter fun x => decide (0 < x.1)).map (·.1)).sum = (l.map (·.1)).sum := by
    intro l
    induction l with
    | nil => intro _; rfl
    | cons x xs ih =>
      intro hz
      have ih := ih (fun y hy => hz y (by simp [hy]))
      rw [List.filter_cons]
      by_cases hx : 0 < x.1
      · rw [if_pos (by simpa using hx), List.map_cons, List.map_cons, List.sum_cons,
          List.sum_cons, ih]
      · rw [if_neg (by simpa using hx), ih, hz x (by simp) hx]
        simp
  refine ⟨?_, ?_, ?_, ?_, ?_, ?_⟩
  · intro c s hm
    by_cases hc : 0 < c
    · exact h1 c s (List.mem_filter.mpr ⟨hm, by simpa using hc⟩)
    · have := hz _ hm hc
      simp at this
  · rw [List.pairwise_filter] at h2
    refine List.Pairwise.imp_of_mem ?_ h2
    intro a b ha hb hab
    by_cases hpa : 0 < a.1 <;> by_cases hpb : 0 < b.1
    · exact hab (by simpa using hpa) (by simpa using hpb)
    · have e := hz b hb hpb
      rw [e]
      simp; intro _; omega
    · have e := hz a ha hpa
      rw [e]
      simp; intro _; omega
    · rw [hz a ha hpa, hz b hb hpb]
      simp
  · rw [← hfm l hz, h3, List.filter_filter]
    simp
  · rw [← hfm l hz]
    exact h4
  · intro c s c' s' hm hm' hlt
    exact h5 c s c' s' (hmemf _ _ hm) (hmemf _ _ hm') hlt
  · intro hle c s hm
    exact h6 (by rw [hsumf l hz]; exact hle) c s (hmemf _ _ hm)

/-! ### Limiting -/

theorem mul_bound {a b s t : Int} (h0 : 0 ≤ a) (h1 : a ≤ b) (h2 : 0 ≤ s) (h3 : s ≤ t)
    (h : b * t < 2 ^ 63) : a * s < 2 ^ 63 := by
  have h4 : a * s ≤ a * t := by nlinarith
  have h5 : a * t ≤ b * t := by nlinarith
  omega

theorem total_le_sum (xs : List Annot) (h : ∀ x ∈ xs, 0 < x.total) :
    0 ≤ sumTotals xs ∧ ∀ x ∈ xs, x.total ≤ sumTotals xs := by
  induction xs with
  | nil => simp [sumTotals]
  | cons y ys ih =>
    obtain ⟨h1, h2⟩ := ih (fun x hx => h x (by simp [hx]))
    have hy := h y (by simp)
    simp only [sumTotals, List.map_cons, List.sum_cons] at *
    refine ⟨by omega, ?_⟩
    intro x hx
    rcases List.mem_cons.mp hx with rfl | hx
    · omega
    · have := h2 x hx; omega

/-- What is known of a limited tree. -/
structure Limited (f : Link → Bool) (s : Int) (t : Tree) (y : Annot) : Prop where
  counted : Counted f y t
  exact : Exact y
  le : y.filtered ≤ s
  total : y.total = matches_ f t
  nonempty : 1 ≤ s → 0 < matches_ f t → 0 < y.filtered
  shared : Shared f s t y
  full : matches_ f t ≤ s → links y.erase = matching f t

theorem exact_length {y : Annot} (h : Exact y) : y.filtered = ((links y.erase).length : Int) := by
  cases h with
  | body h => simpa [Annot.filtered, Annot.erase, links] using h
  | node h _ => simpa [Annot.filtered, Annot.erase, links] using h

theorem exactAll_length {ys : List Annot} (h : ExactAll ys) :
    sumFiltered ys = ((linksAll (Annot.eraseAll ys)).length : Int) := by
  induction ys with
  | nil => simp [sumFiltered, Annot.eraseAll, linksAll]
  | cons y ys ih =>
    cases h with
    | cons h1 h2 h3 =>
      have := ih h3
      have := exact_length h1
      simp only [sumFiltered, List.map_cons, List.sum_cons, Annot.eraseAll, linksAll,
        List.length_append] at *
      omega

theorem sharedAll_nil {f : Link → Bool} {sh : List (Option Int)} {ts : List Tree}
    (h : SharedAll f sh ts []) : sh.filterMap id = [] := by
  induction ts generalizing sh with
  | nil => cases h; rfl
  | cons t ts ih =>
    cases h with
    | drop h => rw [List.filterMap_cons_none (by rfl)]; exact ih h

mutual
theorem matching_nil (f : Link → Bool) (t : Tree) (h : matches_ f t = 0) : matching f t = [] := by
  match t with
  | .body ls =>
    simp only [matches_, links] at h
    have : ls.filter f = [] := List.length_eq_zero_iff.mp (by omega)
    simp [matching, this, firstByUrl]
  | .node p cs =>
    simp only [matching]
    exact matchingAll_nil f cs (by simpa [matches_, links] using h)
theorem matchingAll_nil (f : Link → Bool) (ts : List Tree)
    (h : (((linksAll ts).filter f).length : Int) = 0) : matchingAll f ts = [] := by
  match ts with
  | [] => rfl
  | t :: ts =>
    simp only [linksAll, List.filter_append, List.length_append] at h
    rw [matchingAll, matching_nil f t (by unfold matches_; omega), matchingAll_nil f ts (by omega)]
    rfl
end

mutual
theorem limited_tree (f : Link → Bool) (t : Tree) (x : Annot) (hx : countA f t = some x) (s : Int)
    (hs : 0 ≤ s) (hs1 : (∃ ls, t = .body ls) → 1 ≤ s) (hlt : x.total * s < 2 ^ 63) :
    ∃ y, filterA s x = .ok y ∧ Limited f s t y := by
  match t with
  | .body ls =>
    have hs1 := hs1 ⟨ls, rfl⟩
    simp only [countA] at hx
    split at hx
    · simp at hx
    · rename_i hne
      injection hx with hx
      subst hx
      have hne' : ls.filter f ≠ [] := fun e => hne (by rw [e]; rfl)
      refine ⟨.body (ls.filter f).length ((firstByUrl [] (ls.filter f)).take s.toNat).length
        ((firstByUrl [] (ls.filter f)).take s.toNat), ?_, ?_, ?_, ?_, ?_, ?_, ?_, ?_⟩
      · simp only [filterA, limitLeaf_spec _ _ hs1 hne', Res.bind_ok]
      · exact .body rfl ((List.take_sublist _ _).trans (firstByUrl_sublist _ _))
      · exact .body rfl
      · simp only [Annot.filtered, List.length_take]; omega
      · simp [Annot.total, matches_, links]
      · intro _ _
        have : (firstByUrl [] (ls.filter f)).length ≠ 0 :=
          fun h => firstByUrl_ne hne' (List.length_eq_zero_iff.mp h)
        simp only [Annot.filtered, List.length_take]; omega
      · exact .body
      · intro hle
        simp only [matches_, links] at hle
        simp only [Annot.erase, links, matching]
        exact List.take_of_length_le (by
          have := (firstByUrl_sublist [] (ls.filter f)).length_le
          omega)
  | .node p cs =>
    simp only [countA] at hx
    injection hx with hx
    subst hx
    have hpos := countAs_pos f cs
    obtain ⟨hnn, htl⟩ := total_le_sum _ hpos
    simp only [Annot.total] at hlt
    have hm : sumTotals (countAs f cs) = matches_ f (.node p cs) := by
      rw [countAs_total]; rfl
    by_cases hempty : (countAs f cs).length = 0
    · have he : countAs f cs = [] := List.eq_nil_of_length_eq_zero hempty
      have hm0 : matches_ f (.node p cs) = 0 := by rw [← hm, he]; rfl
      -- nothing matches
      have hno : ∀ ts : List Tree, countAs f ts = [] → CountedAll f [] ts ∧
          SharedAll f (ts.map fun _ => none) ts [] ∧ matchingAll f ts = [] ∧
          ∀ t ∈ ts, matches_ f t = 0 := by
        intro ts hts
        induction ts with
        | nil => exact ⟨.nil, .nil, rfl, by simp⟩
        | cons t ts ih =>
          rcases countAs_cons f t ts with ⟨x, _, _, e⟩ | ⟨h0, e⟩
          · rw [hts] at e; simp at e
          · obtain ⟨i1, i2, i3, i4⟩ := ih (by rw [← e, hts])
            refine ⟨.drop i1, .drop i2, ?_, ?_⟩
            · rw [matchingAll, i3, matching_nil f t h0]; rfl
            · intro u hu
              rcases List.mem_cons.mp hu with rfl | hu
              · exact h0
              · exact i4 u hu
      obtain ⟨c1, c2, c3, c4⟩ := hno cs he
      refine ⟨.node (sumTotals (countAs f cs)) 0 p [], ?_, ?_, ?_, ?_, ?_, ?_, ?_, ?_⟩
      · simp only [filterA, he, List.length_nil, if_true]
      · refine .node ?_ c1
        rw [hm]; rfl
      · exact .node (by simp [Annot.eraseAll, linksAll]) .nil
      · exact hs
      · exact hm
      · intro _ h; omega
      · refine .node (sh := cs.map fun _ => none) (by simp) ?_ c2
        have hz : (cs.map (matches_ f)).zip (cs.map fun _ => (none : Option Int)) =
            cs.map fun _ => (0, none) := by
          rw [List.zip_map']
          apply List.map_congr_left
          intro t ht
          rw [c4 t ht]
        rw [hz]
        have hfm : (cs.map fun _ => ((0, none) : Int × Option Int)).filterMap (·.2) = [] := by
          rw [List.filterMap_eq_nil_iff]
          intro a ha
          obtain ⟨_, _, rfl⟩ := List.mem_map.mp ha
          rfl
        refine ⟨?_, ?_, ?_, ?_, ?_, ?_⟩
        · intro c s' hmem
          obtain ⟨_, _, e⟩ := List.mem_map.mp hmem
          simp at e
        · rw [List.pairwise_map]
          exact List.pairwise_of_forall (by simp)
        · rw [hfm, List.filter_eq_nil_iff.mpr]
          · simp; omega
          · intro a ha
            obtain ⟨_, _, rfl⟩ := List.mem_map.mp ha
            simp
        · intro h; exact absurd hfm h
        · intro c s' c' s'' hmem
          obtain ⟨_, _, e⟩ := List.mem_map.mp hmem
          simp at e
        · intro _ c s' hmem
          obtain ⟨_, _, e⟩ := List.mem_map.mp hmem
          simp at e
      · intro _
        simp only [Annot.erase, Annot.eraseAll, links, linksAll, matching, c3]
    · have hsum : ((countAs f cs).map Annot.total).sum = sumTotals (countAs f cs) := rfl
      obtain ⟨sh, e1, e2, e3, e4⟩ := limitShares_spec ((countAs f cs).map Annot.total) s
        (by intro c hc
            obtain ⟨x, hx, rfl⟩ := List.mem_map.mp hc
            exact hpos x hx) hs (by rw [hsum]; exact hlt)
      obtain ⟨ys, f1, f2, f3, f4, f5, f6⟩ := limited_trees f cs sh 0
        (by intro j x s' hj hl
            obtain ⟨g1, g2⟩ := e3 _ s' hl
            have hxm : x ∈ countAs f cs := List.mem_of_getElem? hj
            exact ⟨g1, mul_bound (Int.le_of_lt (hpos x hxm)) (htl x hxm) (by omega) g2 hlt⟩)
      have hch : Choice s ((cs.map (matches_ f)).zip (sharesT f sh 0 cs)) := by
        obtain ⟨k1, k2⟩ := sharesT_filter f sh cs 0
        refine Choice.insert ?_ k2
        rw [k1, ← pairsC_eq]
        exact e2
      have hfmz : ((cs.map (matches_ f)).zip (sharesT f sh 0 cs)).filterMap (·.2) =
          (sharesT f sh 0 cs).filterMap id := by
        have : (sharesT f sh 0 cs).filterMap id =
            (((cs.map (matches_ f)).zip (sharesT f sh 0 cs)).map Prod.snd).filterMap id := by
          rw [List.map_snd_zip (by rw [sharesT_length]; simp)]
        rw [this, List.filterMap_map]
        rfl
      have hsumle : ((sharesT f sh 0 cs).filterMap id).sum ≤ s := by
        rw [← hfmz]
        by_cases hn : ((cs.map (matches_ f)).zip (sharesT f sh 0 cs)).filterMap (·.2) = []
        · rw [hn]; simpa using hs
        · rw [hch.total hn]
      refine ⟨.node (sumTotals (countAs f cs)) (sumFiltered ys) p ys, ?_, ?_, ?_, ?_, ?_, ?_, ?_, ?_⟩
      · simp only [filterA]
        rw [if_neg hempty, e1]
        simp only [Res.bind_ok]
        rw [f1]
        rfl
      · refine .node ?_ f2
        rw [hm]; rfl
      · exact .node (exactAll_length f3) f3
      · simp only [Annot.filtered]; omega
      · exact hm
      · intro h1 hpos'
        -- some child is kept, so it is not empty
        have hne : ((cs.map (matches_ f)).zip (sharesT f sh 0 cs)).filterMap (·.2) ≠ [] := by
          intro hnil
          have := hch.number
          rw [hnil, (sharesT_filter f sh cs 0).1] at this
          have hl : (pairsFrom sh 0 ((countAs f cs).map Annot.total)).length ≠ 0 := by
            rw [← pairsC_eq]; simpa [pairsC] using hempty
          simp only [List.length_nil] at this
          omega
        have hys : ys ≠ [] := by
          intro hy
          rw [hy] at f5
          rw [hfmz] at hne
          exact hne (sharedAll_nil f5)
        cases f3 with
        | nil => exact absurd rfl hys
        | cons g1 g2 g3 =>
          have := exactAll_length g3
          simp only [Annot.filtered, sumFiltered, List.map_cons, List.sum_cons] at this ⊢
          rename_i a as
          have : 0 ≤ (as.map Annot.filtered).sum := by
            rw [this]; omega
          have := g2
          simp only [Annot.filtered] at this
          omega
      · exact .node (sharesT_length f sh cs 0) hch f5
      · intro hle
        simp only [Annot.erase, links, matching]
        apply f6
        intro j x hj
        have hle' : ((countAs f cs).map Annot.total).sum ≤ s := by rw [hsum, hm]; exact hle
        obtain ⟨s', g1, g2⟩ := e4 hle' j x.total (by rw [List.getElem?_map, hj]; rfl)
        exact ⟨s', by simpa using g1, g2⟩
theorem limited_trees (f : Link → Bool) (ts : List Tree) (sh : List (Nat × Int)) (i : Nat)
    (hsh : ∀ (j : Nat) (x : Annot) (s : Int), (countAs f ts)[j]? = some x →
      sh.lookup (i + j) = some s → 1 ≤ s ∧ x.total * s < 2 ^ 63) :
    ∃ ys, filterPick sh i (countAs f ts) = .ok ys ∧ CountedAll f ys ts ∧ ExactAll ys ∧
      sumFiltered ys ≤ ((sharesT f sh i ts).filterMap id).sum ∧
      SharedAll f (sharesT f sh i ts) ts ys ∧
      ((∀ (j : Nat) (x : Annot), (countAs f ts)[j]? = some x →
          ∃ s, sh.lookup (i + j) = some s ∧ x.total ≤ s) →
        linksAll (Annot.eraseAll ys) = matchingAll f ts) := by
  match ts with
  | [] =>
    exact ⟨[], by simp [countAs, filterPick], .nil, .nil, by simp [sumFiltered, sharesT], .nil,
      fun _ => rfl⟩
  | t :: ts =>
    rcases countAs_cons f t ts with ⟨x, hx, hp, e⟩ | ⟨h0, e⟩
    · have hm := countA_some_total hx
      have hpos : 0 < matches_ f t := by omega
      rw [e] at hsh ⊢
      obtain ⟨ys, f1, f2, f3, f4, f5, f6⟩ := limited_trees f ts sh (i + 1)
        (fun j y s hj hl => hsh (j + 1) y s (by simpa using hj)
          (by rw [← hl]; congr 1; omega))
      simp only [filterPick, sharesT, if_pos hpos]
      cases hl : sh.lookup i with
      | none =>
        refine ⟨ys, f1, .drop f2, f3, ?_, .drop f5, ?_⟩
        · rw [List.filterMap_cons_none (by rfl)]; exact f4
        · intro hall
          obtain ⟨s, hs, _⟩ := hall 0 x rfl
          rw [Nat.add_zero, hl] at hs
          simp at hs
      | some s =>
        obtain ⟨g1, g2⟩ := hsh 0 x s rfl hl
        obtain ⟨y, hy, hL⟩ := limited_tree f t x hx s (by omega) (fun _ => g1) g2
        have hyt : 0 < y.total := by rw [hL.total]; exact hpos
        refine ⟨y :: ys, ?_, .keep hL.counted hyt f2, .cons hL.exact (hL.nonempty g1 hpos) f3, ?_,
          .keep hL.shared f5, ?_⟩
        · simp only [hy, Res.bind_ok, f1]
        · rw [List.filterMap_cons_some (b := s) (by rfl)]
          have := hL.le
          simp only [sumFiltered, List.map_cons, List.sum_cons] at f4 ⊢
          omega
        · intro hall
          obtain ⟨s', hs, hle⟩ := hall 0 x rfl
          rw [Nat.add_zero, hl] at hs
          injection hs with hs
          subst hs
          simp only [Annot.eraseAll, linksAll, matchingAll]
          rw [hL.full (by omega), f6]
          intro j y' hj
          obtain ⟨s'', k1, k2⟩ := hall (j + 1) y' (by simpa using hj)
          exact ⟨s'', by rw [← k1]; congr 1; omega, k2⟩
    · have hpos : ¬ 0 < matches_ f t := by omega
      rw [e] at hsh ⊢
      obtain ⟨ys, f1, f2, f3, f4, f5, f6⟩ := limited_trees f ts sh i hsh
      simp only [sharesT, if_neg hpos]
      refine ⟨ys, f1, .drop f2, f3, ?_, .drop f5, ?_⟩
      · rw [List.filterMap_cons_none (by rfl)]; exact f4
      · intro hall
        rw [f6 hall, matchingAll, matching_nil f t h0]; rfl
end

end Burl.Tree
