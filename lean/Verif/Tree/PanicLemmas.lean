import Verif.Tree.PureLemmas
/-! Panics of `FilterChildrenCount`, and facts about every reply whatever the limit is. -/
namespace Burl.Tree
open Burl.Tree.Spec

mutual
theorem filter_tree_panic (x : Annot) (t : Int) (h : Heap) (a : Addr) (fp : List Addr)
    (hr : RepA h (setTarget t x) a fp) (hnd : fp.Nodup) (hx : filterA t x = .panic) (q : Queue) :
    Loop filterDone filterBody (h, (a, false) :: q) .panic := by
  match x with
  | .body c t0 ls =>
    simp only [RepA, setTarget] at hr
    obtain ⟨n, rfl, h1, h2⟩ := hr
    simp only [filterA] at hx
    cases hl : limitLeaf ls t with
    | err e => exact e.elim
    | ok ls' => rw [hl] at hx; simp at hx
    | panic =>
      refine .panic rfl ?_
      simp [filterBody, pop, load_ok h1, limitChildrenCount, load_ok h2, hl]
  | .node c t0 p cs =>
    simp only [RepA, setTarget] at hr
    obtain ⟨n, as, fps, rfl, h1, h2, h3⟩ := hr
    simp only [filterA] at hx
    simp only [List.nodup_cons, List.mem_cons, not_or] at hnd
    obtain ⟨⟨han, haf⟩, hnf, hfnd⟩ := hnd
    obtain ⟨hlen, hkn, hsub⟩ := RepAs.length_eq _ _ _ h3
    by_cases hempty : cs.length = 0
    · rw [if_pos hempty] at hx; simp at hx
    · rw [if_neg hempty] at hx
      have hne : ¬ as.length = 0 := by rw [hlen]; exact hempty
      cases hsh : limitShares (cs.map Annot.total) t with
      | err e => exact e.elim
      | panic =>
        refine .panic rfl ?_
        have hlim : limitChildrenCount h n t = .panic := by
          unfold limitChildrenCount
          rw [load_ok h2]
          simp only [Res.bind_ok]
          rw [if_neg hne, readCounts_rep _ _ _ h3]
          simp only [Res.bind_ok]
          rw [hsh]
          rfl
        simp [filterBody, pop, load_ok h1, hlim]
      | ok sh =>
        rw [hsh] at hx
        simp only [Res.bind_ok] at hx
        cases hp : filterPick sh 0 cs with
        | err e => exact e.elim
        | ok cs' => rw [hp] at hx; simp at hx
        | panic =>
          obtain ⟨w1, w2, w3⟩ := writeShares as (hkn hfnd) sh h (limitShares_nodup hsh)
          have hna : n ∉ as := fun hm => hnf (hsub n hm)
          generalize hg : sh.foldl (writeShare as) h = g at w1 w2 w3
          have en : (g.set n (.node p (keepChildren sh 0 as)))[n]? =
              some (.node p (keepChildren sh 0 as)) := by
            rw [List.getElem?_set_self (by rw [w1]; exact lt_of_lookup h2)]
          obtain ⟨fps1, k1, k2⟩ := RepAs.pick (h' := g.set n (.node p (keepChildren sh 0 as))) sh
            cs as fps 0 h3 hfnd
            (by intro j b c' t' n' hj hb
                have hbn : n ≠ b := fun e => hna (e ▸ List.mem_of_getElem? hj)
                rw [List.getElem?_set_ne hbn, w3 j b c' t' n' hj hb, Nat.zero_add])
            (by intro b hb hba
                have hbn : n ≠ b := fun e => hnf (e ▸ hb)
                rw [List.getElem?_set_ne hbn, w2 b hba])
          have hloop := filter_picks_panic cs sh 0
            (g.set n (.node p (keepChildren sh 0 as))) (keepChildren sh 0 as) fps1 k1
            (hfnd.sublist k2) hp ((a, true) :: q)
          refine .step (s' := (g.set n (.node p (keepChildren sh 0 as)),
              (keepChildren sh 0 as).reverse.map (·, false) ++ (a, true) :: q)) rfl ?_ hloop
          have hlim : limitChildrenCount h n t =
              .ok (g.set n (.node p (keepChildren sh 0 as))) := by
            unfold limitChildrenCount
            rw [load_ok h2]
            simp only [Res.bind_ok]
            rw [if_neg hne, readCounts_rep _ _ _ h3]
            simp only [Res.bind_ok]
            rw [hsh]
            simp only [Res.bind_ok, hg]
          simp [filterBody, pop, load_ok h1, hlim, childrenNodes, load_ok en, pushAll]
theorem filter_picks_panic (xs : List Annot) (sh : List (Nat × Int)) (i : Nat) (h : Heap)
    (as fps : List Addr) (hr : RepAs h (pickA sh i xs) as fps) (hnd : fps.Nodup)
    (hx : filterPick sh i xs = .panic) (q : Queue) :
    Loop filterDone filterBody (h, as.reverse.map (·, false) ++ q) .panic := by
  match xs with
  | [] => simp [filterPick] at hx
  | x :: xs =>
    cases hl : sh.lookup i with
    | none =>
      simp only [pickA, hl] at hr
      simp only [filterPick, hl] at hx
      exact filter_picks_panic xs sh (i + 1) h as fps hr hnd hx q
    | some s =>
      simp only [pickA, hl, RepAs] at hr
      obtain ⟨a, as', f1, f2, rfl, rfl, h1, h2⟩ := hr
      rw [List.nodup_append] at hnd
      obtain ⟨hn1, hn2, hdis⟩ := hnd
      simp only [filterPick, hl] at hx
      simp only [List.reverse_cons, List.map_append, List.map_cons, List.map_nil,
        List.append_assoc, List.singleton_append]
      cases hB : filterPick sh (i + 1) xs with
      | err e => exact e.elim
      | panic => exact filter_picks_panic xs sh (i + 1) h as' f2 h2 hn2 hB ((a, false) :: q)
      | ok xs1 =>
        obtain ⟨g, g2, s1, s2, s3, s4⟩ := filter_picks xs sh (i + 1) h as' f2 h2 hn2 xs1 hB
          ((a, false) :: q)
        have hx1 : RepA g (setTarget s x) a f1 := RepA.frame _ _ _ h1
          (fun j hj => s4.2 j (fun hm => hdis j hj j hm rfl))
        cases hA : filterA s x with
        | err e => exact e.elim
        | ok x1 => rw [hA, hB] at hx; simp at hx
        | panic => exact s1.loop (filter_tree_panic x s g a f1 hx1 hn1 hA q)
end

theorem filterChildrenCount_panic (x : Annot) (t : Int) (h : Heap) (a : Addr) (fp : List Addr)
    (hr : RepA h x a fp) (hnd : fp.Nodup) (hx : filterA t x = .panic) :
    FilterChildrenCount h a t .panic := by
  obtain ⟨⟨n, ha⟩, ham⟩ := RepA.head hr
  have hr' : RepA (h.set a (.count x.total t n)) (setTarget t x) a fp := by
    refine RepA.retarget hr hnd ?_ ?_
    · intro c t0 n0 e
      rw [ha] at e
      injection e with e
      injection e with e1 e2 e3
      subst e1 e3
      rw [List.getElem?_set_self (lt_of_lookup ha)]
    · intro i _ hia
      rw [List.getElem?_set_ne (Ne.symm hia)]
  unfold FilterChildrenCount
  rw [ha]
  exact ⟨.panic, filter_tree_panic x t _ a fp hr' hnd hx [], rfl⟩

/-! ### Every reply -/

theorem handOut_nonzero (l : List (Nat × Int)) : ∀ S T, ∀ x ∈ handOut l S T, x.2 ≠ 0 := by
  induction l with
  | nil => intro S T x hx; simp [handOut] at hx
  | cons e es ih =>
    intro S T x hx
    simp only [handOut, List.mem_cons] at hx
    rcases hx with rfl | hx
    · simp only; split <;> omega
    · exact ih _ _ x hx

theorem handOut_keys (l : List (Nat × Int)) : ∀ S T, (handOut l S T).map (·.1) = l.map (·.1) := by
  induction l with
  | nil => intros; rfl
  | cons e es ih => intro S T; simp only [handOut, List.map_cons, ih]

/-- Shares whatever the target is. -/
theorem limitShares_any {counts : List Int} {t : Int} {sh : List (Nat × Int)}
    (h : limitShares counts t = .ok sh) (hne : counts ≠ []) (hpos : ∀ c ∈ counts, 0 < c) :
    0 ≤ t ∧ (∀ i s, sh.lookup i = some s → s ≠ 0) ∧
      (t ≠ 0 → ∃ i s, i < counts.length ∧ sh.lookup i = some s) := by
  have hnz : ∀ l S T, sh = handOut l S T → ∀ i s, sh.lookup i = some s → s ≠ 0 := by
    intro l S T e i s hs
    rw [e] at hs
    exact handOut_nonzero l S T _ (mem_of_lookup hs)
  have hWpos : ∀ x ∈ sortStable ((List.range counts.length).zip counts), 0 < x.2 := by
    intro x hx
    exact hpos _ (List.of_mem_zip ((sortStable_perm _).subset hx)).2
  have hWlt : ∀ x ∈ sortStable ((List.range counts.length).zip counts), x.1 < counts.length := by
    intro x hx
    exact List.mem_range.mp (List.of_mem_zip ((sortStable_perm _).subset hx)).1
  have hlen : (sortStable ((List.range counts.length).zip counts)).length = counts.length := by
    rw [(sortStable_perm _).length_eq]; simp
  have hcl : 0 < counts.length := by
    rcases counts with _ | _
    · exact absurd rfl hne
    · simp
  have hex : ∀ l : List (Nat × Int), l ≠ [] → (∀ x ∈ l, 0 < x.2) → (∀ x ∈ l, x.1 < counts.length) →
      ∀ S T, sh = handOut (l.takeWhile fun x => decide (x.2 > 0)).reverse S T →
      ∃ i s, i < counts.length ∧ sh.lookup i = some s := by
    intro l hl hp hlt S T e
    rcases l with _ | ⟨x, xs⟩
    · exact absurd rfl hl
    · have hm : x.1 ∈ sh.map (·.1) := by
        rw [e, handOut_keys, List.map_reverse, List.mem_reverse, List.takeWhile_cons,
          if_pos (by simpa using hp x (by simp))]
        simp
      obtain ⟨y, hy, e2⟩ := List.mem_map.mp hm
      have := lookup_some_of_mem (limitShares_nodup h) (k := y.1) (s := y.2) hy
      exact ⟨y.1, y.2, by rw [e2]; exact hlt x (by simp), this⟩
  unfold limitShares at h
  simp only at h
  split at h
  · rename_i hlt
    split at h
    · simp at h
    · rename_i h0
      simp only [Res.bind_ok] at h
      injection h with h
      refine ⟨by omega, hnz _ _ _ h.symm, ?_⟩
      intro ht
      refine hex _ ?_ ?_ ?_ _ _ h.symm
      · intro e
        have := congrArg List.length e
        rw [List.length_take] at this
        simp only [List.length_nil] at this
        omega
      · intro x hx; exact hWpos x (List.mem_of_mem_take hx)
      · intro x hx; exact hWlt x (List.mem_of_mem_take hx)
  · rename_i hge
    simp only [Res.bind_ok] at h
    injection h with h
    refine ⟨by omega, hnz _ _ _ h.symm, ?_⟩
    intro _
    refine hex _ ?_ hWpos hWlt _ _ h.symm
    intro e
    have := congrArg List.length e
    simp only [List.length_nil] at this
    omega

/-- What holds for every reply, whatever the limit is. -/
structure AnyReply (f : Link → Bool) (s : Int) (t : Tree) (y : Annot) : Prop where
  counted : Counted f y t
  exact : Exact y
  total : y.total = matches_ f t
  nonempty : s ≠ 0 → 0 < matches_ f t → 0 < y.filtered

mutual
theorem any_tree (f : Link → Bool) (t : Tree) (x : Annot) (hx : countA f t = some x) (s : Int)
    (y : Annot) (hy : filterA s x = .ok y) : AnyReply f s t y := by
  match t with
  | .body ls =>
    simp only [countA] at hx
    split at hx
    · simp at hx
    · rename_i hne
      injection hx with hx
      subst hx
      have hne' : ls.filter f ≠ [] := fun e => hne (by rw [e]; rfl)
      simp only [filterA] at hy
      cases hl : limitLeaf (ls.filter f) s with
      | err e => exact e.elim
      | panic => rw [hl] at hy; simp at hy
      | ok ls' =>
        rw [hl] at hy
        simp only [Res.bind_ok] at hy
        injection hy with hy
        subst hy
        have hlen : (ls.filter f).length ≠ 0 := fun h => hne' (List.length_eq_zero_iff.mp h)
        have hds : ∀ (T : Int) (l : List Link) (seen : List Str) (n : Int),
            (dedupLoop T l seen n).Sublist l := by
          intro T l
          induction l with
          | nil => intro seen n; exact List.Sublist.refl _
          | cons a as ih =>
            intro seen n
            unfold dedupLoop
            split
            · exact (ih _ _).cons a
            · split
              · exact (List.nil_sublist _).cons_cons a
              · exact (ih _ _).cons_cons a
        unfold limitLeaf at hl
        rw [if_neg hlen] at hl
        simp only at hl
        obtain ⟨T, hT, hls⟩ : ∃ T, 0 ≤ T ∧ ls' = dedupLoop T (ls.filter f) [] 0 := by
          split at hl
          · split at hl
            · simp at hl
            · injection hl with hl; exact ⟨_, by omega, hl.symm⟩
          · split at hl
            · simp at hl
            · injection hl with hl; exact ⟨_, by omega, hl.symm⟩
        refine ⟨.body rfl (hls ▸ hds _ _ _ _), .body rfl, by simp [Annot.total, matches_, links], ?_⟩
        intro _ _
        simp only [Annot.filtered]
        rw [hls]
        cases hL : ls.filter f with
        | nil => exact absurd hL hne'
        | cons a as => simp [dedupLoop]
  | .node p cs =>
    simp only [countA] at hx
    injection hx with hx
    subst hx
    have hpos := countAs_pos f cs
    have hm : sumTotals (countAs f cs) = matches_ f (.node p cs) := by
      rw [countAs_total]; rfl
    simp only [filterA] at hy
    by_cases hempty : (countAs f cs).length = 0
    · rw [if_pos hempty] at hy
      injection hy with hy
      subst hy
      have he : countAs f cs = [] := List.eq_nil_of_length_eq_zero hempty
      have hm0 : matches_ f (.node p cs) = 0 := by rw [← hm, he]; rfl
      have hno : ∀ ts : List Tree, CountedAll f [] ts := by
        intro ts
        induction ts with
        | nil => exact .nil
        | cons t ts ih => exact .drop ih
      refine ⟨.node ?_ (hno cs), .node (by simp [Annot.eraseAll, linksAll]) .nil, hm,
        fun _ h => by omega⟩
      rw [hm]; rfl
    · rw [if_neg hempty] at hy
      cases hsh : limitShares ((countAs f cs).map Annot.total) s with
      | err e => exact e.elim
      | panic => rw [hsh] at hy; simp at hy
      | ok sh =>
        rw [hsh] at hy
        simp only [Res.bind_ok] at hy
        cases hp : filterPick sh 0 (countAs f cs) with
        | err e => exact e.elim
        | panic => rw [hp] at hy; simp at hy
        | ok ys =>
          rw [hp] at hy
          simp only [Res.bind_ok] at hy
          injection hy with hy
          subst hy
          obtain ⟨e1, e2, e3⟩ := limitShares_any hsh
            (by intro e; exact hempty (by simpa using congrArg List.length e))
            (by intro c hc
                obtain ⟨x, hx, rfl⟩ := List.mem_map.mp hc
                exact hpos x hx)
          obtain ⟨f2, f3, f4⟩ := any_trees f cs sh 0 e2 ys hp
          refine ⟨.node (by rw [hm]; rfl) f2, .node (exactAll_length f3) f3, hm, ?_⟩
          intro hs _
          obtain ⟨i, s', hi, hl⟩ := e3 hs
          have hys : ys ≠ [] := f4 ⟨i, s', by simpa using hi, by simpa using hl⟩
          cases f3 with
          | nil => exact absurd rfl hys
          | cons g1 g2 g3 =>
            rename_i a as
            have h1 := exactAll_length g3
            simp only [Annot.filtered, sumFiltered, List.map_cons, List.sum_cons] at h1 ⊢
            have h2 : 0 ≤ (as.map Annot.filtered).sum := by
              rw [h1]; omega
            have h3 := g2
            simp only [Annot.filtered] at h3
            omega
theorem any_trees (f : Link → Bool) (ts : List Tree) (sh : List (Nat × Int)) (i : Nat)
    (hsh : ∀ j s, sh.lookup j = some s → s ≠ 0) (ys : List Annot)
    (hy : filterPick sh i (countAs f ts) = .ok ys) :
    CountedAll f ys ts ∧ ExactAll ys ∧
      ((∃ j s, j < (countAs f ts).length ∧ sh.lookup (i + j) = some s) → ys ≠ []) := by
  match ts with
  | [] =>
    simp only [countAs, filterPick] at hy
    injection hy with hy
    subst hy
    exact ⟨.nil, .nil, by rintro ⟨j, s, h, _⟩; simp [countAs] at h⟩
  | t :: ts =>
    rcases countAs_cons f t ts with ⟨x, hx, hp, e⟩ | ⟨h0, e⟩
    · have hm := countA_some_total hx
      have hpos : 0 < matches_ f t := by omega
      rw [e] at hy ⊢
      simp only [filterPick] at hy
      cases hl : sh.lookup i with
      | none =>
        rw [hl] at hy
        simp only at hy
        obtain ⟨f1, f2, f3⟩ := any_trees f ts sh (i + 1) hsh ys hy
        refine ⟨.drop f1, f2, ?_⟩
        rintro ⟨j, s, hj, hs⟩
        cases j with
        | zero => rw [Nat.add_zero, hl] at hs; simp at hs
        | succ j =>
          exact f3 ⟨j, s, by simpa using hj, by rw [← hs]; congr 1; omega⟩
      | some s =>
        rw [hl] at hy
        simp only at hy
        cases hA : filterA s x with
        | err e => exact e.elim
        | panic => rw [hA] at hy; simp at hy
        | ok y =>
          rw [hA] at hy
          simp only [Res.bind_ok] at hy
          cases hB : filterPick sh (i + 1) (countAs f ts) with
          | err e => exact e.elim
          | panic => rw [hB] at hy; simp at hy
          | ok ys' =>
            rw [hB] at hy
            simp only [Res.bind_ok] at hy
            injection hy with hy
            subst hy
            obtain ⟨f1, f2, f3⟩ := any_trees f ts sh (i + 1) hsh ys' hB
            have hr := any_tree f t x hx s y hA
            exact ⟨.keep hr.counted (by rw [hr.total]; exact hpos) f1,
              .cons hr.exact (hr.nonempty (hsh i s hl) hpos) f2, by simp⟩
    · rw [e] at hy ⊢
      obtain ⟨f1, f2, f3⟩ := any_trees f ts sh i hsh ys hy
      exact ⟨.drop f1, f2, f3⟩
end

mutual
theorem counted_le {f : Link → Bool} (y : Annot) (t : Tree) (h : Counted f y t) :
    ((links y.erase).length : Int) ≤ matches_ f t := by
  match y, t, h with
  | _, _, .body (n := n) (k := k) (ls := ls) (ls' := ls') _ h2 =>
    have := h2.length_le
    simp only [Annot.erase, links, matches_]
    omega
  | _, _, .node (p := p) (cs := cs) (cs' := cs') _ h2 =>
    have := countedAll_le cs cs' h2
    simp only [Annot.erase, links, matches_]
    exact this
theorem countedAll_le {f : Link → Bool} (ys : List Annot) (ts : List Tree)
    (h : CountedAll f ys ts) :
    ((linksAll (Annot.eraseAll ys)).length : Int) ≤ (((linksAll ts).filter f).length : Int) := by
  match ys, ts, h with
  | _, _, .nil => simp [Annot.eraseAll, linksAll]
  | _, _, .keep (a := a) (t := t) (as := as) (ts := ts) h1 _ h3 =>
    have h4 := counted_le a t h1
    have h5 := countedAll_le as ts h3
    simp only [Annot.eraseAll, linksAll, List.length_append, List.filter_append]
    unfold matches_ at h4
    omega
  | ys, _, .drop (t := t) (ts := ts) h3 =>
    have h5 := countedAll_le ys ts h3
    simp only [linksAll, List.length_append, List.filter_append]
    omega
end

/-- A negative limit panics as soon as anything matches. -/
theorem filterA_negative (f : Link → Bool) (p : Props) (cs : List Tree) (s : Int) (hs : s < 0)
    (hm : 0 < matches_ f (.node p cs)) :
    filterA s (.node (sumTotals (countAs f cs)) 0 p (countAs f cs)) = .panic := by
  have hm' : sumTotals (countAs f cs) = matches_ f (.node p cs) := by
    rw [countAs_total]; rfl
  have hne : ¬ (countAs f cs).length = 0 := by
    intro e
    have he : countAs f cs = [] := List.eq_nil_of_length_eq_zero e
    rw [he] at hm'
    simp only [sumTotals, List.map_nil, List.sum_nil] at hm'
    omega
  simp only [filterA]
  rw [if_neg hne]
  have : limitShares ((countAs f cs).map Annot.total) s = .panic := by
    unfold limitShares
    simp only
    rw [if_pos (by omega), if_pos hs]
    rfl
  rw [this]
  rfl

end Burl.Tree
