import Verif.Tree.CountLemmas
/-! `FilterChildrenCount` on memory refines a function on annotated trees. -/
namespace Burl.Tree
open Burl.Tree.Spec

def sumFiltered (as : List Annot) : Int := (as.map Annot.filtered).sum

def setTarget (t : Int) : Annot → Annot
  | .body c _ ls => .body c t ls
  | .node c _ p cs => .node c t p cs

@[simp] theorem setTarget_total (t : Int) (x : Annot) : (setTarget t x).total = x.total := by
  cases x <;> rfl
@[simp] theorem setTarget_filtered (t : Int) (x : Annot) : (setTarget t x).filtered = t := by
  cases x <;> rfl

mutual
/-- What `FilterChildrenCount` computes for a given share. -/
def filterA (t : Int) : Annot → Res Empty Annot
  | .body c _ ls => (limitLeaf ls t).bind fun ls' => .ok (.body c ls'.length ls')
  | .node c _ p cs =>
    if cs.length = 0 then .ok (.node c 0 p [])
    else (limitShares (cs.map Annot.total) t).bind fun sh =>
      (filterPick sh 0 cs).bind fun cs' => .ok (.node c (sumFiltered cs') p cs')
def filterPick (sh : List (Nat × Int)) : Nat → List Annot → Res Empty (List Annot)
  | _, [] => .ok []
  | i, x :: xs => match sh.lookup i with
    | none => filterPick sh (i + 1) xs
    | some s => (filterA s x).bind fun x' => (filterPick sh (i + 1) xs).bind fun xs' =>
        .ok (x' :: xs')
end

/-- Kept children with their shares. -/
def pickA (sh : List (Nat × Int)) : Nat → List Annot → List Annot
  | _, [] => []
  | i, x :: xs => match sh.lookup i with
    | none => pickA sh (i + 1) xs
    | some s => setTarget s x :: pickA sh (i + 1) xs

theorem readCounts_rep {h : Heap} (xs : List Annot) (as fp : List Addr) (hr : RepAs h xs as fp) :
    readCounts h as = .ok (xs.map Annot.total) := by
  induction xs generalizing as fp with
  | nil => simp only [RepAs] at hr; rw [hr.1]; rfl
  | cons x xs ih =>
    simp only [RepAs] at hr
    obtain ⟨a, as', f1, f2, rfl, rfl, h1, h2⟩ := hr
    obtain ⟨⟨n, e⟩, _⟩ := RepA.head h1
    simp [readCounts, load_ok e, ih as' f2 h2]

theorem sumTargets_rep {h : Heap} (xs : List Annot) (as fp : List Addr) (hr : RepAs h xs as fp)
    (acc : Int) : sumTargets h as acc = .ok (acc + sumFiltered xs) := by
  induction xs generalizing as fp acc with
  | nil => simp only [RepAs] at hr; rw [hr.1]; simp [sumTargets, sumFiltered]
  | cons x xs ih =>
    simp only [RepAs] at hr
    obtain ⟨a, as', f1, f2, rfl, rfl, h1, h2⟩ := hr
    obtain ⟨⟨n, e⟩, _⟩ := RepA.head h1
    simp [sumTargets, load_ok e, ih as' f2 h2, sumFiltered, Int.add_assoc]

theorem RepAs.length_eq {h : Heap} (xs : List Annot) (as fp : List Addr) (hr : RepAs h xs as fp) :
    as.length = xs.length ∧ (fp.Nodup → as.Nodup) ∧ ∀ a ∈ as, a ∈ fp := by
  induction xs generalizing as fp with
  | nil => simp only [RepAs] at hr; rw [hr.1]; simp
  | cons x xs ih =>
    simp only [RepAs] at hr
    obtain ⟨a, as', f1, f2, rfl, rfl, h1, h2⟩ := hr
    obtain ⟨_, hm⟩ := RepA.head h1
    obtain ⟨i1, i2, i3⟩ := ih as' f2 h2
    refine ⟨by simp [i1], ?_, ?_⟩
    · intro hnd
      rw [List.nodup_append] at hnd
      rw [List.nodup_cons]
      exact ⟨fun hm' => hnd.2.2 a hm a (i3 a hm') rfl, i2 hnd.2.1⟩
    · intro b hb
      rcases List.mem_cons.mp hb with rfl | hb
      · exact List.mem_append_left _ hm
      · exact List.mem_append_right _ (i3 b hb)

theorem lookup_none {sh : List (Nat × Int)} {k : Nat} (h : k ∉ sh.map Prod.fst) :
    sh.lookup k = none := by
  induction sh with
  | nil => rfl
  | cons e es ih =>
    obtain ⟨k', s⟩ := e
    simp only [List.map_cons, List.mem_cons, not_or] at h
    rw [List.lookup_cons]
    have : (k == k') = false := by simpa using h.1
    rw [this]
    exact ih h.2

theorem writeShare_length (kids : List Addr) (h : Heap) (s : Nat × Int) :
    (writeShare kids h s).length = h.length := by
  unfold writeShare; split
  · rfl
  · split <;> simp

theorem writeShares (kids : List Addr) (hk : kids.Nodup) (sh : List (Nat × Int)) :
    ∀ (h : Heap), (sh.map Prod.fst).Nodup →
      (sh.foldl (writeShare kids) h).length = h.length ∧
      (∀ a : Addr, a ∉ kids → (sh.foldl (writeShare kids) h)[a]? = h[a]?) ∧
      (∀ (i : Nat) (a : Addr) (c : Int) (t : Int) (n : Addr), kids[i]? = some a →
        h[a]? = some (.count c t n) →
        (sh.foldl (writeShare kids) h)[a]? = some (.count c ((sh.lookup i).getD t) n)) := by
  induction sh with
  | nil => intro h _; exact ⟨rfl, fun _ _ => rfl, fun i a c t n _ e => by simpa using e⟩
  | cons e es ih =>
    intro h hnd
    obtain ⟨k, s⟩ := e
    simp only [List.map_cons, List.nodup_cons] at hnd
    obtain ⟨i1, i2, i3⟩ := ih (writeShare kids h (k, s)) hnd.2
    simp only [List.foldl_cons]
    refine ⟨by rw [i1, writeShare_length], ?_, ?_⟩
    · intro a ha
      rw [i2 a ha]
      unfold writeShare
      split
      · rfl
      · rename_i b hb
        have hbm : b ∈ kids := List.mem_of_getElem? hb
        split
        · rw [List.getElem?_set_ne (fun e : b = a => ha (e ▸ hbm))]
        · rfl
    · intro i a c t n hi ha
      by_cases hik : i = k
      · subst hik
        have hw : (writeShare kids h (i, s))[a]? = some (.count c s n) := by
          unfold writeShare
          simp only [hi, ha]
          rw [List.getElem?_set_self (lt_of_lookup ha)]
        rw [i3 i a c s n hi hw, lookup_none hnd.1]
        simp
      · have hw : (writeShare kids h (k, s))[a]? = some (.count c t n) := by
          unfold writeShare
          split
          · exact ha
          · rename_i b hb
            have hne : b ≠ a := by
              intro e
              subst e
              obtain ⟨h1, e1⟩ := List.getElem?_eq_some_iff.mp hi
              obtain ⟨h2, e2⟩ := List.getElem?_eq_some_iff.mp hb
              exact hik ((List.getElem_inj hk).mp (e1.trans e2.symm))
            split
            · rw [List.getElem?_set_ne hne]; exact ha
            · exact ha
        rw [i3 i a c t n hi hw, List.lookup_cons]
        have : (i == k) = false := by simpa using hik
        rw [this]

/-- Changing the share of a subtree's root in memory. -/
theorem RepA.retarget {h h' : Heap} {x : Annot} {a : Addr} {fp : List Addr} {s : Int}
    (hr : RepA h x a fp) (hnd : fp.Nodup)
    (ha : ∀ c t n, h[a]? = some (.count c t n) → h'[a]? = some (.count c s n))
    (hrest : ∀ i ∈ fp, i ≠ a → h'[i]? = h[i]?) : RepA h' (setTarget s x) a fp := by
  cases x with
  | body c t ls =>
    simp only [RepA, setTarget] at hr ⊢
    obtain ⟨n, rfl, h1, h2⟩ := hr
    refine ⟨n, rfl, ha _ _ _ h1, ?_⟩
    rw [hrest n (by simp) (by intro e; subst e; simp at hnd), h2]
  | node c t p cs =>
    simp only [RepA, setTarget] at hr ⊢
    obtain ⟨n, as, fps, rfl, h1, h2, h3⟩ := hr
    simp only [List.nodup_cons, List.mem_cons, not_or] at hnd
    refine ⟨n, as, fps, rfl, ha _ _ _ h1, ?_, RepAs.frame _ _ _ h3 ?_⟩
    · rw [hrest n (by simp) (Ne.symm hnd.1.1), h2]
    · intro i hi
      exact hrest i (by simp [hi]) (fun e => hnd.1.2 (e ▸ hi))

theorem RepAs.pick {h h' : Heap} (sh : List (Nat × Int)) :
    ∀ (xs : List Annot) (as fps : List Addr) (i : Nat), RepAs h xs as fps → fps.Nodup →
      (∀ (j : Nat) (a : Addr) (c : Int) (t : Int) (n : Addr), as[j]? = some a →
        h[a]? = some (.count c t n) →
        h'[a]? = some (.count c ((sh.lookup (i + j)).getD t) n)) →
      (∀ b : Addr, b ∈ fps → b ∉ as → h'[b]? = h[b]?) →
      ∃ fps', RepAs h' (pickA sh i xs) (keepChildren sh i as) fps' ∧ fps'.Sublist fps := by
  intro xs
  induction xs with
  | nil =>
    intro as fps i hr _ _ _
    simp only [RepAs] at hr
    obtain ⟨rfl, rfl⟩ := hr
    exact ⟨[], by simp [pickA, keepChildren, RepAs], List.Sublist.refl _⟩
  | cons x xs ih =>
    intro as fps i hr hnd hlook hfix
    simp only [RepAs] at hr
    obtain ⟨a, as', f1, f2, rfl, rfl, h1, h2⟩ := hr
    rw [List.nodup_append] at hnd
    obtain ⟨hn1, hn2, hdis⟩ := hnd
    obtain ⟨_, ham⟩ := RepA.head h1
    obtain ⟨_, _, hsub⟩ := RepAs.length_eq _ _ _ h2
    obtain ⟨fps', g1, g2⟩ := ih as' f2 (i + 1) h2 hn2
      (fun j b c t n hj hb => by
        have := hlook (j + 1) b c t n (by simpa using hj) hb
        rw [show i + (j + 1) = i + 1 + j by omega] at this
        exact this)
      (fun b hb hba => hfix b (List.mem_append_right _ hb) (by
        intro hm
        rcases List.mem_cons.mp hm with e | hm
        · exact hdis a ham b hb e.symm
        · exact hba hm))
    cases hl : sh.lookup i with
    | none =>
      refine ⟨fps', ?_, g2.trans (List.sublist_append_right _ _)⟩
      simp only [pickA, keepChildren, hl]
      simpa using g1
    | some s =>
      refine ⟨f1 ++ fps', ?_, (List.Sublist.refl _).append g2⟩
      have hx : RepA h' (setTarget s x) a f1 := by
        refine RepA.retarget h1 hn1 ?_ ?_
        · intro c t n e
          have := hlook 0 a c t n rfl e
          rwa [Nat.add_zero, hl] at this
        · intro b hb hba
          refine hfix b (List.mem_append_left _ hb) ?_
          intro hm
          rcases List.mem_cons.mp hm with e | hm
          · exact hba e
          · exact hdis b hb b (hsub b hm) rfl
      simp only [pickA, keepChildren, hl]
      simp only [Option.isSome_some, if_true, RepAs]
      exact ⟨a, _, f1, fps', rfl, rfl, hx, g1⟩

theorem limitShares_nodup {counts : List Int} {t : Int} {sh : List (Nat × Int)}
    (h : limitShares counts t = .ok sh) : (sh.map Prod.fst).Nodup := by
  have hins : ∀ (x : Nat × Int) l, (insertDesc x l).Perm (x :: l) := by
    intro x l
    induction l with
    | nil => exact List.Perm.refl _
    | cons y ys ih =>
      unfold insertDesc
      split
      · exact List.Perm.refl _
      · exact (ih.cons y).trans (List.Perm.swap _ _ _)
  have hsort : ∀ l, (sortStable l).Perm l := by
    intro l
    induction l with
    | nil => exact List.Perm.refl _
    | cons x xs ih => exact (hins x _).trans (ih.cons x)
  have hkeys : ∀ (l : List (Nat × Int)) s t, (handOut l s t).map Prod.fst = l.map Prod.fst := by
    intro l
    induction l with
    | nil => intros; rfl
    | cons e es ih =>
      intro s t
      obtain ⟨k, c⟩ := e
      simp only [handOut, List.map_cons, ih]
  have hbase : ((sortStable ((List.range counts.length).zip counts)).map Prod.fst).Nodup := by
    have := ((hsort ((List.range counts.length).zip counts)).map Prod.fst).nodup_iff
    rw [this, List.map_fst_zip (by simp)]
    exact List.nodup_range
  unfold limitShares at h
  simp only at h
  have key : ∀ l : List (Nat × Int), (l.map Prod.fst).Nodup → ∀ s t,
      ((handOut (l.takeWhile fun x => x.2 > 0).reverse s t).map Prod.fst).Nodup := by
    intro l hl s t
    rw [hkeys, List.map_reverse, (List.reverse_perm _).nodup_iff]
    exact hl.sublist ((List.takeWhile_sublist _).map _)
  split at h
  · split at h
    · simp at h
    · simp only [Res.bind_ok] at h
      injection h with h
      rw [← h]
      exact key _ (hbase.sublist ((List.take_sublist _ _).map _)) _ _
  · simp only [Res.bind_ok] at h
    injection h with h
    rw [← h]
    exact key _ hbase _ _

/-- Memory changed only inside the given addresses. -/
def Frame (h h' : Heap) (fp : List Addr) : Prop :=
  h'.length = h.length ∧ ∀ i, i ∉ fp → h'[i]? = h[i]?

theorem Frame.trans {h1 h2 h3 : Heap} {f g : List Addr} (a : Frame h1 h2 f) (b : Frame h2 h3 g)
    {k : List Addr} (hf : ∀ i ∈ f, i ∈ k) (hg : ∀ i ∈ g, i ∈ k) : Frame h1 h3 k :=
  ⟨b.1.trans a.1, fun i hi => by
    rw [b.2 i (fun h => hi (hg i h)), a.2 i (fun h => hi (hf i h))]⟩

mutual
theorem filter_tree (x : Annot) (t : Int) (h : Heap) (a : Addr) (fp : List Addr)
    (hr : RepA h (setTarget t x) a fp) (hnd : fp.Nodup) (x' : Annot) (hx : filterA t x = .ok x')
    (q : Queue) :
    ∃ h' fp', Steps filterDone filterBody (h, (a, false) :: q) (h', q) ∧ RepA h' x' a fp' ∧
      fp'.Sublist fp ∧ Frame h h' fp := by
  match x with
  | .body c t0 ls =>
    simp only [RepA, setTarget] at hr
    obtain ⟨n, rfl, h1, h2⟩ := hr
    simp only [filterA] at hx
    have han : a ≠ n := by intro e; subst e; simp at hnd
    cases hl : limitLeaf ls t with
    | err e => exact e.elim
    | panic => rw [hl] at hx; simp at hx
    | ok ls' =>
      rw [hl] at hx
      simp only [Res.bind_ok] at hx
      injection hx with hx
      subst hx
      have ea : (h.set n (.leaf ls'))[a]? = some (.count c t n) := by
        rw [List.getElem?_set_ne (Ne.symm han), h1]
      have en : (h.set n (.leaf ls'))[n]? = some (.leaf ls') := by
        rw [List.getElem?_set_self (lt_of_lookup h2)]
      refine ⟨(h.set n (.leaf ls')).set a (.count c ls'.length n), [a, n], ?_, ?_,
        List.Sublist.refl _, ?_, ?_⟩
      · refine .cons (s' := (h.set n (.leaf ls'), (a, true) :: q)) rfl ?_ (.one rfl ?_)
        · simp [filterBody, pop, load_ok h1, limitChildrenCount, load_ok h2, hl, childrenNodes,
            load_ok en, pushAll]
        · simp [filterBody, pop, load_ok ea, ownLinksCount, load_ok en, childrenNodes, sumTargets]
      · simp only [RepA]
        refine ⟨n, rfl, ?_, ?_⟩
        · rw [List.getElem?_set_self (by simpa using lt_of_lookup h1)]
        · rw [List.getElem?_set_ne han, en]
      · simp
      · intro i hi
        simp only [List.mem_cons, List.not_mem_nil, or_false, not_or] at hi
        rw [List.getElem?_set_ne (Ne.symm hi.1), List.getElem?_set_ne (Ne.symm hi.2)]
  | .node c t0 p cs =>
    simp only [RepA, setTarget] at hr
    obtain ⟨n, as, fps, rfl, h1, h2, h3⟩ := hr
    simp only [filterA] at hx
    have hnd0 := hnd
    simp only [List.nodup_cons, List.mem_cons, not_or] at hnd
    obtain ⟨⟨han, haf⟩, hnf, hfnd⟩ := hnd
    obtain ⟨hlen, hkn, hsub⟩ := RepAs.length_eq _ _ _ h3
    by_cases hempty : cs.length = 0
    · rw [if_pos hempty] at hx
      injection hx with hx
      subst hx
      have hcs : cs = [] := List.eq_nil_of_length_eq_zero hempty
      subst hcs
      simp only [RepAs] at h3
      obtain ⟨rfl, rfl⟩ := h3
      refine ⟨h.set a (.count c 0 n), [a, n], ?_, ?_, List.Sublist.refl _, ?_, ?_⟩
      · refine .cons (s' := (h, (a, true) :: q)) rfl ?_ (.one rfl ?_)
        · simp [filterBody, pop, load_ok h1, limitChildrenCount, load_ok h2, childrenNodes, pushAll]
        · simp [filterBody, pop, load_ok h1, ownLinksCount, load_ok h2, childrenNodes, sumTargets]
      · simp only [RepA]
        refine ⟨n, [], [], rfl, ?_, ?_, by simp [RepAs]⟩
        · rw [List.getElem?_set_self (lt_of_lookup h1)]
        · rw [List.getElem?_set_ne han, h2]
      · simp
      · intro i hi
        simp only [List.mem_cons, List.not_mem_nil, or_false, not_or] at hi
        rw [List.getElem?_set_ne (Ne.symm hi.1)]
    · rw [if_neg hempty] at hx
      cases hsh : limitShares (cs.map Annot.total) t with
      | err e => exact e.elim
      | panic => rw [hsh] at hx; simp at hx
      | ok sh =>
        rw [hsh] at hx
        simp only [Res.bind_ok] at hx
        cases hp : filterPick sh 0 cs with
        | err e => exact e.elim
        | panic => rw [hp] at hx; simp at hx
        | ok cs' =>
          rw [hp] at hx
          simp only [Res.bind_ok] at hx
          injection hx with hx
          subst hx
          obtain ⟨w1, w2, w3⟩ := writeShares as (hkn hfnd) sh h (limitShares_nodup hsh)
          have hna : n ∉ as := fun hm => hnf (hsub n hm)
          have haa : a ∉ as := fun hm => haf (hsub a hm)
          -- memory after LimitChildrenCount
          generalize hg : sh.foldl (writeShare as) h = g at w1 w2 w3
          have en : (g.set n (.node p (keepChildren sh 0 as)))[n]? =
              some (.node p (keepChildren sh 0 as)) := by
            rw [List.getElem?_set_self (by rw [w1]; exact lt_of_lookup h2)]
          have ea : (g.set n (.node p (keepChildren sh 0 as)))[a]? = some (.count c t n) := by
            rw [List.getElem?_set_ne (Ne.symm han), w2 a haa, h1]
          obtain ⟨fps1, k1, k2⟩ := RepAs.pick (h' := g.set n (.node p (keepChildren sh 0 as))) sh
            cs as fps 0 h3 hfnd
            (by intro j b c' t' n' hj hb
                have hbn : n ≠ b := fun e => hna (e ▸ List.mem_of_getElem? hj)
                rw [List.getElem?_set_ne hbn, w3 j b c' t' n' hj hb, Nat.zero_add])
            (by intro b hb hba
                have hbn : n ≠ b := fun e => hnf (e ▸ hb)
                rw [List.getElem?_set_ne hbn, w2 b hba])
          obtain ⟨h', fps2, s1, s2, s3, s4⟩ := filter_picks cs sh 0
            (g.set n (.node p (keepChildren sh 0 as))) (keepChildren sh 0 as) fps1 k1
            (hfnd.sublist k2) cs' hp ((a, true) :: q)
          have ea' : h'[a]? = some (.count c t n) := by
            rw [s4.2 a (fun hm => haf (k2.subset hm)), ea]
          have en' : h'[n]? = some (.node p (keepChildren sh 0 as)) := by
            rw [s4.2 n (fun hm => hnf (k2.subset hm)), en]
          refine ⟨h'.set a (.count c (sumFiltered cs') n), a :: n :: fps2, ?_, ?_, ?_, ?_, ?_⟩
          · refine .cons (s' := (g.set n (.node p (keepChildren sh 0 as)),
              (keepChildren sh 0 as).reverse.map (·, false) ++ (a, true) :: q)) rfl ?_
              (s1.trans (.one rfl ?_))
            · have hne : ¬ as.length = 0 := by rw [hlen]; exact hempty
              have hlim : limitChildrenCount h n t =
                  .ok (g.set n (.node p (keepChildren sh 0 as))) := by
                unfold limitChildrenCount
                rw [load_ok h2]
                simp only [Res.bind_ok]
                rw [if_neg hne, readCounts_rep _ _ _ h3]
                simp only [Res.bind_ok]
                rw [hsh]
                simp only [Res.bind_ok, hg]
              simp [filterBody, pop, load_ok h1, hlim, childrenNodes, load_ok en, pushAll]
            · simp [filterBody, pop, load_ok ea', ownLinksCount, load_ok en', childrenNodes,
                sumTargets_rep _ _ _ s2]
          · simp only [RepA]
            refine ⟨n, _, fps2, rfl, ?_, ?_, RepAs.frame _ _ _ s2 ?_⟩
            · rw [List.getElem?_set_self (lt_of_lookup ea')]
            · rw [List.getElem?_set_ne han, en']
            · intro i hi
              rw [List.getElem?_set_ne]
              intro e
              exact haf (k2.subset (s3.subset (e ▸ hi)))
          · exact ((s3.trans k2).cons_cons n).cons_cons a
          · simp [s4.1, w1]
          · intro i hi
            simp only [List.mem_cons, not_or] at hi
            rw [List.getElem?_set_ne (Ne.symm hi.1), s4.2 i (fun hm => hi.2.2 (k2.subset hm)),
              List.getElem?_set_ne (Ne.symm hi.2.1), w2 i (fun hm => hi.2.2 (hsub i hm))]
theorem filter_picks (xs : List Annot) (sh : List (Nat × Int)) (i : Nat) (h : Heap)
    (as fps : List Addr) (hr : RepAs h (pickA sh i xs) as fps) (hnd : fps.Nodup)
    (xs' : List Annot) (hx : filterPick sh i xs = .ok xs') (q : Queue) :
    ∃ h' fps', Steps filterDone filterBody (h, as.reverse.map (·, false) ++ q) (h', q) ∧
      RepAs h' xs' as fps' ∧ fps'.Sublist fps ∧ Frame h h' fps := by
  match xs with
  | [] =>
    simp only [pickA, RepAs] at hr
    obtain ⟨rfl, rfl⟩ := hr
    simp only [filterPick] at hx
    injection hx with hx
    subst hx
    exact ⟨h, [], .refl, by simp [RepAs], List.Sublist.refl _, rfl, fun _ _ => rfl⟩
  | x :: xs =>
    cases hl : sh.lookup i with
    | none =>
      simp only [pickA, hl] at hr
      simp only [filterPick, hl] at hx
      exact filter_picks xs sh (i + 1) h as fps hr hnd xs' hx q
    | some s =>
      simp only [pickA, hl, RepAs] at hr
      obtain ⟨a, as', f1, f2, rfl, rfl, h1, h2⟩ := hr
      rw [List.nodup_append] at hnd
      obtain ⟨hn1, hn2, hdis⟩ := hnd
      simp only [filterPick, hl] at hx
      cases hA : filterA s x with
      | err e => exact e.elim
      | panic => rw [hA] at hx; simp at hx
      | ok x1 =>
        rw [hA] at hx
        simp only [Res.bind_ok] at hx
        cases hB : filterPick sh (i + 1) xs with
        | err e => exact e.elim
        | panic => rw [hB] at hx; simp at hx
        | ok xs1 =>
          rw [hB] at hx
          simp only [Res.bind_ok] at hx
          injection hx with hx
          subst hx
          obtain ⟨g, g2, s1, s2, s3, s4⟩ := filter_picks xs sh (i + 1) h as' f2 h2 hn2 xs1 hB
            ((a, false) :: q)
          have hx1 : RepA g (setTarget s x) a f1 := RepA.frame _ _ _ h1
            (fun j hj => s4.2 j (fun hm => hdis j hj j hm rfl))
          obtain ⟨h', g1, u1, u2, u3, u4⟩ := filter_tree x s g a f1 hx1 hn1 x1 hA q
          refine ⟨h', g1 ++ g2, ?_, ?_, u3.append s3, ?_⟩
          · simp only [List.reverse_cons, List.map_append, List.map_cons, List.map_nil,
              List.append_assoc, List.singleton_append]
            exact s1.trans u1
          · simp only [RepAs]
            refine ⟨a, as', g1, g2, rfl, rfl, u2, RepAs.frame _ _ _ s2 ?_⟩
            intro j hj
            exact u4.2 j (fun hm => hdis j hm j (s3.subset hj) rfl)
          · exact s4.trans u4 (fun j hj => List.mem_append_right _ hj)
              (fun j hj => List.mem_append_left _ hj)
end

theorem filterChildrenCount_spec (x : Annot) (t : Int) (h : Heap) (a : Addr) (fp : List Addr)
    (hr : RepA h x a fp) (hnd : fp.Nodup) (x' : Annot) (hx : filterA t x = .ok x') :
    ∃ h' fp', FilterChildrenCount h a t (.ok h') ∧ RepA h' x' a fp' ∧ fp'.Sublist fp ∧
      Frame h h' fp := by
  obtain ⟨⟨n, ha⟩, ham⟩ := RepA.head hr
  have hr' : RepA (h.set a (.count x.total t n)) (setTarget t x) a fp := by
    refine RepA.retarget hr hnd ?_ ?_
    · intro c t0 n0 e
      rw [ha] at e
      injection e with e
      injection e with e1 e2 e3
      subst e1 e3
      rw [List.getElem?_set_self (lt_of_lookup ha)]
    · intro i _ hia
      rw [List.getElem?_set_ne (Ne.symm hia)]
  obtain ⟨h', fp', s1, s2, s3, s4⟩ := filter_tree x t _ a fp hr' hnd x' hx []
  refine ⟨h', fp', ?_, s2, s3, ?_, ?_⟩
  · unfold FilterChildrenCount
    rw [ha]
    exact ⟨.ok (h', []), s1.loop (.done rfl), rfl⟩
  · simpa using s4.1
  · intro i hi
    rw [s4.2 i hi, List.getElem?_set_ne (fun e : a = i => hi (e ▸ ham))]

end Burl.Tree
