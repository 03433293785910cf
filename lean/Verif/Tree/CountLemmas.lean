import Verif.Tree.RepLemmas
/-! `CountDescendants` builds a fresh annotated tree and leaves old memory alone. -/
namespace Burl.Tree
open Burl.Tree.Spec

/-- Sum of totals. -/
def sumTotals (as : List Annot) : Int := (as.map Annot.total).sum

mutual
/-- What `CountDescendants` computes, as a function of trees. -/
def countA (f : Link → Bool) : Tree → Option Annot
  | .body ls => if (ls.filter f).isEmpty then none
      else some (.body (ls.filter f).length 0 (ls.filter f))
  | .node p cs => some (.node (sumTotals (countAs f cs)) 0 p (countAs f cs))
def countAs (f : Link → Bool) : List Tree → List Annot
  | [] => []
  | t :: ts => match countA f t with
    | none => countAs f ts
    | some a => if a.total > 0 then a :: countAs f ts else countAs f ts
end

mutual
/-- The object at an address represents an annotated tree; the last argument lists the addresses
it occupies. -/
def RepA (h : Heap) : Annot → Addr → List Addr → Prop
  | .body c t ls, a, fp =>
    ∃ n, fp = [a, n] ∧ h[a]? = some (.count c t n) ∧ h[n]? = some (.leaf ls)
  | .node c t p cs, a, fp =>
    ∃ n as fps, fp = a :: n :: fps ∧ h[a]? = some (.count c t n) ∧ h[n]? = some (.node p as) ∧
      RepAs h cs as fps
def RepAs (h : Heap) : List Annot → List Addr → List Addr → Prop
  | [], as, fp => as = [] ∧ fp = []
  | x :: xs, as, fp =>
    ∃ a as' f1 f2, as = a :: as' ∧ fp = f1 ++ f2 ∧ RepA h x a f1 ∧ RepAs h xs as' f2
end

mutual
theorem RepA.frame {h h' : Heap} (x : Annot) (a : Addr) (fp : List Addr) (hr : RepA h x a fp)
    (he : ∀ i ∈ fp, h'[i]? = h[i]?) : RepA h' x a fp := by
  match x with
  | .body c t ls =>
    simp only [RepA] at hr ⊢
    obtain ⟨n, rfl, h1, h2⟩ := hr
    exact ⟨n, rfl, by rw [he a (by simp), h1], by rw [he n (by simp), h2]⟩
  | .node c t p cs =>
    simp only [RepA] at hr ⊢
    obtain ⟨n, as, fps, rfl, h1, h2, h3⟩ := hr
    exact ⟨n, as, fps, rfl, by rw [he a (by simp), h1], by rw [he n (by simp), h2],
      RepAs.frame cs as fps h3 (fun i hi => he i (by simp [hi]))⟩
theorem RepAs.frame {h h' : Heap} (xs : List Annot) (as fp : List Addr) (hr : RepAs h xs as fp)
    (he : ∀ i ∈ fp, h'[i]? = h[i]?) : RepAs h' xs as fp := by
  match xs with
  | [] => simpa only [RepAs] using hr
  | x :: xs =>
    simp only [RepAs] at hr ⊢
    obtain ⟨a, as', f1, f2, rfl, rfl, h1, h2⟩ := hr
    exact ⟨a, as', f1, f2, rfl, rfl, RepA.frame x a f1 h1 (fun i hi => he i (by simp [hi])),
      RepAs.frame xs as' f2 h2 (fun i hi => he i (by simp [hi]))⟩
end

mutual
theorem RepA.bound {h : Heap} (x : Annot) (a : Addr) (fp : List Addr) (hr : RepA h x a fp) :
    ∀ i ∈ fp, i < h.length := by
  have key : ∀ {i : Nat} {o : Obj}, h[i]? = some o → i < h.length := fun e => by
    obtain ⟨hi, _⟩ := List.getElem?_eq_some_iff.mp e; exact hi
  match x with
  | .body c t ls =>
    simp only [RepA] at hr
    obtain ⟨n, rfl, h1, h2⟩ := hr
    intro i hi
    rcases List.mem_cons.mp hi with rfl | hi
    · exact key h1
    · rcases List.mem_cons.mp hi with rfl | hi
      · exact key h2
      · simp at hi
  | .node c t p cs =>
    simp only [RepA] at hr
    obtain ⟨n, as, fps, rfl, h1, h2, h3⟩ := hr
    intro i hi
    rcases List.mem_cons.mp hi with rfl | hi
    · exact key h1
    · rcases List.mem_cons.mp hi with rfl | hi
      · exact key h2
      · exact RepAs.bound cs as fps h3 i hi
theorem RepAs.bound {h : Heap} (xs : List Annot) (as fp : List Addr) (hr : RepAs h xs as fp) :
    ∀ i ∈ fp, i < h.length := by
  match xs with
  | [] => simp only [RepAs] at hr; rw [hr.2]; simp
  | x :: xs =>
    simp only [RepAs] at hr
    obtain ⟨a, as', f1, f2, rfl, rfl, h1, h2⟩ := hr
    intro i hi
    rcases List.mem_append.mp hi with hi | hi
    · exact RepA.bound x a f1 h1 i hi
    · exact RepAs.bound xs as' f2 h2 i hi
end

theorem RepAs.snoc {h : Heap} (xs : List Annot) (as fp : List Addr) (x : Annot) (a : Addr)
    (f : List Addr) (hr : RepAs h xs as fp) (hx : RepA h x a f) :
    RepAs h (xs ++ [x]) (as ++ [a]) (fp ++ f) := by
  induction xs generalizing as fp with
  | nil =>
    simp only [RepAs] at hr
    obtain ⟨rfl, rfl⟩ := hr
    simp only [List.nil_append, RepAs]
    exact ⟨a, [], f, [], rfl, by simp, hx, rfl, rfl⟩
  | cons y ys ih =>
    simp only [RepAs] at hr
    obtain ⟨b, bs, f1, f2, rfl, rfl, h1, h2⟩ := hr
    simp only [List.cons_append, RepAs]
    exact ⟨b, bs ++ [a], f1, f2 ++ f, rfl, by simp, h1, ih bs f2 h2⟩

theorem RepA.head {h : Heap} {x : Annot} {a : Addr} {fp : List Addr} (hr : RepA h x a fp) :
    (∃ n, h[a]? = some (.count x.total x.filtered n)) ∧ a ∈ fp := by
  cases x with
  | body c t ls =>
    simp only [RepA] at hr
    obtain ⟨n, rfl, h1, h2⟩ := hr
    exact ⟨⟨n, h1⟩, by simp⟩
  | node c t p cs =>
    simp only [RepA] at hr
    obtain ⟨n, as, fps, rfl, h1, h2, h3⟩ := hr
    exact ⟨⟨n, h1⟩, by simp⟩

/-- How a cloned node is found in memory. -/
def ResA (h : Heap) (base : Nat) (r : Option Annot) (x : Option Addr) : Prop :=
  match r with
  | none => x = none
  | some ann => ∃ b fp, x = some b ∧ RepA h ann b fp ∧ fp.Nodup ∧ ∀ i ∈ fp, base ≤ i

theorem lookup_append_two {h : Heap} {o1 o2 : Obj} :
    (∀ i, i < h.length → (h ++ [o1, o2])[i]? = h[i]?) ∧ (h ++ [o1, o2])[h.length]? = some o1 ∧
      (h ++ [o1, o2])[h.length + 1]? = some o2 := by
  refine ⟨fun i hi => List.getElem?_append_left hi, ?_, ?_⟩
  · rw [List.getElem?_append_right (Nat.le_refl _)]; simp
  · rw [List.getElem?_append_right (by omega)]; simp

theorem lt_of_lookup {h : Heap} {i : Nat} {o : Obj} (e : h[i]? = some o) : i < h.length := by
  obtain ⟨hi, _⟩ := List.getElem?_eq_some_iff.mp e; exact hi

mutual
theorem count_tree (f : Link → Bool) (h0 : Heap) (t : Tree) (a : Addr) (ht : RepT h0 t a)
    (h : Heap) (hl : h0.length ≤ h.length) (hag : ∀ i, i < h0.length → h[i]? = h0[i]?)
    (q : Queue) (st : List (Option Addr)) :
    ∃ h' x, Steps countDone (countBody f) ⟨h, (a, false) :: q, st, false⟩
        ⟨h', (a, true) :: q, x :: st, false⟩ ∧
      h.length ≤ h'.length ∧ (∀ i, i < h.length → h'[i]? = h[i]?) ∧
      ResA h' h.length (countA f t) x := by
  match t with
  | .body ls =>
    simp only [RepT] at ht
    have hla : h[a]? = some (.leaf ls) := by rw [hag a (lt_of_lookup ht), ht]
    simp only [countA]
    by_cases hc : (ls.filter f).isEmpty
    · refine ⟨h, none, .one rfl ?_, Nat.le_refl _, fun _ _ => rfl, by rw [if_pos hc]; rfl⟩
      have hcl : cloneAttr h f a = .ok (h, none) := by
        unfold cloneAttr; rw [load_ok hla]; simp only [Res.bind_ok]; rw [if_pos hc]
      simp [countBody, pop, hcl, load_ok hla, childrenNodes, pushAll]
    · obtain ⟨e1, e2, e3⟩ := lookup_append_two (h := h) (o1 := .leaf (ls.filter f))
        (o2 := .count (ls.filter f).length 0 h.length)
      refine ⟨h ++ [.leaf (ls.filter f), .count (ls.filter f).length 0 h.length],
        some (h.length + 1), .one rfl ?_, by simp, e1, ?_⟩
      · have hcl : cloneAttr h f a = .ok (h ++ [.leaf (ls.filter f),
            .count (ls.filter f).length 0 h.length], some (h.length + 1)) := by
          unfold cloneAttr; rw [load_ok hla]; simp only [Res.bind_ok]; rw [if_neg hc]
        simp [countBody, pop, hcl, load_ok hla, childrenNodes, pushAll]
      · rw [if_neg hc]
        refine ⟨h.length + 1, [h.length + 1, h.length], rfl, ?_, by simp, by simp⟩
        simp only [RepA]
        exact ⟨h.length, rfl, e3, e2⟩
  | .node p cs =>
    simp only [RepT] at ht
    obtain ⟨as, ht1, ht2⟩ := ht
    have hla : h[a]? = some (.node p as) := by rw [hag a (lt_of_lookup ht1), ht1]
    obtain ⟨e1, e2, e3⟩ := lookup_append_two (h := h) (o1 := .node p [])
        (o2 := .count 0 0 h.length)
    have hfirst : Steps countDone (countBody f) ⟨h, (a, false) :: q, st, false⟩
        ⟨h ++ [.node p [], .count 0 0 h.length], as.map (·, false) ++ (a, true) :: q,
          some (h.length + 1) :: st, false⟩ := by
      refine .one rfl ?_
      simp [countBody, pop, cloneAttr, load_ok hla, childrenNodes, pushAll]
    obtain ⟨h', kids, fps, s1, s2, s3, s4, s5, s6, s7, s8⟩ := count_trees f h0 cs as ht2
      (h ++ [.node p [], .count 0 0 h.length])
      (by simp; omega) (fun i hi => by rw [e1 i (by omega), hag i hi]) ((a, true) :: q) st
      (h.length + 1) h.length 0 p [] [] [] e3 e2 (by simp [RepAs]) (by simp) (by omega) (by omega)
      (by simp)
    refine ⟨h', some (h.length + 1), hfirst.trans s1, ?_, ?_, ?_⟩
    · simp at s2; omega
    · intro i hi
      rw [s3 i (by simp; omega) (by omega) (by omega), e1 i hi]
    · simp only [countA, ResA]
      refine ⟨h.length + 1, (h.length + 1) :: h.length :: fps, rfl, ?_, s7, ?_⟩
      · simp only [RepA]
        refine ⟨h.length, kids, fps, rfl, ?_, s5, by simpa using s6⟩
        rw [s4]; simp
      · intro i hi
        rcases List.mem_cons.mp hi with rfl | hi
        · omega
        · rcases List.mem_cons.mp hi with rfl | hi
          · omega
          · rcases s8 i hi with h | h
            · simp at h
            · simp at h; omega
theorem count_trees (f : Link → Bool) (h0 : Heap) (ts : List Tree) (as : List Addr)
    (ht : RepTs h0 ts as)
    (h : Heap) (hl : h0.length ≤ h.length) (hag : ∀ i, i < h0.length → h[i]? = h0[i]?)
    (q : Queue) (st : List (Option Addr)) (b n : Addr) (c : Int) (p : Props) (kids : List Addr)
    (anns : List Annot) (fps : List Addr) (hb : h[b]? = some (.count c 0 n))
    (hn : h[n]? = some (.node p kids)) (hkids : RepAs h anns kids fps)
    (hnd : (b :: n :: fps).Nodup) (hbb : h0.length ≤ b) (hnb : h0.length ≤ n)
    (hfb : ∀ i ∈ fps, h0.length ≤ i) :
    ∃ h' kids' fps', Steps countDone (countBody f) ⟨h, as.map (·, false) ++ q, some b :: st, false⟩
        ⟨h', q, some b :: st, false⟩ ∧
      h.length ≤ h'.length ∧ (∀ i, i < h.length → i ≠ b → i ≠ n → h'[i]? = h[i]?) ∧
      h'[b]? = some (.count (c + sumTotals (countAs f ts)) 0 n) ∧ h'[n]? = some (.node p kids') ∧
      RepAs h' (anns ++ countAs f ts) kids' fps' ∧ (b :: n :: fps').Nodup ∧
      (∀ i ∈ fps', i ∈ fps ∨ h.length ≤ i) := by
  match ts with
  | [] =>
    simp only [RepTs] at ht
    subst ht
    refine ⟨h, kids, fps, .refl, Nat.le_refl _, fun _ _ _ _ => rfl, ?_, hn, ?_, hnd,
      fun i hi => .inl hi⟩
    · simpa [countAs, sumTotals] using hb
    · simpa [countAs] using hkids
  | t :: ts =>
    simp only [RepTs] at ht
    obtain ⟨a, as', rfl, ht1, ht2⟩ := ht
    obtain ⟨h1, x, s1, s2, s3, s4⟩ := count_tree f h0 t a ht1 h hl hag
      (as'.map (·, false) ++ q) (some b :: st)
    have hbl := lt_of_lookup hb
    have hnl := lt_of_lookup hn
    have hag1 : ∀ i, i < h0.length → h1[i]? = h0[i]? := fun i hi => by
      rw [s3 i (by omega), hag i hi]
    have hb1 : h1[b]? = some (.count c 0 n) := by rw [s3 b hbl, hb]
    have hn1 : h1[n]? = some (.node p kids) := by rw [s3 n hnl, hn]
    have hkids1 : RepAs h1 anns kids fps := hkids.frame _ _ _
      (fun i hi => s3 i (RepAs.bound _ _ _ hkids i hi))
    -- the case where the child is dropped
    have hdrop : ∀ hstep : countBody f ⟨h1, (a, true) :: (as'.map (·, false) ++ q),
          x :: some b :: st, false⟩ = .ok ⟨h1, as'.map (·, false) ++ q, some b :: st, false⟩,
        countAs f (t :: ts) = countAs f ts →
        ∃ h' kids' fps', Steps countDone (countBody f)
          ⟨h, (a :: as').map (·, false) ++ q, some b :: st, false⟩ ⟨h', q, some b :: st, false⟩ ∧
        h.length ≤ h'.length ∧ (∀ i, i < h.length → i ≠ b → i ≠ n → h'[i]? = h[i]?) ∧
        h'[b]? = some (.count (c + sumTotals (countAs f (t :: ts))) 0 n) ∧
        h'[n]? = some (.node p kids') ∧
        RepAs h' (anns ++ countAs f (t :: ts)) kids' fps' ∧ (b :: n :: fps').Nodup ∧
        (∀ i ∈ fps', i ∈ fps ∨ h.length ≤ i) := by
      intro hstep hc
      obtain ⟨h', kids', fps', r1, r2, r3, r4, r5, r6, r7, r8⟩ := count_trees f h0 ts as' ht2 h1
        (by omega) hag1 q st b n c p kids anns fps hb1 hn1 hkids1 hnd hbb hnb hfb
      refine ⟨h', kids', fps', (s1.trans (.one rfl hstep)).trans r1, by omega, ?_, ?_, r5, ?_, r7, ?_⟩
      · intro i hi hib hin; rw [r3 i (by omega) hib hin, s3 i hi]
      · rw [hc]; exact r4
      · rw [hc]; exact r6
      · intro i hi
        rcases r8 i hi with h | h
        · exact .inl h
        · exact .inr (by omega)
    cases hca : countA f t with
    | none =>
      rw [hca] at s4
      simp only [ResA] at s4
      subst s4
      exact hdrop rfl (by simp [countAs, hca])
    | some ann =>
      rw [hca] at s4
      simp only [ResA] at s4
      obtain ⟨tip, fpt, rfl, t1, t2, t3⟩ := s4
      obtain ⟨⟨nt, htip⟩, htipm⟩ := RepA.head t1
      by_cases hpos : ann.total > 0
      · -- attach
        have hbn : b ≠ n := by
          intro e; subst e; simp at hnd
        have htb : ∀ i ∈ fpt, i ≠ b ∧ i ≠ n := fun i hi => by
          have := t3 i hi
          exact ⟨Nat.ne_of_gt (by omega), Nat.ne_of_gt (by omega)⟩
        have hnf : ∀ i ∈ fps, i ≠ b ∧ i ≠ n := by
          intro i hi
          simp only [List.nodup_cons, List.mem_cons, not_or] at hnd
          exact ⟨fun e => hnd.1.2 (e ▸ hi), fun e => hnd.2.1 (e ▸ hi)⟩
        let h2 := (h1.set b (.count (c + ann.total) 0 n)).set n (.node p (kids ++ [tip]))
        have hl2 : h2.length = h1.length := by simp [h2]
        have g1 : ∀ i, i ≠ b → i ≠ n → h2[i]? = h1[i]? := fun i hib hin => by
          simp only [h2]
          rw [List.getElem?_set_ne (Ne.symm hin), List.getElem?_set_ne (Ne.symm hib)]
        have gb : h2[b]? = some (.count (c + ann.total) 0 n) := by
          simp only [h2]
          rw [List.getElem?_set_ne (Ne.symm hbn), List.getElem?_set_self (by omega)]
        have gn : h2[n]? = some (.node p (kids ++ [tip])) := by
          simp only [h2]
          rw [List.getElem?_set_self (by simp; omega)]
        have hstep : countBody f ⟨h1, (a, true) :: (as'.map (·, false) ++ q),
            some tip :: some b :: st, false⟩ =
            .ok ⟨h2, as'.map (·, false) ++ q, some b :: st, false⟩ := by
          have hn1' : (h1.set b (.count (c + ann.total) 0 n))[n]? = some (.node p kids) := by
            rw [List.getElem?_set_ne hbn, hn1]
          simp [countBody, pop, load_ok htip, hpos, attach, load_ok hb1, load_ok hn1', h2]
        have hkids2 : RepAs h2 (anns ++ [ann]) (kids ++ [tip]) (fps ++ fpt) := by
          refine RepAs.snoc _ _ _ _ _ _ (hkids1.frame _ _ _ ?_) (t1.frame _ _ _ ?_)
          · intro i hi; exact g1 i (hnf i hi).1 (hnf i hi).2
          · intro i hi; exact g1 i (htb i hi).1 (htb i hi).2
        have hnd2 : (b :: n :: (fps ++ fpt)).Nodup := by
          simp only [List.nodup_cons, List.mem_cons, List.mem_append, not_or] at hnd ⊢
          refine ⟨⟨hbn, hnd.1.2, fun e => (htb b e).1 rfl⟩, ⟨hnd.2.1, fun e => (htb n e).2 rfl⟩, ?_⟩
          rw [List.nodup_append]
          refine ⟨hnd.2.2, t2, ?_⟩
          intro i hi j hj e
          have h3 := RepAs.bound _ _ _ hkids i hi
          have h4 := t3 j hj
          exact Nat.ne_of_lt (Nat.lt_of_lt_of_le h3 h4) e
        obtain ⟨h', kids', fps', r1, r2, r3, r4, r5, r6, r7, r8⟩ := count_trees f h0 ts as' ht2 h2
          (by omega) (fun i hi => by rw [g1 i (Nat.ne_of_lt (by omega)) (Nat.ne_of_lt (by omega)), hag1 i hi]) q st b n
          (c + ann.total) p (kids ++ [tip]) (anns ++ [ann]) (fps ++ fpt) gb gn hkids2 hnd2 hbb hnb
          (by intro i hi
              rcases List.mem_append.mp hi with hi | hi
              · exact hfb i hi
              · have := t3 i hi; omega)
        have hcs : countAs f (t :: ts) = ann :: countAs f ts := by
          simp [countAs, hca, hpos]
        refine ⟨h', kids', fps', (s1.trans (.one rfl hstep)).trans r1, by omega, ?_, ?_, r5, ?_, r7, ?_⟩
        · intro i hi hib hin
          rw [r3 i (by omega) hib hin, g1 i hib hin, s3 i hi]
        · rw [r4, hcs]
          simp only [sumTotals, List.map_cons, List.sum_cons]
          rw [Int.add_assoc]
        · rw [hcs]
          simpa using r6
        · intro i hi
          rcases r8 i hi with hm | hm
          · rcases List.mem_append.mp hm with hm | hm
            · exact .inl hm
            · exact .inr (t3 i hm)
          · exact .inr (by omega)
      · refine hdrop ?_ (by simp [countAs, hca, hpos])
        simp [countBody, pop, load_ok htip, hpos]
end

/-- `CountDescendants` of an inner node. -/
theorem countDescendants_spec (f : Link → Bool) (h : Heap) (p : Props) (cs : List Tree) (a : Addr)
    (ht : RepT h (.node p cs) a) :
    ∃ h' b fp, CountDescendants h a f (.ok (h', some b)) ∧ h.length ≤ h'.length ∧
      (∀ i, i < h.length → h'[i]? = h[i]?) ∧
      RepA h' (.node (sumTotals (countAs f cs)) 0 p (countAs f cs)) b fp ∧ fp.Nodup ∧
      ∀ i ∈ fp, h.length ≤ i := by
  obtain ⟨h', x, s1, s2, s3, s4⟩ := count_tree f h _ a ht h (Nat.le_refl _) (fun _ _ => rfl) [] []
  simp only [countA, ResA] at s4
  obtain ⟨b, fp, rfl, t1, t2, t3⟩ := s4
  refine ⟨h', b, fp, ⟨.ok ⟨h', [], [some b], true⟩, ?_, rfl⟩, s2, s3, t1, t2, t3⟩
  exact s1.loop (.step rfl rfl (.done rfl))

end Burl.Tree
