import Verif.Fuzzy.DistLemmas
import Verif.Fuzzy.HeapLemmas
/-! Query distances, collection of candidates and the reply of Search. -/
namespace Burl.Fuzzy
open Burl.Fuzzy.Spec

theorem isBest_unique {α : Type} {p w : List α} {d d' : Nat} (h : IsBest p w d)
    (h' : IsBest p w d') : d = d' := by
  obtain ⟨⟨s, hs, he⟩, hm⟩ := h
  obtain ⟨⟨s', hs', he'⟩, hm'⟩ := h'
  have := hm _ _ hs' he'
  have := hm' _ _ hs he
  omega

theorem isBest_zero {α : Type} {p w : List α} {d : Nat} (h : IsBest p w d) : d = 0 ↔ p <:+: w := by
  constructor
  · rintro rfl
    obtain ⟨⟨s, hs, he⟩, _⟩ := h
    rw [he.zero]; exact hs
  · intro hp
    have := h.2 p 0 hp (Edit.refl p)
    omega

theorem contains_iff (w q : Str) : contains w q = true ↔ q <:+: w := by
  induction w with
  | nil => simp [contains]
  | cons c cs ih => simp [contains, ih, List.infix_cons_iff]

theorem infix_map {α β : Type} (f : α → β) {s w : List α} (h : s <:+: w) :
    s.map f <:+: w.map f := by
  obtain ⟨x, y, rfl⟩ := h
  exact ⟨x.map f, y.map f, by simp⟩

theorem length_le_utf8Len (s : Str) : s.length ≤ utf8Len s := by
  induction s with
  | nil => simp
  | cons c cs ih => have := Char.utf8Size_pos c; simp; omega

theorem exists_best {α : Type} [DecidableEq α] (p w : List α) : ∃ d, IsBest p w d := by
  by_cases hw : w = []
  · subst hw
    refine ⟨p.length, ⟨[], by simp, Edit.deleteAll p⟩, ?_⟩
    intro s n hs he
    have : s = [] := by simpa using hs
    subst this
    simpa using he.length_le
  · by_cases hp : p = []
    · subst hp
      exact ⟨0, ⟨[], by simp, .done⟩, fun _ _ _ _ => Nat.zero_le _⟩
    · obtain ⟨d, hd, _⟩ := editorDistanceRunes_spec p w hp hw
      exact ⟨d, hd⟩

/-- Best distance of a query word to a link, letter case ignored. -/
noncomputable def best (lower : Char → Char) (w q : Str) : Nat :=
  Classical.choose (exists_best (q.map lower) (w.map lower))

theorem best_spec (lower : Char → Char) (w q : Str) :
    IsBest (q.map lower) (w.map lower) (best lower w q) :=
  Classical.choose_spec (exists_best (q.map lower) (w.map lower))

theorem searchDistanceDL_spec (lower : Char → Char) (q w : Str) (hq : q ≠ []) (hw : w ≠ []) :
    searchDistanceDL lower q w = .ok (min 32767 (best lower w q : Int)) := by
  obtain ⟨d, hd, he⟩ := editorDistanceRunes_spec (q.map lower) (w.map lower) (by simpa) (by simpa)
  unfold searchDistanceDL
  rw [he, isBest_unique hd (best_spec lower w q)]

theorem subq_spec (lower : Char → Char) (q w : Str) (rem : Int) (hq : q ≠ []) (hw : w ≠ [])
    (hr : 0 ≤ rem) :
    ∃ v : Int, getSubqueryDistance lower q w rem = .ok v ∧ 0 ≤ v ∧
      (v ≤ rem → v = min 32767 (best lower w q : Int)) := by
  have hwpos : 0 < utf8Len w := by
    have := mt (utf8Len_eq_zero (s := w)).mp hw; omega
  unfold getSubqueryDistance
  rw [if_neg (by omega)]
  by_cases h0 : rem = 0
  · subst h0
    rw [if_pos rfl]
    by_cases hc : contains w q = true
    · rw [if_pos hc]
      refine ⟨0, rfl, by omega, fun _ => ?_⟩
      have := (isBest_zero (best_spec lower w q)).mpr (infix_map lower ((contains_iff w q).mp hc))
      omega
    · rw [if_neg hc]
      exact ⟨_, rfl, by omega, fun h => by omega⟩
  · rw [if_neg h0]
    simp only
    split
    · exact ⟨_, rfl, by omega, fun h => by omega⟩
    · rw [searchDistanceDL_spec lower q w hq hw]
      exact ⟨_, rfl, by omega, fun _ => rfl⟩

theorem subq_exact (lower : Char → Char) (q w : Str) (rem : Int) (hq : q ≠ []) (hw : w ≠ [])
    (hr : 0 ≤ rem) (hr2 : rem < 32767) (hql : q.map lower = q) (hwl : w.map lower = w)
    (hasc : utf8Len q = q.length) (hd : (best lower w q : Int) ≤ rem) :
    getSubqueryDistance lower q w rem = .ok (best lower w q : Int) := by
  have hb := best_spec lower w q
  rw [hql, hwl] at hb
  unfold getSubqueryDistance
  rw [if_neg (by omega)]
  by_cases h0 : rem = 0
  · subst h0
    have hz : best lower w q = 0 := by omega
    rw [if_pos rfl, if_pos ((contains_iff w q).mpr ((isBest_zero hb).mp hz)), hz]
    rfl
  · rw [if_neg h0]
    simp only
    rw [if_neg, searchDistanceDL_spec lower q w hq hw]
    · congr 1; omega
    · obtain ⟨⟨s, hs, he⟩, _⟩ := hb
      have h1 := he.length_le
      have h2 := hs.length_le
      have h3 := length_le_utf8Len w
      omega

/-- Total saturated distance. -/
noncomputable def satSum (lower : Char → Char) (w : Str) (qs : List Str) : Int :=
  (qs.map fun q => min 32767 (best lower w q : Int)).sum

theorem queryLoop_spec (lower : Char → Char) (w : Str) (hw : w ≠ []) (limit : Int) :
    ∀ (qs : List SubqueryLimit) (acc : Int), (∀ q ∈ qs, q.query ≠ []) → acc ≤ limit →
      ∃ b n, queryDistanceLoop lower w limit qs acc = .ok (b, n) ∧
        (b = true → n = acc + satSum lower w (qs.map (·.query)) ∧ n ≤ limit) := by
  intro qs
  induction qs with
  | nil => intro acc _ h; exact ⟨true, acc, rfl, fun _ => ⟨by simp [satSum], h⟩⟩
  | cons q qs ih =>
    intro acc hq hacc
    obtain ⟨v, hv, hv0, hvs⟩ := subq_spec lower q.query w (limit - acc) (hq q (by simp)) hw
      (by omega)
    unfold queryDistanceLoop
    rw [hv, Res.bind_ok]
    simp only
    by_cases hgt : acc + v > limit
    · rw [if_pos hgt]; exact ⟨false, _, rfl, by simp⟩
    · rw [if_neg hgt]
      obtain ⟨b, n, h1, h2⟩ := ih (acc + v) (fun x hx => hq x (by simp [hx])) (by omega)
      refine ⟨b, n, h1, fun hb => ?_⟩
      obtain ⟨h3, h4⟩ := h2 hb
      refine ⟨?_, h4⟩
      rw [h3, hvs (by omega)]
      simp only [satSum, List.map_cons, List.sum_cons]
      omega

/-- Total distance. -/
noncomputable def bestSum (lower : Char → Char) (w : Str) (qs : List Str) : Nat :=
  (qs.map (best lower w)).sum

theorem queryLoop_exact (lower : Char → Char) (w : Str) (hw : w ≠ []) (limit : Int)
    (hl : limit < 32767) (hwl : w.map lower = w) :
    ∀ (qs : List SubqueryLimit) (acc : Int),
      (∀ q ∈ qs, q.query ≠ [] ∧ q.query.map lower = q.query ∧ utf8Len q.query = q.query.length) →
      acc + bestSum lower w (qs.map (·.query)) ≤ limit →
      queryDistanceLoop lower w limit qs acc =
        .ok (true, acc + bestSum lower w (qs.map (·.query))) ∨ acc < 0 := by
  intro qs
  induction qs with
  | nil => intro acc _ h; left; simp [queryDistanceLoop, bestSum]
  | cons q qs ih =>
    intro acc hq hacc
    by_cases hneg : acc < 0
    · exact .inr hneg
    left
    obtain ⟨h1, h2, h3⟩ := hq q (by simp)
    simp only [bestSum, List.map_cons, List.sum_cons] at hacc ⊢
    have hv := subq_exact lower q.query w (limit - acc) h1 hw (by omega) (by omega) h2 hwl h3
      (by omega)
    unfold queryDistanceLoop
    rw [hv, Res.bind_ok]
    simp only
    rw [if_neg (by omega)]
    have hn : acc + (best lower w q.query : Int) + (bestSum lower w (qs.map (·.query)) : Nat) ≤ limit := by
      simp only [bestSum]; omega
    rcases ih (acc + best lower w q.query) (fun x hx => hq x (by simp [hx])) hn with h | h
    · rw [h]; simp only [bestSum]; congr 2; omega
    · omega

/-- Whether (and with which total distance) a link is accepted for the given query words. -/
def accept (lower : Char → Char) (qs : List Str) (tol : Int) (w : Str) : Option Int :=
  match queryDistance lower (makeSubqueryLimit qs tol) w tol with
  | .ok (true, n) => some n
  | _ => none

/-- Accepted links with their distances. -/
def candidates (lower : Char → Char) (qs : List Str) (tol : Int) (links : List Str) : List WS :=
  links.filterMap fun w => (accept lower qs tol w).map fun n => ⟨n, w⟩

theorem makeSub_query (qs : List Str) (l : Int) :
    (makeSubqueryLimit qs l).map (·.query) = qs := by
  simp [makeSubqueryLimit, Function.comp_def]

theorem queryDistance_spec (lower : Char → Char) (qs : List Str) (hqs : ∀ q ∈ qs, q ≠ [])
    (tol : Int) (htol : 0 ≤ tol) (w : Str) (hw : w ≠ []) :
    ∃ b n, queryDistance lower (makeSubqueryLimit qs tol) w tol = .ok (b, n) ∧
      accept lower qs tol w = (if b = true then some n else none) ∧
      (b = true → n = satSum lower w qs ∧ n ≤ tol) := by
  obtain ⟨b, n, h1, h2⟩ := queryLoop_spec lower w hw tol (makeSubqueryLimit qs tol) 0
    (by intro q hq
        have : q.query ∈ (makeSubqueryLimit qs tol).map (·.query) := List.mem_map_of_mem hq
        rw [makeSub_query] at this
        exact hqs _ this) htol
  rw [makeSub_query] at h2
  refine ⟨b, n, h1, ?_, ?_⟩
  · unfold accept queryDistance
    rw [h1]
    cases b <;> rfl
  · intro hb
    obtain ⟨h3, h4⟩ := h2 hb
    exact ⟨by omega, h4⟩

theorem collect_spec (lower : Char → Char) (qs : List Str) (hqs : ∀ q ∈ qs, q ≠ [])
    (tol : Int) (htol : 0 ≤ tol) (k : Nat) (hk : 0 < k) :
    ∀ (links : List Str), (∀ w ∈ links, w ≠ []) → ∀ (xs h : List WS),
      Holds WS.less ⟨0, []⟩ k xs h →
      ∃ h', collect lower (makeSubqueryLimit qs tol) tol k links h = .ok h' ∧
        Holds WS.less ⟨0, []⟩ k ((candidates lower qs tol links).reverse ++ xs) h' := by
  intro links
  induction links with
  | nil => intro _ xs h hh; exact ⟨h, rfl, by simpa [candidates] using hh⟩
  | cons w links ih =>
    intro hl xs h hh
    obtain ⟨b, n, h1, h2, _⟩ := queryDistance_spec lower qs hqs tol htol w (hl w (by simp))
    unfold collect
    rw [h1, Res.bind_ok]
    cases b with
    | false =>
      obtain ⟨h', h3, h4⟩ := ih (fun x hx => hl x (by simp [hx])) xs h hh
      refine ⟨h', by simpa using h3, ?_⟩
      simpa [candidates, h2] using h4
    | true =>
      obtain ⟨g, hg, hg'⟩ := heapAdd_spec weak_less ⟨0, []⟩ k hk xs h ⟨n, w⟩ hh
      obtain ⟨h', h3, h4⟩ := ih (fun x hx => hl x (by simp [hx])) _ g hg'
      refine ⟨h', ?_, ?_⟩
      · simp only [Bool.not_true, Bool.false_eq_true, if_false]
        rw [hg, Res.bind_ok]; exact h3
      · simpa [candidates, h2] using h4

/-- What is assumed of `sort.Sort(&h)`: a permutation ordered by the heap's `Less`. -/
def SortOK (sort : List WS → List WS) : Prop :=
  ∀ l, (sort l).Perm l ∧ (sort l).Pairwise (fun a b => a.less b = false)

theorem search_spec (lower : Char → Char) (isSpace : Char → Bool) (sort : List WS → List WS)
    (hsort : SortOK sort) (links : List Str) (hlinks : ∀ w ∈ links, w ≠ []) (query : Str)
    (hqs : ∀ q ∈ fields isSpace query, q ≠ [])
    (limit tol : Option Int) (hlim : ∀ l, limit = some l → 0 < l ∧ l < 100)
    (htol : ∀ t, tol = some t → 0 ≤ t) :
    ∃ ws : List WS, search lower isSpace sort false links query limit tol = .ok (ws.map (·.word)) ∧
      IsTop (fun a b => WS.less a b = true) (limit.getD 10).toNat
        (candidates lower (fields isSpace query) (tol.getD 5) links) ws := by
  have htol' : 0 ≤ tol.getD 5 := by
    cases tol with
    | none => decide
    | some t => exact htol t rfl
  have hlim' : 0 < limit.getD 10 := by
    cases limit with
    | none => decide
    | some l => exact (hlim l rfl).1
  obtain ⟨h, h1, h2⟩ := collect_spec lower (fields isSpace query) hqs (tol.getD 5) htol'
    (limit.getD 10).toNat (by omega) links hlinks [] [] (Holds.nil _ _)
  rw [Int.toNat_of_nonneg (by omega)] at h1
  refine ⟨(sort h).reverse, ?_, ?_⟩
  · unfold search
    have hg : limitOutOfRange limit = false := by
      cases limit with
      | none => rfl
      | some l => have := hlim l rfl; simp [limitOutOfRange]; omega
    simp only [Bool.false_eq_true, if_false, hg]
    rw [if_neg (by omega)]
    unfold processUrlSource
    simp only [Option.getD_some]
    rw [h1]
    rfl
  · simp only [List.append_nil] at h2
    obtain ⟨hperm, hpw⟩ := hsort h
    obtain ⟨rest, hr1, hr2⟩ := h2.best
    refine ⟨?_, ?_, rest, ?_, ?_⟩
    · rw [List.pairwise_reverse]
      exact hpw.imp (fun {a b} hab => by simp [hab])
    · rw [List.length_reverse, hperm.length_eq, h2.len, List.length_reverse]
    · have e : (sort h).reverse.Perm h := (List.reverse_perm _).trans hperm
      exact ((List.reverse_perm _).symm.trans hr1).trans (e.symm.append_right rest)
    · intro a ha b hb
      have ha' : a ∈ h := (hperm.mem_iff).mp (by simpa using ha)
      simp [hr2 a ha' b hb]

theorem fields_nonempty (isSpace : Char → Bool) (s : Str) : ∀ q ∈ fields isSpace s, q ≠ [] := by
  have : ∀ (s cur : Str), ∀ q ∈ fields.go isSpace s cur, q ≠ [] := by
    intro s
    induction s with
    | nil =>
      intro cur q hq
      unfold fields.go at hq
      split at hq
      · simp at hq
      · rename_i hc
        simp at hq; subst hq; simpa using hc
    | cons c cs ih =>
      intro cur q hq
      unfold fields.go at hq
      split at hq
      · split at hq
        · exact ih _ q hq
        · rename_i hc
          rcases List.mem_cons.mp hq with rfl | hq
          · simpa using hc
          · exact ih _ q hq
      · exact ih _ q hq
  exact this s []

/-- A best-`k` list is determined by the multiset of candidates when the order is total. -/
theorem isTop_unique {α : Type} (lt : α → α → Prop) [DecidableRel lt]
    (hasymm : ∀ a b, lt a b → ¬ lt b a)
    (htrans : ∀ a b c, lt a b → lt b c → lt a c)
    (htri : ∀ a b, lt a b ∨ a = b ∨ lt b a) {k : Nat} {xs ys r r' : List α}
    (hp : xs.Perm ys) (h : IsTop lt k xs r) (h' : IsTop lt k ys r') : r = r' := by
  have hle : ∀ a b c, ¬ lt b a → ¬ lt c b → ¬ lt c a := by
    intro a b c h1 h2 h3
    rcases htri a b with h4 | rfl | h4
    · exact h2 (htrans _ _ _ h3 h4)
    · exact h2 h3
    · exact h1 h4
  obtain ⟨h1, h2, rest, h3, h4⟩ := h
  obtain ⟨h1', h2', rest', h3', h4'⟩ := h'
  have sorted : ∀ l : List α, ∃ l' : List α, l'.Perm l ∧ l'.Pairwise (fun a b => ¬ lt b a) := by
    intro l
    refine ⟨l.mergeSort (fun a b => !decide (lt b a)), List.mergeSort_perm _ _, ?_⟩
    have := List.pairwise_mergeSort (le := fun a b => !decide (lt b a))
      (by intro a b c; simp; exact hle a b c)
      (by intro a b
          simp
          by_cases hh : lt b a
          · exact .inr (hasymm _ _ hh)
          · exact .inl hh) l
    exact this.imp (by intro a b; simp)
  obtain ⟨s, hs1, hs2⟩ := sorted rest
  obtain ⟨s', hs1', hs2'⟩ := sorted rest'
  have full : (r ++ s).Pairwise (fun a b => ¬ lt b a) :=
    List.pairwise_append.mpr ⟨h1, hs2, fun a ha b hb => h4 a ha b (hs1.mem_iff.mp hb)⟩
  have full' : (r' ++ s').Pairwise (fun a b => ¬ lt b a) :=
    List.pairwise_append.mpr ⟨h1', hs2', fun a ha b hb => h4' a ha b (hs1'.mem_iff.mp hb)⟩
  have hperm : (r ++ s).Perm (r' ++ s') :=
    (hs1.append_left r).trans ((h3.symm.trans (hp.trans h3')).trans (hs1'.append_left r').symm)
  have heq : r ++ s = r' ++ s' := List.Perm.eq_of_pairwise
    (fun a b _ _ hab hba => by
      rcases htri a b with h | h | h
      · exact absurd h hba
      · exact h
      · exact absurd h hab) full full' hperm
  exact (List.append_inj heq (by rw [h2, h2', hp.length_eq])).1

end Burl.Fuzzy
