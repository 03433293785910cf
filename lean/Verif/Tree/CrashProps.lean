import Verif.Tree.Props
/-! When `urlMentions` crashes (C22): the exact condition. -/
namespace Burl.Tree
open Burl.Tree.Spec

theorem countAs_none (f : Link → Bool) (p : Props) (cs : List Tree)
    (hm : matches_ f (.node p cs) = 0) : countAs f cs = [] := by
  have hm' : sumTotals (countAs f cs) = 0 := by
    rw [countAs_total]; exact hm
  have hpos := countAs_pos f cs
  cases h : countAs f cs with
  | nil => rfl
  | cons x xs =>
    rw [h] at hm' hpos
    have h1 := hpos x (by simp)
    have h2 : ∀ ys : List Annot, (∀ y ∈ ys, 0 < y.total) → 0 ≤ sumTotals ys := by
      intro ys
      induction ys with
      | nil => intro _; simp [sumTotals]
      | cons y ys ih =>
        intro hy
        have a := hy y (by simp)
        have b := ih fun z hz => hy z (by simp [hz])
        simp only [sumTotals, List.map_cons, List.sum_cons] at b ⊢
        omega
    have h3 := h2 xs fun y hy => hpos y (by simp [hy])
    simp only [sumTotals, List.map_cons, List.sum_cons] at hm' h3
    omega

/-- C22, exactly, for limits that are negative or small enough that the number of matches times the
limit fits in a machine word: the backend crashes just for negative limits of queries that ask for
something and have a match.  Missing: limits above, where the outcome depends on the numbers, see
`c22_violation_overflow`. -/
theorem c22_exact {order : Str → List (Str × Str)} (ho : Orders order) {h : Heap}
    {p : Props} {cs : List Tree} {root : Addr} (ht : RepT h (.node p cs) root)
    (q : MentionsQuery) {f : Link → Bool} (hf : Decides q f)
    (hlt : matches_ f (.node p cs) * q.limit < 2 ^ 63)
    {r : Res MentionsErr (Heap × Addr)} (hr : UrlMentions order h (some root) q r) :
    r = .panic ↔ (∃ u ∈ q.variants, u ≠ []) ∧ q.limit < 0 ∧ 0 < matches_ f (.node p cs) := by
  constructor
  · rintro rfl
    have hL : q.limit < 0 := by
      refine Int.lt_of_not_ge fun h => ?_
      exact c22_answered_partial ho ht q hf h hlt hr rfl
    have hq : ∃ u ∈ q.variants, u ≠ [] := by
      refine Classical.byContradiction fun hn => ?_
      have hall : q.variants.all (·.isEmpty) = true := by
        rw [List.all_eq_true]
        intro u hu
        refine List.isEmpty_iff.mpr (Classical.byContradiction fun hne => hn ⟨u, hu, hne⟩)
      unfold UrlMentions at hr
      rw [if_pos hall] at hr
      cases hr
    refine ⟨hq, hL, ?_⟩
    have hnn := matches_nonneg f (.node p cs)
    refine Classical.byContradiction fun h0 => ?_
    have hz := countAs_none f p cs (by omega)
    rcases (urlMentions_spec ho ht q hq hf).2 _ hr with ⟨e, _⟩ | ⟨_, _, _, _, e, _⟩
    · rw [hz] at e
      simp [filterA] at e
    · cases e
  · rintro ⟨hq, hL, hm⟩
    exact c22_violation_negative ho ht q hq hf hL hm hr

/-- Hypotheses of `c22_exact` are met by a query with four matches and a negative limit. -/
example : matches_ exAccept exTree * (exQuery (some (-1))).limit < 2 ^ 63 ∧
    0 < matches_ exAccept exTree := by
  rw [exMatches]; decide

end Burl.Tree
