import Verif.Tree.CrashProps
/-! Exactly which limits crash the backend when all links that a query asks for are in one body (C22). -/
namespace Burl.Tree
open Burl.Tree.Spec

namespace Spec

/-- All accepted links of the tree, and there are some, are below the same heading. -/
inductive OneBody (f : Link → Bool) : Tree → Prop where
  | body {ls} : (∃ l ∈ ls, f l = true) → OneBody f (.body ls)
  | node {p pre t post} : (∀ x ∈ pre ++ post, ∀ l ∈ links x, f l = false) → OneBody f t →
      OneBody f (.node p (pre ++ t :: post))

/-- The product, kept in 64 bits, is negative and not too close to zero. -/
def Negative (n limit : Int) : Prop := ∃ m : Int, -2 ^ 63 ≤ n * limit - 2 ^ 64 * m ∧ n * limit - 2 ^ 64 * m ≤ -n

end Spec

theorem wrap64_spec (x : Int) : ∃ m, wrap64 x = x - 2 ^ 64 * m ∧ -2 ^ 63 ≤ wrap64 x ∧ wrap64 x < 2 ^ 63 := by
  unfold wrap64
  refine ⟨(x + 2 ^ 63) / 2 ^ 64, ?_, ?_, ?_⟩ <;> omega

theorem negative_iff {n limit : Int} (hn : 0 < n) : Negative n limit ↔ wrap64 (n * limit) ≤ -n := by
  obtain ⟨m, h1, h2, h3⟩ := wrap64_spec (n * limit)
  constructor
  · rintro ⟨k, h4, h5⟩
    have : k = m := by omega
    subst this
    omega
  · intro h
    exact ⟨m, by omega, by omega⟩

theorem countAs_append (f : Link → Bool) (ts us : List Tree) :
    countAs f (ts ++ us) = countAs f ts ++ countAs f us := by
  induction ts with
  | nil => simp [countAs]
  | cons t ts ih =>
    rw [List.cons_append, countAs, countAs]
    cases countA f t with
    | none => exact ih
    | some a => simp only; split <;> simp [ih]

theorem countAs_empty (f : Link → Bool) (ts : List Tree) (h : ∀ x ∈ ts, ∀ l ∈ links x, f l = false) :
    countAs f ts = [] := by
  apply countAs_none f .fileGroup
  unfold matches_
  rw [links]
  have : (linksAll ts).filter f = [] := by
    rw [List.filter_eq_nil_iff]
    induction ts with
    | nil => simp [linksAll]
    | cons t ts ih =>
      intro l hl
      rw [linksAll, List.mem_append] at hl
      rcases hl with hl | hl
      · simp [h t (by simp) l hl]
      · exact ih (fun x hx => h x (by simp [hx])) l hl
  rw [this]; rfl

theorem oneBody_count {f : Link → Bool} {t : Tree} (h : OneBody f t) : 0 < matches_ f t ∧ ∃ a, countA f t = some a ∧
    a.total = matches_ f t := by
  have hpos : 0 < matches_ f t := by
    unfold matches_
    have : ∃ l ∈ links t, f l = true := by
      induction h with
      | body h => simpa [links] using h
      | @node p pre t post _ _ ih =>
        obtain ⟨l, h1, h2⟩ := ih
        refine ⟨l, ?_, h2⟩
        rw [links]
        clear h2
        induction pre with
        | nil => simp [linksAll, h1]
        | cons x pre ih =>
          rename_i hx
          rw [List.cons_append, linksAll, List.mem_append]
          exact .inr (ih fun y hy => hx y (List.mem_cons_of_mem _ hy))
    obtain ⟨l, h1, h2⟩ := this
    have := List.length_pos_of_mem (List.mem_filter.2 ⟨h1, h2⟩)
    omega
  refine ⟨hpos, ?_⟩
  cases hc : countA f t with
  | none => rw [countA_none_total hc] at hpos; omega
  | some a => exact ⟨a, rfl, countA_some_total hc⟩

theorem oneBody_children {f : Link → Bool} {p : Props} {pre post : List Tree} {t : Tree}
    (he : ∀ x ∈ pre ++ post, ∀ l ∈ links x, f l = false) (h : OneBody f t) :
    ∃ a, countA f t = some a ∧ a.total = matches_ f t ∧ countAs f (pre ++ t :: post) = [a] ∧
      matches_ f (.node p (pre ++ t :: post)) = matches_ f t := by
  obtain ⟨h1, a, h2, h3⟩ := oneBody_count h
  have e : countAs f (pre ++ t :: post) = [a] := by
    rw [countAs_append, countAs_empty f pre (fun x hx => he x (by simp [hx])), countAs, h2]
    simp only
    rw [if_pos (by omega), countAs_empty f post (fun x hx => he x (by simp [hx]))]
    rfl
  refine ⟨a, h2, h3, e, ?_⟩
  have := countAs_total f (pre ++ t :: post)
  rw [e] at this
  simp only [sumTotals, List.map_cons, List.map_nil, List.sum_cons, List.sum_nil] at this
  unfold matches_ at *
  rw [links, ← this]
  omega

/-- The share of the only child. -/
def onlyShare (n s : Int) : Int := if Int.tdiv (wrap64 (n * s)) n = 0 then 1 else Int.tdiv (wrap64 (n * s)) n

theorem limitShares_one {n s : Int} (hn : 0 < n) (hs : 1 ≤ s) : limitShares [n] s = .ok [(0, onlyShare n s)] := by
  unfold limitShares
  simp only [List.length_singleton, List.range_one, List.zip_cons_cons, List.zip_nil_right, sortStable, insertDesc]
  rw [if_neg (by simp; omega)]
  simp [handOut, onlyShare, hn]

theorem filterA_one {n s : Int} {p : Props} {a : Annot} (hn : 0 < n) (ha : a.total = n) (hs : 1 ≤ s) :
    filterA s (.node n 0 p [a]) = .panic ↔ filterA (onlyShare n s) a = .panic := by
  rw [filterA, if_neg (by simp)]
  simp only [List.map_cons, List.map_nil, ha]
  rw [limitShares_one hn hs]
  simp only [Res.bind_ok, filterPick, List.lookup]
  cases h : filterA (onlyShare n s) a <;> simp [h]

theorem filterA_one_neg {f : Link → Bool} {t : Tree} (h : OneBody f t) {a : Annot} (ha : countA f t = some a)
    {s : Int} (hs : s < 0) : filterA s a = .panic := by
  cases h with
  | @body ls hl =>
    simp only [countA] at ha
    split at ha
    · cases ha
    · rename_i hne
      cases ha
      rw [filterA, limitLeaf, if_neg (by simpa using hne)]
      simp only
      rw [if_pos (by split <;> omega)]
      rfl
  | @node p pre t post he ht =>
    simp only [countA] at ha
    cases ha
    have := oneBody_count (.node (p := p) he ht)
    exact filterA_negative f p _ s hs this.1

theorem filterA_one_fits {f : Link → Bool} {t : Tree} (h : OneBody f t) {a : Annot} (ha : countA f t = some a)
    {s : Int} (hs : 1 ≤ s) (hlt : matches_ f t * s < 2 ^ 63) : filterA s a ≠ .panic := by
  induction h generalizing a s with
  | @body ls hl =>
    simp only [countA] at ha
    split at ha
    · cases ha
    · rename_i hne
      cases ha
      rw [filterA, limitLeaf, if_neg (by simpa using hne)]
      simp only
      rw [if_neg (by split <;> omega)]
      simp
  | @node p pre t post he ht ih =>
    simp only [countA] at ha
    obtain ⟨b, h1, h2, h3, h4⟩ := oneBody_children (p := p) he ht
    rw [h3] at ha
    simp only [sumTotals, List.map_cons, List.map_nil, List.sum_cons, List.sum_nil, Int.add_zero] at ha
    cases ha
    have hn := (oneBody_count ht).1
    rw [h4] at hlt
    rw [ne_eq, filterA_one (by omega) rfl hs]
    have : onlyShare b.total s = s := by
      unfold onlyShare
      rw [h2, wrap64_id (by positivity) hlt, Int.mul_tdiv_cancel_left _ (by omega), if_neg (by omega)]
    rw [this]
    exact ih h1 hs hlt

theorem filterA_one_exact {f : Link → Bool} {p : Props} {cs : List Tree} (h : OneBody f (.node p cs))
    (hfit : matches_ f (.node p cs) < 2 ^ 63) {s : Int} (hs : 0 ≤ s) : filterA s (.node (sumTotals (countAs f cs)) 0 p (countAs f cs)) = .panic ↔
      Negative (matches_ f (.node p cs)) s := by
  have hn := (oneBody_count h).1
  rw [negative_iff hn]
  cases h with
  | @node _ pre t post he ht =>
    obtain ⟨b, h1, h2, h3, h4⟩ := oneBody_children (p := p) he ht
    rw [h4] at hn hfit ⊢
    rw [h3]
    simp only [sumTotals, List.map_cons, List.map_nil, List.sum_cons, List.sum_nil, Int.add_zero]
    rcases Int.lt_or_eq_of_le hs with hs | rfl
    · rw [filterA_one (by omega) rfl hs, h2]
      obtain ⟨-, -, -, w3⟩ := wrap64_spec (matches_ f t * s)
      unfold onlyShare
      generalize wrap64 (matches_ f t * s) = w at *
      by_cases hw : w ≤ -matches_ f t
      · simp only [hw, iff_true]
        obtain ⟨v, rfl⟩ : ∃ v, w = -v := ⟨-w, by omega⟩
        have h5 : 1 ≤ v / matches_ f t := (Int.le_ediv_iff_mul_le hn).2 (by omega)
        rw [Int.neg_tdiv, Int.tdiv_eq_ediv_of_nonneg (by omega), if_neg (by omega)]
        exact filterA_one_neg ht h1 (by omega)
      · simp only [hw, iff_false]
        by_cases hw0 : 0 ≤ w
        · rw [Int.tdiv_eq_ediv_of_nonneg hw0]
          have h5 := Int.ediv_nonneg hw0 hn.le
          have h6 := Int.mul_ediv_self_le (x := w) (k := matches_ f t) (by omega)
          split
          · exact filterA_one_fits ht h1 (by omega) (by omega)
          · exact filterA_one_fits ht h1 (by omega) (by omega)
        · obtain ⟨v, rfl⟩ : ∃ v, w = -v := ⟨-w, by omega⟩
          rw [Int.neg_tdiv, Int.tdiv_eq_ediv_of_nonneg (by omega), Int.ediv_eq_zero_of_lt (by omega) (by omega), Int.neg_zero, if_pos rfl]
          exact filterA_one_fits ht h1 (by omega) (by omega)
    · rw [Int.mul_zero]
      have : ¬wrap64 0 ≤ -matches_ f t := by
        rw [wrap64_id (by decide) (by decide)]; omega
      simp only [this, iff_false]
      rw [filterA, if_neg (by simp)]
      simp only [List.map_cons, List.map_nil, h2]
      simp [limitShares, sortStable, insertDesc, handOut, filterPick]

/-- C22, exactly, for all limits, when all links that a query asks for are below the same heading: the backend
crashes just if the limit is negative or the product of the number of links and the limit is negative in 64
bits, but not too close to zero. -/
theorem c22_one_body {order : Str → List (Str × Str)} (ho : Orders order) {h : Heap}
    {p : Props} {cs : List Tree} {root : Addr} (ht : RepT h (.node p cs) root)
    (q : MentionsQuery) (hq : ∃ u ∈ q.variants, u ≠ []) {f : Link → Bool} (hf : Decides q f)
    (hone : OneBody f (.node p cs)) (hfit : matches_ f (.node p cs) < 2 ^ 63)
    {r : Res MentionsErr (Heap × Addr)} (hr : UrlMentions order h (some root) q r) :
    r = .panic ↔ q.limit < 0 ∨ Negative (matches_ f (.node p cs)) q.limit := by
  by_cases hL : q.limit < 0
  · exact ⟨fun _ => .inl hL, fun _ => c22_violation_negative ho ht q hq hf hL (oneBody_count hone).1 hr⟩
  · simp only [hL, false_or]
    rw [← filterA_one_exact hone hfit (by omega)]
    rcases (urlMentions_spec ho ht q hq hf).2 _ hr with ⟨e, rfl⟩ | ⟨_, _, _, e, rfl, _⟩
    · simp [e]
    · simp [e]

/-- So a limit crashes the backend whenever its product with the number of links is at least 2⁶³ and by this
number less than 2⁶⁴. -/
theorem c22_violation_large {order : Str → List (Str × Str)} (ho : Orders order) {h : Heap}
    {p : Props} {cs : List Tree} {root : Addr} (ht : RepT h (.node p cs) root)
    (q : MentionsQuery) (hq : ∃ u ∈ q.variants, u ≠ []) {f : Link → Bool} (hf : Decides q f)
    (hone : OneBody f (.node p cs)) (hfit : matches_ f (.node p cs) < 2 ^ 63)
    (h1 : 2 ^ 63 ≤ matches_ f (.node p cs) * q.limit)
    (h2 : matches_ f (.node p cs) * q.limit + matches_ f (.node p cs) ≤ 2 ^ 64)
    {r : Res MentionsErr (Heap × Addr)} (hr : UrlMentions order h (some root) q r) : r = .panic :=
  (c22_one_body ho ht q hq hf hone hfit hr).2 (.inr ⟨1, by omega, by omega⟩)

/-- Hypotheses are met by two links in a file: the limits 2⁶² and 2⁶³ - 1 crash, the limit
2⁶² - 1 does not. -/
example : let t : Tree := .node .fileGroup [.node (.file "a.txt".toList)
      [.body [exLink "http://a" 1, exLink "http://a/" 2]]]
    OneBody exAccept t ∧ matches_ exAccept t = 2 ∧ Negative 2 (2 ^ 62) ∧ Negative 2 (2 ^ 63 - 1) ∧ ¬Negative 2 (2 ^ 62 - 1) := by
  refine ⟨?_, by decide +kernel, ⟨1, by decide, by decide⟩, ⟨1, by decide, by decide⟩, ?_⟩
  · exact .node (pre := []) (post := []) (by simp) (.node (pre := []) (post := []) (by simp)
      (.body ⟨_, List.mem_cons_self, by decide +kernel⟩))
  · rintro ⟨m, h1, h2⟩
    omega

/-- Four links and the limit 2⁶²: the product is zero in 64 bits and nothing crashes, see
`c20_violation_overflow`. -/
example : ¬Negative 4 (2 ^ 62) := by
  rintro ⟨m, h1, h2⟩
  omega

/-! ### Links of the reply -/

theorem matching_empty {f : Link → Bool} {t : Tree} (h : ∀ l ∈ links t, f l = false) : matching f t = [] := by
  apply matching_nil
  unfold matches_
  rw [List.filter_eq_nil_iff.2 fun l hl => by simp [h l hl]]
  rfl

theorem matchingAll_one {f : Link → Bool} {pre post : List Tree} {t : Tree}
    (he : ∀ x ∈ pre ++ post, ∀ l ∈ links x, f l = false) : matchingAll f (pre ++ t :: post) = matching f t := by
  induction pre with
  | nil =>
    rw [List.nil_append, matchingAll]
    have : matchingAll f post = [] := by
      clear t
      induction post with
      | nil => rfl
      | cons x post ih =>
        rw [matchingAll, matching_empty (he x (by simp)), ih fun y hy => he y (by simp at hy ⊢; exact .inr hy)]
        rfl
    rw [this, List.append_nil]
  | cons x pre ih =>
    rw [List.cons_append, matchingAll, matching_empty (he x (by simp)), List.nil_append]
    exact ih fun y hy => he y (List.mem_cons_of_mem _ hy)

theorem filterA_one_ok {n s : Int} {p : Props} {a y : Annot} (hn : 0 < n) (ha : a.total = n) (hs : 1 ≤ s)
    (h : filterA (onlyShare n s) a = .ok y) :
    filterA s (.node n 0 p [a]) = .ok (.node n (sumFiltered [y]) p [y]) := by
  rw [filterA, if_neg (by simp)]
  simp only [List.map_cons, List.map_nil, ha]
  rw [limitShares_one hn hs]
  simp [filterPick, List.lookup, h]

theorem filterA_one_links {f : Link → Bool} {t : Tree} (h : OneBody f t) {a : Annot} (ha : countA f t = some a)
    {s : Int} (hs : 1 ≤ s) (hlt : matches_ f t * s < 2 ^ 63) :
    ∃ y, filterA s a = .ok y ∧ links y.erase = (matching f t).take s.toNat := by
  induction h generalizing a s with
  | @body ls hl =>
    simp only [countA] at ha
    split at ha
    · cases ha
    · rename_i hne
      cases ha
      rw [filterA, limitLeaf_spec _ _ hs (by simpa using hne)]
      exact ⟨_, rfl, rfl⟩
  | @node p pre t post he ht ih =>
    simp only [countA] at ha
    obtain ⟨b, h1, h2, h3, h4⟩ := oneBody_children (p := p) he ht
    rw [h3] at ha
    simp only [sumTotals, List.map_cons, List.map_nil, List.sum_cons, List.sum_nil, Int.add_zero] at ha
    cases ha
    have hn := (oneBody_count ht).1
    rw [h4] at hlt
    have : onlyShare b.total s = s := by
      unfold onlyShare
      rw [h2, wrap64_id (by positivity) hlt, Int.mul_tdiv_cancel_left _ (by omega), if_neg (by omega)]
    obtain ⟨y, h5, h6⟩ := ih h1 hs hlt
    refine ⟨_, filterA_one_ok (by omega) rfl hs (this.symm ▸ h5), ?_⟩
    rw [matching, matchingAll_one he, ← h6]
    simp [Annot.erase, Annot.eraseAll, links, linksAll]

/-- C19, C20, C55, exactly, for all positive limits, when all links that a query asks for are below the same
heading: a reply has the first of them.  How many is the product of their number and the limit, kept in 64 bits,
divided by their number, but at least one. -/
theorem c20_one_body {order : Str → List (Str × Str)} (ho : Orders order) {h : Heap}
    {p : Props} {cs : List Tree} {root : Addr} (ht : RepT h (.node p cs) root)
    (q : MentionsQuery) (hq : ∃ u ∈ q.variants, u ≠ []) {f : Link → Bool} (hf : Decides q f)
    (hone : OneBody f (.node p cs)) (hfit : matches_ f (.node p cs) < 2 ^ 63) (hL : 1 ≤ q.limit)
    {h' : Heap} {a : Addr} (hr : UrlMentions order h (some root) q (.ok (h', a))) :
    ∃ y w m, IsReply h' a y ∧ w = matches_ f (.node p cs) * q.limit - 2 ^ 64 * m ∧ w < 2 ^ 63 ∧
      -matches_ f (.node p cs) < w ∧
      links y.erase = (matching f (.node p cs)).take (max 1 (w / matches_ f (.node p cs))).toNat := by
  have hn := (oneBody_count hone).1
  have hnp : ¬wrap64 (matches_ f (.node p cs) * q.limit) ≤ -matches_ f (.node p cs) := by
    intro hw
    have := (c22_one_body ho ht q hq hf hone hfit hr).2 (.inr ((negative_iff hn).2 hw))
    cases this
  obtain ⟨m, w1, w2, w3⟩ := wrap64_spec (matches_ f (.node p cs) * q.limit)
  rcases (urlMentions_spec ho ht q hq hf).2 _ hr with ⟨_, e⟩ | ⟨y, h2, b, e1, e2, e3, _⟩
  · cases e
  cases e2
  refine ⟨y, _, m, e3, w1, w3, by omega, ?_⟩
  clear ht hr
  cases hone with
  | @node _ pre t post he ht =>
  obtain ⟨b, h1, h2, h3, h4⟩ := oneBody_children (p := p) he ht
  rw [h4] at hn hfit hnp w1 w2 w3 ⊢
  rw [h3] at e1
  simp only [sumTotals, List.map_cons, List.map_nil, List.sum_cons, List.sum_nil, Int.add_zero] at e1
  rw [matching, matchingAll_one he]
  have hshare : onlyShare b.total q.limit = max 1 (wrap64 (matches_ f t * q.limit) / matches_ f t) := by
    unfold onlyShare
    rw [h2]
    generalize wrap64 (matches_ f t * q.limit) = w at *
    by_cases hw0 : 0 ≤ w
    · rw [Int.tdiv_eq_ediv_of_nonneg hw0]
      have h5 := Int.ediv_nonneg hw0 hn.le
      split <;> omega
    · obtain ⟨v, rfl⟩ : ∃ v, w = -v := ⟨-w, by omega⟩
      rw [Int.neg_tdiv, Int.tdiv_eq_ediv_of_nonneg (by omega), Int.ediv_eq_zero_of_lt (by omega) (by omega),
        Int.neg_zero, if_pos rfl]
      have : -v / matches_ f t < 0 := Int.ediv_neg_of_neg_of_pos (by omega) hn
      omega
  have hle : matches_ f t * max 1 (wrap64 (matches_ f t * q.limit) / matches_ f t) < 2 ^ 63 := by
    generalize wrap64 (matches_ f t * q.limit) = w at *
    have h6 := Int.mul_ediv_self_le (x := w) (k := matches_ f t) (by omega)
    rcases max_choice 1 (w / matches_ f t) with e | e <;> rw [e] <;> omega
  obtain ⟨y', h5, h6⟩ := filterA_one_links ht h1 (le_max_left _ _) hle
  rw [filterA_one_ok (by omega) rfl hL (hshare.symm ▸ h5)] at e1
  cases e1
  rw [← h6]
  simp [Annot.erase, Annot.eraseAll, links, linksAll]

/-- Numbers of `c20_one_body` for four links and the limit 2⁶²: the product is zero, one link is left. -/
example : ∃ w m : Int, w = 4 * 2 ^ 62 - 2 ^ 64 * m ∧ w < 2 ^ 63 ∧ -4 < w ∧ max 1 (w / 4) = 1 := ⟨0, 1, by decide⟩

end Burl.Tree
