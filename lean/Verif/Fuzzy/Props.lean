import Verif.Fuzzy.SearchLemmas
/-! Properties C12-C16: approximate search. -/
namespace Burl.Fuzzy
open Burl.Fuzzy.Spec

/-! ### C12 -/

/-- C12: for non-empty pattern and word the distance is the least number of edits turning the
pattern into some contiguous part of the word, saturated at 32767. -/
theorem c12_optimal {α : Type} [DecidableEq α] (p w : List α) (hp : p ≠ []) (hw : w ≠ [])
    (d : Nat) (hd : IsBest p w d) : editorDistanceRunes p w = .ok (min 32767 (d : Int)) := by
  obtain ⟨d', h1, h2⟩ := editorDistanceRunes_spec p w hp hw
  rw [h2, isBest_unique h1 hd]

/-- The optimum used in C12 exists for every pair of texts. -/
theorem c12_optimum_exists {α : Type} [DecidableEq α] (p w : List α) : ∃ d, IsBest p w d :=
  exists_best p w

/-- C12, read in the other direction: whatever the code returns below 32767 is the optimum. -/
theorem c12_result_is_optimal {α : Type} [DecidableEq α] (p w : List α) (hp : p ≠ [])
    (hw : w ≠ []) (n : Nat) (hn : n < 32767) (h : editorDistanceRunes p w = .ok (n : Int)) :
    IsBest p w n := by
  obtain ⟨d, h1, h2⟩ := editorDistanceRunes_spec p w hp hw
  rw [h2] at h
  have : (min 32767 (d : Int)) = n := by simpa using h
  have : d = n := by omega
  rw [← this]; exact h1

-- a transposition is one edit, not two; a match may start inside the word
example : editorDistanceRunes "abcd".toList "xxacbdyy".toList = .ok 1 := by decide +kernel
example : IsBest "abcd".toList "xxacbdyy".toList 1 :=
  c12_result_is_optimal _ _ (by decide) (by decide) 1 (by decide) (by decide +kernel)
-- each symbol is edited at most once: "ca" -> "abc" costs 3 as a whole, 1 as a substring
example : editorDistanceRunes "ca".toList "abc".toList = .ok 1 := by decide +kernel

/-- C12 does not extend to an empty word or pattern: the code indexes out of range. -/
theorem c12_empty_word_panics : editorDistanceRunes "ab".toList "".toList = .panic := by
  decide +kernel

theorem c12_empty_pattern_panics (c : Char) (w : Str) :
    editorDistanceRunes ([] : Str) (c :: w) = .panic := rfl

/-! ### C13 -/

/-- C13: distance zero means substring. -/
theorem c13_zero_iff_substring {α : Type} [DecidableEq α] (p w : List α) (hp : p ≠ [])
    (hw : w ≠ []) : editorDistanceRunes p w = .ok 0 ↔ p <:+: w := by
  obtain ⟨d, h1, h2⟩ := editorDistanceRunes_spec p w hp hw
  rw [h2, ← isBest_zero h1]
  constructor
  · intro h
    have : (min 32767 (d : Int)) = 0 := by simpa using h
    omega
  · rintro rfl; rfl

/-- C13: the distance never exceeds the pattern length. -/
theorem c13_bounded {α : Type} [DecidableEq α] (p w : List α) (hp : p ≠ []) (hw : w ≠ []) :
    ∃ n : Int, editorDistanceRunes p w = .ok n ∧ 0 ≤ n ∧ n ≤ p.length := by
  obtain ⟨d, h1, h2⟩ := editorDistanceRunes_spec p w hp hw
  have := h1.2 [] p.length (by simp) (Edit.deleteAll p)
  exact ⟨_, h2, by omega, by omega⟩

/-- C13: text around the word never increases the distance. -/
theorem c13_context {α : Type} [DecidableEq α] (p w x y : List α) (hp : p ≠ []) (hw : w ≠ []) :
    ∃ n m : Int, editorDistanceRunes p w = .ok n ∧ editorDistanceRunes p (x ++ w ++ y) = .ok m ∧
      m ≤ n := by
  obtain ⟨d, h1, h2⟩ := editorDistanceRunes_spec p w hp hw
  obtain ⟨e, h3, h4⟩ := editorDistanceRunes_spec p (x ++ w ++ y) hp (by simp [hw])
  obtain ⟨⟨s, hs, he⟩, _⟩ := h1
  have := h3.2 s d (hs.trans ⟨x, y, rfl⟩) he
  exact ⟨_, _, h2, h4, by omega⟩

example : editorDistanceRunes "burl".toList "http://burl.example/".toList = .ok 0 := by
  decide +kernel

/-! ### C14 -/

/-- A concrete sorting function satisfying the assumption on `sort.Sort`. -/
theorem sortOK_mergeSort : SortOK (fun l => l.mergeSort (fun a b => !a.less b)) := by
  intro l
  refine ⟨List.mergeSort_perm _ _, ?_⟩
  have := List.pairwise_mergeSort (le := fun a b : WS => !a.less b)
    (by intro a b c h1 h2
        simp only [Bool.not_eq_true'] at *
        exact weak_less.trans _ _ _ h2 h1)
    (by intro a b
        simp only [Bool.or_eq_true, Bool.not_eq_true']
        cases h : a.less b with
        | false => exact .inl rfl
        | true => exact .inr (weak_less.asymm _ _ h)) l
  exact this.imp (by intro a b; simp)

/-- C14: the reply of Search is the best `limit` (default 10) of the accepted links, best
first, under the order (distance, byte length, text). -/
theorem c14_top (lower : Char → Char) (isSpace : Char → Bool) (sort : List WS → List WS)
    (hsort : SortOK sort) (links : List Str) (hlinks : ∀ w ∈ links, w ≠ []) (query : Str)
    (limit tol : Option Int) (hlim : ∀ l, limit = some l → 0 < l ∧ l < 100)
    (htol : ∀ t, tol = some t → 0 ≤ t) :
    ∃ ws : List (Int × Str),
      search lower isSpace sort false links query limit tol = .ok (ws.map Prod.snd) ∧
      IsTop Before (limit.getD 10).toNat
        (links.filterMap fun w =>
          (accept lower (fields isSpace query) (tol.getD 5) w).map fun n => (n, w)) ws := by
  obtain ⟨ws, h1, h2, h3, rest, h4, h5⟩ := search_spec lower isSpace sort hsort links hlinks query
    (fields_nonempty isSpace query) limit tol hlim htol
  have hmap : (candidates lower (fields isSpace query) (tol.getD 5) links).map
      (fun x => (x.weight, x.word)) = links.filterMap fun w =>
          (accept lower (fields isSpace query) (tol.getD 5) w).map fun n => (n, w) := by
    unfold candidates
    rw [List.map_filterMap]
    congr 1
    funext w
    cases accept lower (fields isSpace query) (tol.getD 5) w <;> rfl
  refine ⟨ws.map (fun x => (x.weight, x.word)), ?_, ?_⟩
  · rw [h1]; simp [Function.comp_def]
  · rw [← hmap]
    refine ⟨?_, by simpa using h3, rest.map (fun x => (x.weight, x.word)), ?_, ?_⟩
    · rw [List.pairwise_map]
      exact h2.imp (fun {a b} hab hb => hab ((less_iff b a).mpr hb))
    · rw [← List.map_append]; exact h4.map _
    · intro a ha b hb
      obtain ⟨a', ha', rfl⟩ := List.mem_map.mp ha
      obtain ⟨b', hb', rfl⟩ := List.mem_map.mp hb
      exact fun hh => h5 a' ha' b' hb' ((less_iff b' a').mpr hh)

/-- C14: the reply does not depend on the order in which links are visited, nor on how the
standard library sorts. -/
theorem c14_order_irrelevant (lower : Char → Char) (isSpace : Char → Bool)
    (sort sort' : List WS → List WS) (hsort : SortOK sort) (hsort' : SortOK sort')
    (links links' : List Str) (hperm : links.Perm links') (hlinks : ∀ w ∈ links, w ≠ [])
    (query : Str) (limit tol : Option Int) (hlim : ∀ l, limit = some l → 0 < l ∧ l < 100)
    (htol : ∀ t, tol = some t → 0 ≤ t) :
    search lower isSpace sort false links query limit tol =
      search lower isSpace sort' false links' query limit tol := by
  obtain ⟨ws, h1, h2⟩ := c14_top lower isSpace sort hsort links hlinks query limit tol hlim htol
  obtain ⟨ws', h1', h2'⟩ := c14_top lower isSpace sort' hsort' links'
    (fun w hw => hlinks w (hperm.mem_iff.mpr hw)) query limit tol hlim htol
  haveI : DecidableRel Before := fun _ _ => Classical.propDecidable _
  rw [h1, h1', isTop_unique Before before_asymm before_trans before_trichotomy
    (hperm.filterMap _) h2 h2']

-- the two-element heap is already in sorting order here, so the identity stands for `sort.Sort`
example : search Char.toLower (· == ' ') (fun l => l) false
    ["http://b.example/".toList, "ftp://x/".toList, "http://a.example/".toList,
      "http://exemple/".toList] "example".toList (some 2) (some 1) =
    .ok ["http://a.example/".toList, "http://b.example/".toList] := by decide +kernel

/-! ### C15 -/

/-- C15, one direction, for all inputs: a link is offered only if the total of the saturated
best distances (letter case ignored) of the query words is within the tolerance, and the
distance it is ranked by is that total. -/
theorem c15_offered_within_tolerance (lower : Char → Char) (qs : List Str)
    (hqs : ∀ q ∈ qs, q ≠ []) (tol : Int) (htol : 0 ≤ tol) (w : Str) (hw : w ≠ []) (n : Int)
    (h : accept lower qs tol w = some n) (best : Str → Nat)
    (hbest : ∀ q ∈ qs, IsBest (q.map lower) (w.map lower) (best q)) :
    n = (qs.map fun q => min 32767 (best q : Int)).sum ∧ n ≤ tol := by
  obtain ⟨b, m, _, h2, h3⟩ := queryDistance_spec lower qs hqs tol htol w hw
  rw [h] at h2
  cases b with
  | false => simp at h2
  | true =>
    simp at h2
    subst h2
    obtain ⟨h4, h5⟩ := h3 rfl
    refine ⟨?_, h5⟩
    rw [h4, satSum]
    congr 1
    apply List.map_congr_left
    intro q hq
    rw [isBest_unique (hbest q hq) (best_spec lower w q)]

theorem offered_nil {lower : Char → Char} {w : Str} {left k : Int} :
    Offered lower w left [] k ↔ k = 0 := by
  constructor
  · intro h; cases h; rfl
  · rintro rfl; exact .done

theorem offered_cons {lower : Char → Char} {w q : Str} {qs : List Str} {left k : Int} {b : Nat}
    (hb : IsBest (q.map lower) (w.map lower) b) :
    Offered lower w left (q :: qs) k ↔ (left = 0 ∧ q <:+: w ∧ Offered lower w 0 qs k) ∨
      (0 < left ∧ (utf8Len q : Int) ≤ utf8Len w + left ∧ min 32767 (b : Int) ≤ left ∧
        Offered lower w (left - min 32767 (b : Int)) qs (k - min 32767 (b : Int))) := by
  constructor
  · intro h
    cases h with
    | within h1 h2 => exact .inl ⟨rfl, h1, h2⟩
    | near h1 h2 h3 h4 h5 =>
      obtain rfl := isBest_unique hb h3
      refine .inr ⟨h1, h2, h4, ?_⟩
      rw [Int.add_comm, Int.add_sub_cancel]
      exact h5
  · rintro (⟨rfl, h1, h2⟩ | ⟨h1, h2, h3, h4⟩)
    · exact .within h1 h2
    · have := Offered.near h1 h2 hb h3 h4
      rwa [show min 32767 (b : Int) + (k - min 32767 (b : Int)) = k by omega] at this

theorem queryLoop_offered (lower : Char → Char) (w : Str) (hw : w ≠ []) (limit : Int) :
    ∀ (qs : List SubqueryLimit) (acc m : Int), (∀ q ∈ qs, q.query ≠ []) → acc ≤ limit →
      (queryDistanceLoop lower w limit qs acc = .ok (true, m) ↔
        Offered lower w (limit - acc) (qs.map (·.query)) (m - acc)) := by
  intro qs
  induction qs with
  | nil =>
    intro acc m _ _
    rw [List.map_nil, offered_nil, queryDistanceLoop]
    simp only [Res.ok.injEq, Prod.mk.injEq, true_and]
    omega
  | cons q qs ih =>
    intro acc m hq hacc
    have hwpos : 0 < utf8Len w := by
      have := mt (utf8Len_eq_zero (s := w)).mp hw; omega
    have hqs : ∀ x ∈ qs, x.query ≠ [] := fun x hx => hq x (by simp [hx])
    have hb := best_spec lower w q.query
    rw [List.map_cons, offered_cons hb]
    unfold queryDistanceLoop getSubqueryDistance
    rw [if_neg (by omega)]
    by_cases h0 : limit - acc = 0
    · rw [if_pos h0]
      by_cases hc : contains w q.query = true
      · rw [if_pos hc, Res.bind_ok]
        simp only
        rw [if_neg (by omega), Int.add_zero, ih acc m hqs hacc, h0]
        have := (contains_iff w _).1 hc
        constructor
        · exact fun h => .inl ⟨rfl, this, h⟩
        · rintro (h | h)
          · exact h.2.2
          · exact absurd h.1 (by omega)
      · rw [if_neg hc, Res.bind_ok]
        simp only
        rw [if_pos (by omega)]
        constructor
        · intro h; cases h
        · rintro (h | h)
          · exact absurd ((contains_iff w _).2 h.2.1) hc
          · exact absurd h.1 (by omega)
    · rw [if_neg h0]
      simp only
      split
      · rename_i hlen
        rw [Res.bind_ok, if_pos (by omega)]
        constructor
        · intro h; cases h
        · rintro (h | h)
          · exact absurd h.1 h0
          · exact absurd h.2.1 (by omega)
      · rename_i hlen
        rw [searchDistanceDL_spec lower q.query w (hq q (by simp)) hw, Res.bind_ok]
        generalize hv : min 32767 (best lower w q.query : Int) = v
        by_cases hgt : acc + v > limit
        · rw [if_pos hgt]
          constructor
          · intro h; cases h
          · rintro (h | h)
            · exact absurd h.1 h0
            · exact absurd h.2.2.1 (by omega)
        · rw [if_neg hgt, ih (acc + v) m hqs (by omega), Int.sub_sub, Int.sub_sub]
          constructor
          · exact fun h => .inr ⟨by omega, by omega, by omega, h⟩
          · rintro (h | h)
            · exact absurd h.1 h0
            · exact h.2.2.2

/-- C15, exactly what the code does, for all queries, links and tolerances: which links are offered and
with what distance. -/
theorem c15_exact (lower : Char → Char) (qs : List Str) (hqs : ∀ q ∈ qs, q ≠ []) (tol : Int)
    (htol : 0 ≤ tol) (w : Str) (hw : w ≠ []) (n : Int) :
    accept lower qs tol w = some n ↔ Offered lower w tol qs n := by
  have h := queryLoop_offered lower w hw tol (makeSubqueryLimit qs tol) 0 n (by
    intro q hq
    have : q.query ∈ (makeSubqueryLimit qs tol).map (·.query) := List.mem_map_of_mem hq
    rw [makeSub_query] at this
    exact hqs _ this) htol
  rw [makeSub_query, Int.sub_zero, Int.sub_zero] at h
  rw [← h]
  obtain ⟨b, m, h1, h2, -⟩ := queryDistance_spec lower qs hqs tol htol w hw
  unfold queryDistance at h1
  rw [h2, h1]
  cases b <;> simp

/-- C15 `_partial`: the full equivalence, for queries in ASCII without upper-case letters, links
without upper-case letters and tolerance below 32767.  What is missing: the code falls back to a
case-sensitive substring test when the tolerance is used up and compares byte lengths, see
`c15_violation_case`, `c15_violation_order` and `c15_violation_bytes`. -/
theorem c15_exact_partial (lower : Char → Char) (qs : List Str)
    (hqs : ∀ q ∈ qs, q ≠ [] ∧ q.map lower = q ∧ ∀ c ∈ q, c.utf8Size = 1) (tol : Int)
    (htol : 0 ≤ tol) (htol2 : tol < 32767) (w : Str) (hw : w ≠ []) (hwl : w.map lower = w)
    (best : Str → Nat) (hbest : ∀ q ∈ qs, IsBest q w (best q)) :
    accept lower qs tol w =
      if ((qs.map best).sum : Int) ≤ tol then some ((qs.map best).sum : Int) else none := by
  have hb : ∀ q ∈ qs, best q = Burl.Fuzzy.best lower w q := by
    intro q hq
    have h1 := best_spec lower w q
    rw [(hqs q hq).2.1, hwl] at h1
    exact isBest_unique (hbest q hq) h1
  have hsum : (qs.map best).sum = bestSum lower w qs := by
    unfold bestSum
    congr 1
    exact List.map_congr_left hb
  rw [hsum]
  split
  · rename_i hle
    have hx := queryLoop_exact lower w hw tol htol2 hwl (makeSubqueryLimit qs tol) 0
      (by intro q hq
          have hm : q.query ∈ (makeSubqueryLimit qs tol).map (·.query) := List.mem_map_of_mem hq
          rw [makeSub_query] at hm
          obtain ⟨a, b, c⟩ := hqs _ hm
          refine ⟨a, b, ?_⟩
          revert c
          generalize q.query = s
          intro c
          induction s with
          | nil => rfl
          | cons x xs ih =>
            have h1 := c x (by simp)
            have h2 := ih (fun y hy => c y (by simp [hy]))
            simp [h1, h2]; omega)
      (by rw [makeSub_query]; omega)
    rw [makeSub_query] at hx
    rcases hx with hx | hx
    · unfold accept queryDistance
      rw [hx]; simp
    · omega
  · rename_i hgt
    obtain ⟨b, m, _, h2, h3⟩ := queryDistance_spec lower qs (fun q hq => (hqs q hq).1) tol htol w hw
    rw [h2]
    cases b with
    | false => rfl
    | true =>
      exfalso
      obtain ⟨h4, h5⟩ := h3 rfl
      apply hgt
      -- each term is at most the tolerance, so saturation has no effect
      have key : ∀ l : List Str, satSum lower w l < 32767 →
          0 ≤ satSum lower w l ∧ satSum lower w l = bestSum lower w l := by
        intro l
        have hnn : ∀ l : List Str, 0 ≤ satSum lower w l := by
          intro l
          induction l with
          | nil => simp [satSum]
          | cons a l ih => simp only [satSum, List.map_cons, List.sum_cons] at *; omega
        induction l with
        | nil => intro _; simp [satSum, bestSum]
        | cons a l ih =>
          intro hlt
          have hl := hnn l
          simp only [satSum, bestSum, List.map_cons, List.sum_cons] at *
          have := ih (by omega)
          omega
      have := (key qs (by omega)).2
      omega

/-- Under the conditions of `c15_exact_partial` the order of the query words is irrelevant. -/
theorem c15_order_partial (lower : Char → Char) (qs qs' : List Str) (hperm : qs.Perm qs')
    (hqs : ∀ q ∈ qs, q ≠ [] ∧ q.map lower = q ∧ ∀ c ∈ q, c.utf8Size = 1) (tol : Int)
    (htol : 0 ≤ tol) (htol2 : tol < 32767) (w : Str) (hw : w ≠ []) (hwl : w.map lower = w) :
    accept lower qs tol w = accept lower qs' tol w := by
  have hb : ∀ q ∈ qs, IsBest q w (best lower w q) := by
    intro q hq
    have h1 := best_spec lower w q
    rwa [(hqs q hq).2.1, hwl] at h1
  rw [c15_exact_partial lower qs hqs tol htol htol2 w hw hwl (best lower w) hb,
    c15_exact_partial lower qs' (fun q hq => hqs q (hperm.mem_iff.mpr hq)) tol htol htol2 w hw hwl
      (best lower w) (fun q hq => hb q (hperm.mem_iff.mpr hq)), (hperm.map _).sum_nat]

example : accept Char.toLower ["foo".toList, "abc".toList] 1 "fooxab".toList = some 1 := by
  decide +kernel
example : accept Char.toLower ["abc".toList, "foo".toList] 1 "fooxab".toList = some 1 := by
  decide +kernel

/-- C15 fails: with no tolerance left letter case matters. -/
theorem c15_violation_case :
    IsBest ("foo".toList.map Char.toLower) ("FOO".toList.map Char.toLower) 0 ∧
      accept Char.toLower ["foo".toList] 0 "FOO".toList = none :=
  ⟨c12_result_is_optimal _ _ (by decide) (by decide) 0 (by decide) (by decide +kernel),
    by decide +kernel⟩

/-- C15 fails: the order of the query words decides whether the link is offered. -/
theorem c15_violation_order :
    accept Char.toLower ["foo".toList, "abc".toList] 1 "FOOxab".toList = some 1 ∧
      accept Char.toLower ["abc".toList, "foo".toList] 1 "FOOxab".toList = none := by
  decide +kernel

/-- C15 fails: byte lengths reject a link whose distance is within the tolerance. -/
theorem c15_violation_bytes :
    IsBest ("ыыы".toList.map Char.toLower) ("abc".toList.map Char.toLower) 3 ∧
      accept Char.toLower ["ыыы".toList] 3 "abc".toList = some 3 ∧
      IsBest ("ыыыы".toList.map Char.toLower) ("abыы".toList.map Char.toLower) 2 ∧
      accept Char.toLower ["ыыыы".toList] 2 "abыы".toList = some 2 ∧
      IsBest ("ыыыы".toList.map Char.toLower) ("ы".toList.map Char.toLower) 3 ∧
      accept Char.toLower ["ыыыы".toList] 3 "ы".toList = none :=
  ⟨c12_result_is_optimal _ _ (by decide) (by decide) 3 (by decide) (by decide +kernel),
    by decide +kernel,
    c12_result_is_optimal _ _ (by decide) (by decide) 2 (by decide) (by decide +kernel),
    by decide +kernel,
    c12_result_is_optimal _ _ (by decide) (by decide) 3 (by decide) (by decide +kernel),
    by decide +kernel⟩

/-! ### C14 and C15 together -/

/-- The query is split into its words. -/
theorem c14_words (isSpace : Char → Bool) (s : Str) : Words isSpace s (fields isSpace s) := by
  have key : ∀ (s cur : Str), (∀ c ∈ cur, isSpace c = false) →
      Words isSpace (cur.reverse ++ s) (fields.go isSpace s cur) := by
    intro s
    induction s with
    | nil =>
      intro cur hc
      unfold fields.go
      split
      · rename_i h
        have : cur = [] := by simpa using h
        subst this
        exact .none (fun c h => (nomatch h))
      · rename_i h
        rw [List.append_nil]
        exact .last (sp := []) (fun c h => (nomatch h)) (by simpa using h)
          (fun c h => hc c (by simpa using h))
    | cons c cs ih =>
      intro cur hc
      unfold fields.go
      split
      · rename_i hs
        split
        · rename_i h
          have : cur = [] := by simpa using h
          subst this
          have hrec := ih [] (fun c h => (nomatch h))
          simp only [List.reverse_nil, List.nil_append] at hrec ⊢
          generalize fields.go isSpace cs [] = ws at hrec
          cases hrec with
          | none h1 => exact .none (by
              intro d hd
              rcases List.mem_cons.1 hd with rfl | hd
              · exact hs
              · exact h1 d hd)
          | @last sp w h1 h2 h3 =>
            refine .last (sp := c :: sp) ?_ h2 h3
            intro d hd
            rcases List.mem_cons.1 hd with rfl | hd
            · exact hs
            · exact h1 d hd
          | @next sp w c' rest ws h1 h2 h3 h4 h5 =>
            refine .next (sp := c :: sp) ?_ h2 h3 h4 h5
            intro d hd
            rcases List.mem_cons.1 hd with rfl | hd
            · exact hs
            · exact h1 d hd
        · rename_i h
          have hrec := ih [] (fun c h => (nomatch h))
          simp only [List.reverse_nil, List.nil_append] at hrec
          exact .next (sp := []) (fun c h => (nomatch h)) (by simpa using h)
            (fun c h => hc c (by simpa using h)) hs hrec
      · rename_i hs
        have hrec := ih (c :: cur) (by
          intro d hd
          rcases List.mem_cons.1 hd with rfl | hd
          · simpa using hs
          · exact hc d hd)
        simpa using hrec
  exact key s [] (fun c h => (nomatch h))

/-- Words of a text are determined by it. -/
theorem words_unique {isSpace : Char → Bool} {s : Str} {ws ws' : List Str}
    (h : Words isSpace s ws) (h' : Words isSpace s ws') : ws = ws' := by
  -- the first word and what follows it
  have first : ∀ {sp w t sp' w' t' : Str}, (∀ c ∈ sp, isSpace c = true) →
      (∀ c ∈ sp', isSpace c = true) → w ≠ [] → w' ≠ [] → (∀ c ∈ w, isSpace c = false) →
      (∀ c ∈ w', isSpace c = false) → (∀ c, t.head? = some c → isSpace c = true) →
      (∀ c, t'.head? = some c → isSpace c = true) → sp ++ w ++ t = sp' ++ w' ++ t' →
      w = w' ∧ t = t' := by
    intro sp
    induction sp with
    | nil =>
      intro w t sp' w' t' _ h2 h3 h4 h5 h6 h7 h8 e
      cases sp' with
      | cons c sp' =>
        cases w with
        | nil => exact absurd rfl h3
        | cons d w =>
          simp only [List.nil_append, List.cons_append, List.cons.injEq] at e
          have a := h5 d (by simp)
          have b := h2 c (by simp)
          rw [e.1, b] at a
          cases a
      | nil =>
        simp only [List.nil_append] at e
        clear h2 h3 h4
        induction w generalizing w' with
        | nil =>
          cases w' with
          | nil => exact ⟨rfl, e⟩
          | cons d w' =>
            simp only [List.nil_append, List.cons_append] at e
            have a := h7 d (by rw [e]; rfl)
            rw [h6 d (by simp)] at a
            cases a
        | cons d w ih =>
          cases w' with
          | nil =>
            simp only [List.nil_append, List.cons_append] at e
            have a := h8 d (by rw [← e]; rfl)
            rw [h5 d (by simp)] at a
            cases a
          | cons d' w' =>
            simp only [List.cons_append, List.cons.injEq] at e
            obtain ⟨rfl, e⟩ := e
            obtain ⟨h1, h2⟩ := ih (w' := w') (fun c hc => h5 c (by simp [hc]))
              (fun c hc => h6 c (by simp [hc])) e
            exact ⟨by rw [h1], h2⟩
    | cons c sp ih =>
      intro w t sp' w' t' h1 h2 h3 h4 h5 h6 h7 h8 e
      cases sp' with
      | nil =>
        cases w' with
        | nil => exact absurd rfl h4
        | cons d w' =>
          simp only [List.nil_append, List.cons_append, List.cons.injEq] at e
          have a := h6 d (by simp)
          have b := h1 c (by simp)
          rw [← e.1, b] at a
          cases a
      | cons c' sp' =>
        simp only [List.cons_append, List.cons.injEq] at e
        exact ih (fun c hc => h1 c (by simp [hc])) (fun c hc => h2 c (by simp [hc])) h3 h4 h5 h6
          h7 h8 e.2
  have notall : ∀ {sp w t sp' : Str}, w ≠ [] → (∀ c ∈ w, isSpace c = false) →
      (∀ c ∈ sp', isSpace c = true) → sp ++ w ++ t ≠ sp' := by
    intro sp w t sp' h1 h2 h3 e
    cases w with
    | nil => exact h1 rfl
    | cons d w =>
      have a := h2 d (by simp)
      rw [h3 d (by rw [← e]; simp)] at a
      cases a
  have hsp : ∀ {c : Char} {rest : Str}, isSpace c = true →
      ∀ d, (c :: rest).head? = some d → isSpace d = true := by
    intro c rest h d hd
    simp only [List.head?_cons, Option.some.injEq] at hd
    exact hd ▸ h
  have hnil : ∀ d, ([] : Str).head? = some d → isSpace d = true := fun d hd => (nomatch hd)
  induction h generalizing ws' with
  | @none sp0 h1 =>
    generalize hs : sp0 = s at h'
    cases h' with
    | none => rfl
    | @last sp w _ h2 h3 => exact absurd (by rw [hs, List.append_nil]) (notall (sp := sp) (t := []) h2 h3 h1)
    | next _ h2 h3 => exact absurd hs.symm (notall h2 h3 h1)
  | @last sp w h1 h2 h3 =>
    generalize hs : sp ++ w = s at h'
    cases h' with
    | none h1' => exact absurd (by rw [← hs, List.append_nil]) (notall (sp := sp) (t := []) h2 h3 h1')
    | @last sp' w' h1' h2' h3' =>
      rw [(first (t := []) (t' := []) h1 h1' h2 h2' h3 h3' hnil hnil (by simpa using hs)).1]
    | @next sp' w' c rest ws h1' h2' h3' h4' h5' =>
      have := (first (t := []) h1 h1' h2 h2' h3 h3' hnil (hsp h4') (by simpa using hs)).2
      cases this
  | @next sp w c rest ws h1 h2 h3 h4 h5 ih =>
    generalize hs : sp ++ w ++ c :: rest = s at h'
    cases h' with
    | none h1' => exact absurd hs (notall h2 h3 h1')
    | @last sp' w' h1' h2' h3' =>
      have := (first (t' := []) h1 h1' h2 h2' h3 h3' (hsp h4) hnil (by simpa using hs)).2
      cases this
    | @next sp' w' c' rest' ws' h1' h2' h3' h4' h5' =>
      obtain ⟨e1, e2⟩ := first h1 h1' h2 h2' h3 h3' (hsp h4) (hsp h4') hs
      cases e2
      rw [e1, ih h5']

/-- C14 and C15 `_partial`: for queries in ASCII without upper-case letters, links without
upper-case letters and tolerance below 32767 the reply of Search is the best `limit` of the links
whose total distance from the words of the query is within the tolerance.  What is missing: see
`c15_exact_partial`. -/
theorem c15_search_partial (lower : Char → Char) (isSpace : Char → Bool)
    (sort : List WS → List WS) (hsort : SortOK sort) (links : List Str)
    (hlinks : ∀ w ∈ links, w ≠ [] ∧ w.map lower = w) (query : Str) (qs : List Str)
    (hwords : Words isSpace query qs)
    (hqs : ∀ q ∈ qs, q.map lower = q ∧ ∀ c ∈ q, c.utf8Size = 1)
    (limit tol : Option Int) (hlim : ∀ l, limit = some l → 0 < l ∧ l < 100)
    (htol : ∀ t, tol = some t → 0 ≤ t ∧ t < 32767)
    (best : Str → Str → Nat) (hbest : ∀ q ∈ qs, ∀ w ∈ links, IsBest q w (best q w)) :
    ∃ ws : List (Int × Str),
      search lower isSpace sort false links query limit tol = .ok (ws.map Prod.snd) ∧
      IsTop Before (limit.getD 10).toNat
        ((links.map fun w => (((qs.map fun q => best q w).sum : Int), w)).filter
          fun c => c.1 ≤ tol.getD 5) ws := by
  obtain ⟨ws, h1, h2⟩ := c14_top lower isSpace sort hsort links (fun w hw => (hlinks w hw).1) query
    limit tol hlim (fun t ht => (htol t ht).1)
  refine ⟨ws, h1, ?_⟩
  have hf : fields isSpace query = qs := words_unique (c14_words isSpace query) hwords
  have hne := fields_nonempty isSpace query
  rw [hf] at h2 hne
  have ht : 0 ≤ tol.getD 5 ∧ tol.getD 5 < 32767 := by
    cases tol with
    | none => decide
    | some t => exact htol t rfl
  have e : ∀ l : List Str, (∀ w ∈ l, w ∈ links) → (l.filterMap fun w =>
        (accept lower qs (tol.getD 5) w).map fun n => (n, w)) =
      (l.map fun w => (((qs.map fun q => best q w).sum : Int), w)).filter
          fun c => c.1 ≤ tol.getD 5 := by
    intro l
    induction l with
    | nil => intro _; rfl
    | cons w l ih =>
      intro hl
      have hw := hl w (by simp)
      have hx := c15_exact_partial lower qs (fun q hq => ⟨hne q hq, hqs q hq⟩) (tol.getD 5) ht.1
        ht.2 w (hlinks w hw).1 (hlinks w hw).2 (fun q => best q w) (fun q hq => hbest q hq w hw)
      rw [List.filterMap_cons, hx, ih (fun v hv => hl v (by simp [hv]))]
      simp only [List.map_cons, List.filter_cons, decide_eq_true_eq]
      by_cases hle : (((qs.map fun q => best q w).sum : Nat) : Int) ≤ tol.getD 5
      · rw [if_pos hle, if_pos hle]
        rfl
      · rw [if_neg hle, if_neg hle]
        rfl
  rw [e links (fun _ h => h)] at h2
  exact h2

/-- C14 and C15, for all queries, links and tolerances: the reply of Search is the best `limit` of the
links that are offered for the words of the query. -/
theorem c15_search (lower : Char → Char) (isSpace : Char → Bool)
    (sort : List WS → List WS) (hsort : SortOK sort) (links : List Str)
    (hlinks : ∀ w ∈ links, w ≠ []) (query : Str) (qs : List Str) (hwords : Words isSpace query qs)
    (limit tol : Option Int) (hlim : ∀ l, limit = some l → 0 < l ∧ l < 100)
    (htol : ∀ t, tol = some t → 0 ≤ t) :
    ∃ (dist : Str → Option Int) (ws : List (Int × Str)),
      (∀ w ∈ links, ∀ n, dist w = some n ↔ Offered lower w (tol.getD 5) qs n) ∧
      search lower isSpace sort false links query limit tol = .ok (ws.map Prod.snd) ∧
      IsTop Before (limit.getD 10).toNat
        (links.filterMap fun w => (dist w).map fun n => (n, w)) ws := by
  obtain ⟨ws, h1, h2⟩ := c14_top lower isSpace sort hsort links hlinks query limit tol hlim htol
  have hf : fields isSpace query = qs := words_unique (c14_words isSpace query) hwords
  have hne := fields_nonempty isSpace query
  rw [hf] at h2 hne
  refine ⟨accept lower qs (tol.getD 5), ws, fun w hw n => ?_, h1, h2⟩
  refine c15_exact lower qs hne _ ?_ w (hlinks w hw) n
  cases tol with
  | none => decide
  | some t => exact htol t rfl

/-- The order of words matters: with one edit allowed, `foo` and `abc` are offered `FOOxab`. -/
example : Offered Char.toLower "FOOxab".toList 1 ["foo".toList, "abc".toList] 1 ∧
    ¬∃ n, Offered Char.toLower "FOOxab".toList 1 ["abc".toList, "foo".toList] n := by
  constructor
  · exact (c15_exact _ _ (by decide) _ (by decide) _ (by decide) _).1 c15_violation_order.1
  · rintro ⟨n, h⟩
    have := (c15_exact _ _ (by decide) _ (by decide) _ (by decide) _).2 h
    rw [c15_violation_order.2] at this
    cases this

/-- Hypotheses of `c15_search_partial` are met by a query of two words and links at different
distances. -/
example : ∃ best : Str → Str → Nat, ∃ ws : List (Int × Str),
    search Char.toLower (· == ' ') (fun l => l.mergeSort fun a b => !a.less b) false
      ["http://burl/".toList, "http://bull/a".toList, "ftp://x".toList] " burl  http".toList
      (some 2) none = .ok (ws.map Prod.snd) ∧
    IsTop Before 2 (([("http://burl/".toList), "http://bull/a".toList, "ftp://x".toList].map
      fun w => (((["burl".toList, "http".toList].map fun q => best q w).sum : Int), w)).filter
        fun c => c.1 ≤ 5) ws := by
  have hw : Words (· == ' ') " burl  http".toList ["burl".toList, "http".toList] :=
    (by decide +kernel : fields (· == ' ') " burl  http".toList = ["burl".toList, "http".toList]) ▸
      c14_words _ _
  have hb : ∀ q w : Str, ∃ d, IsBest q w d := fun q w => c12_optimum_exists q w
  refine ⟨fun q w => (hb q w).choose, ?_⟩
  have := c15_search_partial Char.toLower (· == ' ') _ sortOK_mergeSort
    ["http://burl/".toList, "http://bull/a".toList, "ftp://x".toList] (by decide +kernel)
    " burl  http".toList _ hw (by decide +kernel) (some 2) none (by rintro l ⟨⟩; decide)
    (fun t h => (nomatch h)) (fun q w => (hb q w).choose) (fun q _ w _ => (hb q w).choose_spec)
  simpa using this

/-! ### C16 -/

/-- C16: Search answers with the right error for bad arguments and otherwise with a result;
it does not crash, whatever the query text, over non-empty links. -/
theorem c16_no_panic (lower : Char → Char) (isSpace : Char → Bool) (sort : List WS → List WS)
    (hsort : SortOK sort) (links : List Str) (hlinks : ∀ w ∈ links, w ≠ []) (query : Str)
    (limit tol : Option Int) :
    (∀ l, limit = some l → ¬ (0 < l ∧ l < 100) →
      search lower isSpace sort false links query limit tol = .err .limit) ∧
    ((∀ l, limit = some l → 0 < l ∧ l < 100) → (∃ t, tol = some t ∧ t < 0) →
      search lower isSpace sort false links query limit tol = .err .tolerance) ∧
    ((∀ l, limit = some l → 0 < l ∧ l < 100) → (∀ t, tol = some t → 0 ≤ t) →
      ∃ r, search lower isSpace sort false links query limit tol = .ok r ∧
        r.length ≤ (limit.getD 10).toNat ∧ ∀ u ∈ r, u ∈ links) := by
  have hgood : (∀ l, limit = some l → 0 < l ∧ l < 100) → limitOutOfRange limit = false := by
    intro h
    cases limit with
    | none => rfl
    | some l => have := h l rfl; simp [limitOutOfRange]; omega
  refine ⟨?_, ?_, ?_⟩
  · rintro l rfl hl
    have : limitOutOfRange (some l) = true := by simp [limitOutOfRange]; omega
    unfold search
    simp [this]
  · rintro hl ⟨t, rfl, ht⟩
    unfold search
    simp [hgood hl, ht]
  · intro hl ht
    obtain ⟨ws, h1, _, h3, rest, h4, _⟩ := c14_top lower isSpace sort hsort links hlinks query
      limit tol hl ht
    refine ⟨_, h1, by simp only [List.length_map]; omega, ?_⟩
    intro u hu
    obtain ⟨⟨n, u'⟩, hm, rfl⟩ := List.mem_map.mp hu
    have := h4.mem_iff.mpr (List.mem_append_left rest hm)
    obtain ⟨w, hw, hx⟩ := List.mem_filterMap.mp this
    cases ha : accept lower (fields isSpace query) (tol.getD 5) w with
    | none => rw [ha] at hx; simp at hx
    | some k =>
      rw [ha] at hx
      simp only [Option.map_some, Option.some.injEq, Prod.mk.injEq] at hx
      simpa [← hx.2] using hw

/-- The assumption on links in C16 is needed: an empty link crashes the search. -/
theorem c16_empty_link_panics :
    search Char.toLower (· == ' ') (fun l => l) false [[]] "ab".toList none none = .panic := by
  decide +kernel

example : search Char.toLower (· == ' ') (fun l => l) false ["http://a/".toList] "  ".toList
    (some 1) none = .ok ["http://a/".toList] := by decide +kernel

end Burl.Fuzzy
