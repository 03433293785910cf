import Verif.Links.FoundProps
import Verif.Links.SetProps
/-! Property C57: links with the requested prefixes are found. -/
namespace Burl.Links
open Burl.Regex Spec
open Burl.Extract (fileErr fileLines Source Files Kind)

/-! ### Matches of the expression of prefixes -/

/-- Every choice that leads to something leads to the same. -/
theorem head?_flatMap_all {α β : Type} {l : List α} {f : α → List β} {x : β}
    (h : ∀ y ∈ l, f y = [] ∨ (f y).head? = some x) (hm : ∃ y ∈ l, f y ≠ []) :
    (l.flatMap f).head? = some x := by
  induction l with
  | nil => simp at hm
  | cons y ys ih =>
    rw [List.flatMap_cons, List.head?_append]
    rcases h y (by simp) with hy | hy
    · rw [hy]
      simp only [List.head?_nil, Option.none_or]
      apply ih (fun z hz => h z (by simp [hz]))
      obtain ⟨z, hz, hne⟩ := hm
      rcases List.mem_cons.1 hz with rfl | hz
      · exact absurd hy hne
      · exact ⟨z, hz, hne⟩
    · rw [hy]; rfl

theorem oneOf_state {letter : Char → Bool} {ls : List Str} {pre : List Char} {text : Str}
    {caps : List (Nat × Str)} {y : St} (h : y ∈ run letter (oneOf ls) ⟨pre, text, caps⟩) :
    ∃ w ∈ ls, ∃ b, text = w ++ b ∧ y = ⟨w.reverse ++ pre, b, caps⟩ := by
  obtain ⟨w, hw, m, hc⟩ := mem_oneOf.1 h
  refine ⟨w, hw, y.rest, m.1, ?_⟩
  have p := m.2
  cases y
  simp only at p hc
  subst p hc
  rfl

/-- Where a match may begin. -/
theorem set_begins {letter : Char → Bool} {k : Kind} {ls : List Str} {s : St}
    (h : run letter (setRe k ls) s ≠ []) :
    (k = .org ∧ ∃ c, c ∉ "[]".toList ∧ "[[".toList ++ [c] <+: s.rest) ∨
    (k = .org ∧ ∃ w ∈ ls, '<' :: w <+: s.rest) ∨
    (∃ w ∈ ls, w <+: s.rest ∧ atBoundary s = true) := by
  obtain ⟨s', h⟩ := List.exists_mem_of_ne_nil _ h
  have plain : ∀ {i : Nat} {x : St}, x ∈ run letter (.cat .wordB (.group i
      (cats (oneOf ls :: plainItems.reverse)))) s → ∃ w ∈ ls, w <+: s.rest ∧ atBoundary s = true := by
    intro i x hx
    obtain ⟨t, g1, g2⟩ := mem_cat.1 hx
    obtain ⟨rfl, hb⟩ := mem_wordB.1 g1
    obtain ⟨t', g3, -⟩ := mem_group.1 g2
    rw [mem_cats_cons plainItems_ne] at g3
    obtain ⟨u, g4, -⟩ := mem_cat.1 g3
    obtain ⟨w, hw, m, -⟩ := mem_oneOf.1 g4
    exact ⟨w, hw, ⟨_, m.1.symm⟩, hb⟩
  cases k with
  | txt => exact .inr (.inr (plain h))
  | org =>
    simp only [setRe, mem_alts, List.mem_cons, List.not_mem_nil, or_false, exists_eq_or_imp,
      exists_eq_left] at h
    rcases h with h | h | h
    · left
      rw [bracketRe_eq] at h
      obtain ⟨t1, g1, h1⟩ := mem_cat.1 h
      obtain ⟨t2, g2, h2⟩ := mem_cat.1 h1
      obtain ⟨t3, g3, -⟩ := mem_cat.1 h2
      obtain ⟨m1, -⟩ := mem_lit'.1 g1
      obtain ⟨m2, -⟩ := mem_lit'.1 g2
      obtain ⟨t, g4, -⟩ := mem_group.1 g3
      rw [bracketInner_eq] at g4
      obtain ⟨u, g5, -⟩ := mem_plus.1 g4
      obtain ⟨c, y, e, hc1, hc2⟩ := bracketUnit_head g5
      have := (m1.trans m2).1
      rw [e] at this
      exact ⟨rfl, c, by simp [hc1, hc2], y, by rw [this]; rfl⟩
    · right; left
      unfold angleRe at h
      rw [mem_cats_cons (by simp)] at h
      obtain ⟨t, g1, h1⟩ := mem_cat.1 h
      rw [mem_cats_cons (by simp)] at h1
      obtain ⟨u, g2, -⟩ := mem_cat.1 h1
      obtain ⟨m1, -⟩ := mem_lit'.1 g1
      obtain ⟨t', g3, -⟩ := mem_group.1 g2
      rw [mem_cats_cons angleItems_ne] at g3
      obtain ⟨v, g4, -⟩ := mem_cat.1 g3
      obtain ⟨w, hw, m2, -⟩ := mem_oneOf.1 g4
      have := (m1.trans m2).1
      exact ⟨rfl, w, hw, v.rest, by rw [this]; rfl⟩
    · exact .inr (.inr (plain h))

/-- A prefix with nothing after it is not an address written as is. -/
theorem short_none {letter : Char → Bool} {pre : List Char} {b rest : Str} {caps : List (Nat × Str)}
    (hb : b = [] ∨ ∃ c, b = [c] ∧ PlainChar c) (hr : Stops rest) :
    run letter (cats plainItems.reverse) ⟨pre, b ++ rest, caps⟩ = [] := by
  rw [plainItems_eq]
  show run letter (.cat (.plus false unit2) endRe) _ = _
  rw [run_cat]
  show ((run letter unit2 _).flatMap fun s' => loop false (run letter unit2) s'.rest.length s').flatMap
    _ = _
  rcases hb with rfl | ⟨c, rfl, hc⟩
  · rw [List.nil_append, (run_stop hr).1]
    rfl
  · rw [run_unit2 (u := [c]) (.inl ⟨c, rfl, hc⟩)]
    simp only [List.flatMap_cons, List.flatMap_nil, List.append_nil]
    have : ∀ n, loop false (run letter unit2) n ⟨[c].reverse ++ pre, rest, caps⟩ =
        [⟨[c].reverse ++ pre, rest, caps⟩] := by
      intro n
      cases n with
      | zero => rfl
      | succ n => simp [loop, (run_stop hr).1]
    rw [this]
    simp only [List.flatMap_cons, List.flatMap_nil, List.append_nil]
    exact (run_stop hr).2

theorem boundary {pre : List Char} {c : Char} {v : Str} {caps : List (Nat × Str)} (hc : Alnum c) :
    atBoundary ⟨pre, c :: v, caps⟩ = true ↔ ∀ d, pre.head? = some d → ¬Alnum d := by
  unfold atBoundary
  simp only [isWord_iff.2 hc]
  cases pre with
  | nil => simp
  | cons d pre =>
    have : isWord d = true ↔ Alnum d := isWord_iff
    by_cases hd : isWord d = true
    · simp [hd, this.1 hd]
    · have h2 : ¬Alnum d := fun h => hd (this.2 h)
      simp [Bool.not_eq_true _ ▸ hd, h2]

/-- An address written as is. -/
theorem plainRe_first {letter : Char → Bool} {i : Nat} {ls : List Str} {pre : List Char}
    {url rest : Str} (hpre : ∀ c, pre.head? = some c → ¬Alnum c)
    (hword : ∀ w ∈ ls, ∃ c v, w = c :: v ∧ Alnum c)
    (hw : ∃ w ∈ ls, ∃ b, url = w ++ b ∧ PlainBody b)
    (hall : ∀ w ∈ ls, w <+: url ++ rest → ∃ b, url = w ++ b ∧
      (PlainBody b ∨ b = [] ∨ ∃ c, b = [c] ∧ PlainChar c)) (hr : Stops rest) :
    (run letter (.cat .wordB (.group i (cats (oneOf ls :: plainItems.reverse))))
      ⟨pre, url ++ rest, []⟩).head? = some ⟨url.reverse ++ pre, rest, [(i, url)]⟩ := by
  have hB : run letter .wordB ⟨pre, url ++ rest, []⟩ = [⟨pre, url ++ rest, []⟩] := by
    show (if atBoundary ⟨pre, url ++ rest, []⟩ = true then [_] else []) = _
    rw [if_pos]
    obtain ⟨w, hw, b, rfl, -⟩ := hw
    obtain ⟨c, v, rfl, hc⟩ := hword w hw
    exact (boundary hc).2 hpre
  rw [run_cat, hB]
  simp only [List.flatMap_cons, List.flatMap_nil, List.append_nil]
  rw [run_group, List.head?_map]
  have : (run letter (cats (oneOf ls :: plainItems.reverse)) ⟨pre, url ++ rest, []⟩).head? =
      some ⟨url.reverse ++ pre, rest, []⟩ := by
    have e : run letter (cats (oneOf ls :: plainItems.reverse)) =
        run letter (.cat (oneOf ls) (cats plainItems.reverse)) := by
      rw [plainItems_eq]; rfl
    rw [e, run_cat]
    apply head?_flatMap_all
    · intro y hy
      obtain ⟨w, hw, b', e1, rfl⟩ := oneOf_state hy
      obtain ⟨b, e2, hb⟩ := hall w hw ⟨b', e1.symm⟩
      rw [e2, List.append_assoc] at e1
      have e1 := List.append_cancel_left e1
      subst e1
      rcases hb with hb | hb
      · right
        rw [body_first hb hr, e2]
        simp
      · exact .inl (short_none hb hr)
    · obtain ⟨w, hw, b, rfl, hb⟩ := hw
      refine ⟨⟨w.reverse ++ pre, b ++ rest, []⟩, mem_oneOf.2 ⟨w, hw, ⟨by simp, rfl⟩, rfl⟩, fun h => ?_⟩
      have := body_first (letter := letter) (pre := w.reverse ++ pre) (caps := []) hb hr
      rw [h] at this
      simp at this
  rw [this]
  simp only [Option.map_some, Option.some.injEq]
  rw [Moves.between (w := url) ⟨rfl, rfl⟩]

/-- A link in angle brackets. -/
theorem angleRe_first {letter : Char → Bool} {ls : List Str} {pre : List Char} {url rest : Str}
    (hx : ∀ c ∈ url, c ≠ '>' ∧ c ≠ '\n') (hw : ∃ w ∈ ls, w <+: url)
    (hall : ∀ w ∈ ls, w <+: url ++ ">".toList ++ rest → w <+: url) :
    (run letter (angleRe 3 (oneOf ls)) ⟨pre, ("<".toList ++ url ++ ">".toList) ++ rest, []⟩).head? =
      some ⟨("<".toList ++ url ++ ">".toList).reverse ++ pre, rest, [(3, url)]⟩ := by
  apply head?_of_all_eq
  · intro x hxm
    unfold angleRe at hxm
    rw [mem_cats_cons (by simp)] at hxm
    obtain ⟨t1, g1, hx1⟩ := mem_cat.1 hxm
    rw [mem_cats_cons (by simp)] at hx1
    obtain ⟨t2, g2, g5⟩ := mem_cat.1 hx1
    obtain ⟨m1, c1⟩ := mem_lit'.1 g1
    obtain ⟨t2', g2', rfl⟩ := mem_group.1 g2
    rw [mem_cats_cons angleItems_ne] at g2'
    obtain ⟨u, g3, g4⟩ := mem_cat.1 g2'
    obtain ⟨w, hw', m2, c2⟩ := mem_oneOf.1 g3
    obtain ⟨v, m3, hv⟩ := run_avoids letter (c := '>') _ (by decide +kernel) g4
    obtain ⟨⟨v', m3'⟩, d, hd, hI⟩ := run_good letter _ g4
    obtain rfl := m3.unique m3'
    rw [angleItems_idxs] at hI
    have hd0 : d = [] := by
      cases d with
      | nil => rfl
      | cons x xs => exact absurd (hI x (by simp)) (by simp)
    obtain ⟨m5, c5⟩ := mem_lit'.1 g5
    have e1 := m1.1
    have e2 := m2.1
    have e3 := m3.1
    have e5 := m5.1
    simp only at e5
    rw [e5] at e3
    rw [e2] at e1
    have e1' : url ++ '>' :: rest = w ++ u.rest := by simpa using e1
    obtain ⟨w', rfl⟩ := hall w hw' ⟨u.rest, by rw [← e1']; simp⟩
    rw [e3] at e1'
    simp only [List.append_assoc, List.singleton_append] at e1'
    have e1' := List.append_cancel_left e1'
    obtain ⟨rfl, hr⟩ := gt_unique (fun hc => (hx _ (List.mem_append_right _ hc)).1 rfl) hv e1'
    have p1 := m1.2
    have p2 := m2.2
    have p3 := m3.2
    have p5 := m5.2
    simp only at p1 p5
    have hcaps : x.caps = [(3, w ++ w')] := by
      rw [c5]
      simp only
      rw [(m2.trans m3).between, hd, hd0, c2, c1]
      rfl
    have hpre : x.pre = ("<".toList ++ (w ++ w') ++ ">".toList).reverse ++ pre := by
      rw [p5, p3, p2, p1]
      simp
    cases x
    simp only at hr hcaps hpre
    subst hr hcaps hpre
    rfl
  · obtain ⟨w, hw, v, rfl⟩ := hw
    unfold angleRe
    rw [mem_cats_cons (by simp)]
    refine mem_cat.2 ⟨⟨'<' :: pre, (w ++ v) ++ '>' :: rest, []⟩, mem_lit'.2 ⟨⟨by simp, rfl⟩, rfl⟩, ?_⟩
    rw [mem_cats_cons (by simp)]
    refine mem_cat.2 ⟨⟨(w ++ v).reverse ++ '<' :: pre, '>' :: rest, [(3, w ++ v)]⟩,
      mem_group.2 ⟨⟨(w ++ v).reverse ++ '<' :: pre, '>' :: rest, []⟩, ?_, ?_⟩, ?_⟩
    · rw [mem_cats_cons angleItems_ne]
      refine mem_cat.2 ⟨⟨w.reverse ++ '<' :: pre, v ++ '>' :: rest, []⟩,
        mem_oneOf.2 ⟨w, hw, ⟨by simp, rfl⟩, rfl⟩, ?_⟩
      rw [angleItems_eq, mem_cats_cons (by simp)]
      refine mem_cat.2 ⟨⟨v.reverse ++ (w.reverse ++ '<' :: pre),
        '>' :: rest, []⟩, (mem_star_one (p := Cls.has letter ⟨true, false,
        ['>', '\n'].map fun d => .range d d⟩) rfl).2 ⟨v, ⟨rfl, rfl⟩, rfl, ?_⟩, ?_⟩
      · intro c hc
        rw [has_none]
        have := hx c (List.mem_append_right _ hc)
        simp [this.1, this.2]
      · simp only [List.reverse_append, List.append_assoc]
        exact mem_star.2 .refl
    · rw [Moves.between (w := w ++ v) ⟨rfl, rfl⟩]
    · refine mem_lit'.2 ⟨⟨rfl, ?_⟩, rfl⟩
      simp

/-- Nothing is found in the text between links. -/
theorem noLink_silent {letter : Char → Bool} {k : Kind} {ls : List Str} {pre : List Char}
    {t rest : Str} (hword : ∀ w ∈ ls, ∃ c v, w = c :: v ∧ Alnum c)
    (h : NoLink (k = .org) ls t rest) : Silent letter (setRe k ls) pre t rest := by
  intro a c b ht
  apply Classical.byContradiction
  intro hne
  obtain ⟨h1, h2⟩ := h a (c :: b) ht (by simp)
  rcases set_begins hne with ⟨hk, d, hd, hp⟩ | ⟨hk, w, hw, hp⟩ | ⟨w, hw, hp, hb⟩
  · exact h1 hk d hd hp
  · exact (h2 w hw).2 hk hp
  · obtain ⟨e, he, hal⟩ := (h2 w hw).1 hp
    obtain ⟨f, v, rfl, hf⟩ := hword w hw
    obtain ⟨v', hv⟩ := hp
    simp only at hv
    rw [← hv] at hb
    refine (boundary hf).1 hb e ?_ hal
    rw [List.getLast?_eq_head?_reverse] at he
    rw [List.head?_append, he]
    rfl

theorem set_end {letter : Char → Bool} {k : Kind} {ls : List Str} {pre : List Char}
    (hword : ∀ w ∈ ls, ∃ c v, w = c :: v ∧ Alnum c) : run letter (setRe k ls) ⟨pre, [], []⟩ = [] := by
  apply Classical.byContradiction
  intro hne
  rcases set_begins hne with ⟨hk, d, hd, hp⟩ | ⟨hk, w, hw, hp⟩ | ⟨w, hw, hp, hb⟩
  · simp at hp
  · simp at hp
  · obtain ⟨f, v, rfl, hf⟩ := hword w hw
    simp at hp

theorem pick_org {letter : Char → Bool} {rp : Re} {ls : List Str} {m : Match} :
    pick letter rp (subs (setRe .org ls) m) =
      if m.sub 1 ≠ [] then if matchString letter rp (m.sub 1) then some (m.sub 1) else none
      else if m.sub 3 ≠ [] then some (m.sub 3) else if m.sub 4 ≠ [] then some (m.sub 4) else none := by
  have hg := setRe_groups .org ls
  simp only at hg
  have e : ∀ i ≤ 4, (subs (setRe .org ls) m)[i]? = some (m.sub i) :=
    fun i hi => getElem?_subs (Nat.le_trans hi hg.ge)
  have e1 := e 1 (by decide)
  have e3 := e 3 (by decide)
  have e4 := e 4 (by decide)
  generalize subs (setRe .org ls) m = l at *
  simp only [pick, e1, e3, e4, Option.getD_some]

theorem pick_txt {letter : Char → Bool} {rp : Re} {ls : List Str} {m : Match} (h : m.sub 1 ≠ []) :
    pick letter rp (subs (setRe .txt ls) m) =
      if matchString letter rp (m.sub 1) then some (m.sub 1) else none := by
  have hg := setRe_groups .txt ls
  simp only at hg
  have e1 : (subs (setRe .txt ls) m)[1]? = some (m.sub 1) := getElem?_subs hg.ge
  generalize subs (setRe .txt ls) m = l at *
  simp only [pick, e1, Option.getD_some]
  rw [if_pos h]

/-- Addresses of a line. -/
theorem set_found {letter : Char → Bool} {k : Kind} {ls : List Str}
    (hword : ∀ w ∈ ls, ∃ c v, w = c :: v ∧ Alnum c) {line : Str} {urls : List Str}
    (h : SetLaid (k = .org) ls line urls) :
    ∀ {n : Nat} {pre : List Char} {pe : Option Nat}, line.length < n →
      (∀ c, pre.head? = some c → ¬Alnum c ∨ Stops line) →
      ((findAllFrom letter (setRe k ls) n pre line pe).map (subs (setRe k ls))).filterMap
        (pick letter (.cat .bol (oneOf ls))) = urls := by
  induction h with
  | text hq =>
    intro n pre pe _ _
    rw [findAllFrom_end (noLink_silent hword hq) (set_end hword)]
    rfl
  | bracket hk hq hu hd hy _ ih =>
    intro n pre pe hn _
    rename_i t url part descr rest urls _ _
    subst hk
    obtain ⟨j, rfl⟩ : ∃ k, n = k + 1 := ⟨n - 1, by omega⟩
    obtain ⟨d, h1, h2⟩ := bracketRe_first (letter := letter) (rest := rest)
      (pre := t.reverse ++ pre) hu hd
    have h1' := show (run letter (setRe .org ls) _).head? = _ from
      (List.head?_append ..).trans (congrArg (Option.or · _) h1)
    rw [findAllFrom_next (item := "[[".toList ++ url ++ "]".toList ++ part ++ "]".toList)
      (noLink_silent hword hq) (by simp) h1']
    rw [List.map_cons, List.filterMap_cons_some, ih]
    · simp at hn ⊢; omega
    · intro c hc
      simp at hc
      subst hc
      exact .inl (by unfold Alnum; decide)
    · have s1 : Match.sub ⟨t.reverse ++ pre, "[[".toList ++ url ++ "]".toList ++ part ++ "]".toList,
          d ++ [(1, url)]⟩ 1 = url := by
        rcases h2 with ⟨-, rfl⟩ | rfl <;> rfl
      rw [pick_org, s1, if_pos hu.1, if_pos (matchString_prefix.2 hy)]
  | other hk hq hu hd hy _ ih =>
    intro n pre pe hn _
    rename_i t url part descr rest urls _ _
    subst hk
    obtain ⟨j, rfl⟩ : ∃ k, n = k + 1 := ⟨n - 1, by omega⟩
    obtain ⟨d, h1, h2⟩ := bracketRe_first (letter := letter) (rest := rest)
      (pre := t.reverse ++ pre) hu hd
    have h1' := show (run letter (setRe .org ls) _).head? = _ from
      (List.head?_append ..).trans (congrArg (Option.or · _) h1)
    rw [findAllFrom_next (item := "[[".toList ++ url ++ "]".toList ++ part ++ "]".toList)
      (noLink_silent hword hq) (by simp) h1']
    rw [List.map_cons, List.filterMap_cons_none, ih]
    · simp at hn ⊢; omega
    · intro c hc
      simp at hc
      subst hc
      exact .inl (by unfold Alnum; decide)
    · have s1 : Match.sub ⟨t.reverse ++ pre, "[[".toList ++ url ++ "]".toList ++ part ++ "]".toList,
          d ++ [(1, url)]⟩ 1 = url := by
        rcases h2 with ⟨-, rfl⟩ | rfl <;> rfl
      rw [pick_org, s1, if_pos hu.1, if_neg]
      rw [matchString_prefix]
      rintro ⟨w, hw, hp⟩
      exact hy w hw hp
  | angle hk hq hx hw hall _ ih =>
    intro n pre pe hn _
    rename_i t url rest urls _ _
    subst hk
    obtain ⟨j, rfl⟩ : ∃ k, n = k + 1 := ⟨n - 1, by omega⟩
    have h1 := angleRe_first (letter := letter) (pre := t.reverse ++ pre) hx hw hall
    have hbr : run letter bracketRe
        ⟨t.reverse ++ pre, ("<".toList ++ url ++ ">".toList) ++ rest, []⟩ = [] := by
      rw [bracketRe_eq]; rfl
    have h1' : (run letter (setRe .org ls)
        ⟨t.reverse ++ pre, ("<".toList ++ url ++ ">".toList) ++ rest, []⟩).head? =
        some ⟨("<".toList ++ url ++ ">".toList).reverse ++ (t.reverse ++ pre), rest, [(3, url)]⟩ := by
      show (run letter bracketRe _ ++ (run letter (angleRe 3 (oneOf ls)) _ ++ _)).head? = _
      rw [hbr, List.nil_append, List.head?_append, h1]
      rfl
    rw [findAllFrom_next (item := "<".toList ++ url ++ ">".toList)
      (noLink_silent hword hq) (by simp) h1']
    have hne : url ≠ [] := by
      rintro rfl
      obtain ⟨w, hw, hp⟩ := hw
      obtain ⟨c, v, rfl, -⟩ := hword w hw
      simp at hp
    rw [List.map_cons, List.filterMap_cons_some, ih]
    · simp at hn ⊢; omega
    · intro c hc
      simp at hc
      subst hc
      exact .inl (by unfold Alnum; decide)
    · have s1 : ∀ txt, Match.sub ⟨t.reverse ++ pre, txt, [(3, url)]⟩ 1 = [] := fun _ => rfl
      have s3 : ∀ txt, Match.sub ⟨t.reverse ++ pre, txt, [(3, url)]⟩ 3 = url := fun _ => rfl
      rw [pick_org, s1, s3, if_neg (by simp), if_pos hne]
  | plain hq hl hw hall hr _ ih =>
    intro n pre pe hn hpre
    rename_i t url rest urls _
    obtain ⟨j, rfl⟩ : ∃ k, n = k + 1 := ⟨n - 1, by omega⟩
    obtain ⟨c0, v0, e0, hc0⟩ : ∃ c v, url = c :: v ∧ Alnum c := by
      obtain ⟨w, hw, b, rfl, -⟩ := hw
      obtain ⟨c, v, rfl, hc⟩ := hword w hw
      exact ⟨c, v ++ b, rfl, hc⟩
    have hpre' : ∀ c, (t.reverse ++ pre).head? = some c → ¬Alnum c := by
      intro c hc
      rcases List.eq_nil_or_concat t with rfl | ⟨t', d, rfl⟩
      · rcases hpre c (by simpa using hc) with h | h
        · exact h
        · exfalso
          have h1 := h c0 (by rw [e0]; rfl)
          have h2 := isWord_iff.2 hc0
          have key : ∀ c ∈ "[] \t\n)<>".toList, isWord c = false := by decide
          rw [key _ h1] at h2
          exact absurd h2 (by decide)
      · have : c = d := by simpa using hc.symm
        subst this
        exact hl c (by simp)
    have hm : matchString letter (.cat .bol (oneOf ls)) url = true := by
      rw [matchString_prefix]
      obtain ⟨w, hw, b, rfl, -⟩ := hw
      exact ⟨w, hw, b, rfl⟩
    have hne : url ≠ [] := by rw [e0]; simp
    have hnext : ∀ (m : Match) ms, ms = urls → pick letter (.cat .bol (oneOf ls))
        (subs (setRe k ls) m) = some url → ∀ rs : List Match,
        (rs.map (subs (setRe k ls))).filterMap (pick letter (.cat .bol (oneOf ls))) = urls →
        ((m :: rs).map (subs (setRe k ls))).filterMap (pick letter (.cat .bol (oneOf ls))) =
          url :: urls := by
      intro m ms _ h rs hrs
      rw [List.map_cons, List.filterMap_cons_some h, hrs]
    have hlen : rest.length < j := by
      rw [e0] at hn
      simp at hn
      omega
    cases k with
    | org =>
      have h1 := plainRe_first (letter := letter) (i := 4) (pre := t.reverse ++ pre) hpre' hword hw
        hall hr
      have hbr : run letter bracketRe ⟨t.reverse ++ pre, url ++ rest, []⟩ = [] := by
        rw [e0, bracketRe_eq, run_cat, List.cons_append, run_lit_ne]
        · rfl
        · rintro rfl
          revert hc0
          unfold Alnum
          decide
      have han : run letter (angleRe 3 (oneOf ls)) ⟨t.reverse ++ pre, url ++ rest, []⟩ = [] := by
        rw [e0]
        show run letter (.cat (.lit '<') _) _ = _
        rw [run_cat, List.cons_append, run_lit_ne]
        · rfl
        · rintro rfl
          revert hc0
          unfold Alnum
          decide
      have h1' : (run letter (setRe .org ls) ⟨t.reverse ++ pre, url ++ rest, []⟩).head? =
          some ⟨url.reverse ++ (t.reverse ++ pre), rest, [(4, url)]⟩ := by
        show (run letter bracketRe _ ++ (run letter (angleRe 3 (oneOf ls)) _ ++ _)).head? = _
        rw [hbr, han, List.nil_append, List.nil_append]
        exact h1
      rw [findAllFrom_next (noLink_silent hword hq) hne h1']
      refine hnext _ _ rfl ?_ _ (ih hlen fun c _ => .inr hr)
      have s1 : ∀ txt, Match.sub ⟨t.reverse ++ pre, txt, [(4, url)]⟩ 1 = [] := fun _ => rfl
      have s3 : ∀ txt, Match.sub ⟨t.reverse ++ pre, txt, [(4, url)]⟩ 3 = [] := fun _ => rfl
      have s4 : ∀ txt, Match.sub ⟨t.reverse ++ pre, txt, [(4, url)]⟩ 4 = url := fun _ => rfl
      rw [pick_org, s1, s3, s4, if_neg (by simp), if_neg (by simp), if_pos hne]
    | txt =>
      have h1 := plainRe_first (letter := letter) (i := 1) (pre := t.reverse ++ pre) hpre' hword hw
        hall hr
      rw [findAllFrom_next (r := setRe .txt ls) (noLink_silent hword hq) hne h1]
      refine hnext _ _ rfl ?_ _ (ih hlen fun c _ => .inr hr)
      have s1 : ∀ txt, Match.sub ⟨t.reverse ++ pre, txt, [(1, url)]⟩ 1 = url := fun _ => rfl
      rw [pick_txt (by rw [s1]; exact hne), s1, if_pos hm]

/-! ### C57 -/

/-- Prefixes that begin with a letter of English. -/
def Ascii (ps : List Str) : Prop := ∀ p ∈ ps, ∃ c v, p = c :: v ∧ Alnum c

theorem ascii_wanted {ps : List Str} (h : Ascii ps) :
    ∀ w ∈ ps.map wanted, ∃ c v, w = c :: v ∧ Alnum c := by
  intro w hw
  obtain ⟨p, hp, rfl⟩ := List.mem_map.1 hw
  obtain ⟨c, v, rfl, hc⟩ := h p hp
  unfold wanted
  split
  · exact ⟨c, v, rfl, hc⟩
  · exact ⟨c, v ++ [':'], rfl, hc⟩

/-- C57: the addresses that `linkSet` collects from lines made of text and links are exactly the
addresses of the links with a requested prefix. -/
theorem c57_lines (letter : Char → Bool) (k : Kind) (ps lines : List Str) (hne : ps ≠ [])
    (hv : ∀ p ∈ ps, ValidPrefix p) (ha : Ascii ps) (urlsOf : Str → List Str)
    (h : ∀ line ∈ lines, SetLaid (k = .org) (ps.map wanted) line (urlsOf line))
    (err : Option Extract.FileErr) :
    ∃ result, extractSet letter k ps lines err [] = .ok (result, err.map .file) ∧
      result.Nodup ∧ ∀ u, u ∈ result ↔ ∃ line ∈ lines, u ∈ urlsOf line := by
  refine ⟨_, extractSet_valid hne hv lines err [], nodup_addKeys (by simp), fun u => ?_⟩
  rw [mem_addKeys]
  unfold fileKeys
  rw [List.mem_flatMap]
  constructor
  · rintro (h0 | ⟨line, hl, hu⟩)
    · simp at h0
    · refine ⟨line, hl, ?_⟩
      have := set_found (letter := letter) (ascii_wanted ha) (h line hl) (n := line.length + 2)
        (pre := []) (pe := none) (by omega) (by simp)
      rw [← this]
      exact hu
  · rintro ⟨line, hl, hu⟩
    refine .inr ⟨line, hl, ?_⟩
    have := set_found (letter := letter) (ascii_wanted ha) (h line hl) (n := line.length + 2)
      (pre := []) (pe := none) (by omega) (by simp)
    rw [← this] at hu
    exact hu

/-- C57 for a request: with valid prefixes and readable files the reply has the addresses of all the
links with a requested prefix of all the files, and nothing else. -/
theorem c57_request (letter : Char → Bool) (files : Files) (sources : List Source) (ps : List Str)
    (hn : ps.length ≤ 16) (hne : ps ≠ []) (hv : ∀ p ∈ ps, ValidPrefix p) (ha : Ascii ps)
    (hf : ∀ src ∈ sources, fileErr files src = none) (urlsOf : Kind → Str → List Str)
    (h : ∀ src ∈ sources, ∀ line ∈ fileLines files src,
      SetLaid (src.kind = .org) (ps.map wanted) line (urlsOf src.kind line))
    (r : Res SetErr (List Str)) (opened : List Str)
    (hr : LinkSet letter true files sources ps r opened) :
    ∃ urls, r = .ok urls ∧ urls.Nodup ∧ ∀ u, u ∈ urls ↔
      ∃ src ∈ sources, ∃ line ∈ fileLines files src, u ∈ urlsOf src.kind line := by
  obtain ⟨urls, rfl, hnd, hu⟩ := (c31_union (letter := letter) hn hne hv hf).2 r opened hr
  refine ⟨urls, rfl, hnd, fun u => ?_⟩
  clear hr
  have key : ∀ src ∈ sources, ∀ u, (∃ one o, LinkSet letter true files [src] ps (.ok one) o ∧
      u ∈ one) ↔ ∃ line ∈ fileLines files src, u ∈ urlsOf src.kind line := by
    intro src hs u
    have hfe := hf src hs
    unfold fileErr at hfe
    cases hfs : files src.name with
    | none => rw [hfs] at hfe; simp at hfe
    | some le =>
      obtain ⟨lines, err⟩ := le
      rw [hfs] at hfe
      simp only at hfe
      subst hfe
      have hlines : fileLines files src = lines := by simp [fileLines, hfs]
      rw [hlines]
      obtain ⟨result, h1, h2, h3⟩ := c57_lines letter src.kind ps lines hne hv ha (urlsOf src.kind)
        (by intro line hl; exact h src hs line (by rw [hlines]; exact hl)) none
      rw [← h3 u]
      have hg : setGroup letter files ps [src] [] = .ok (result, none, [src.name]) := by
        simp only [setGroup, hfs, h1, Option.map_none, Res.bind_ok]
      constructor
      · rintro ⟨one, o, hl, hu⟩
        cases hl with
        | ok _ _ h4 hp =>
          rw [hg] at h4
          have h4 := Res.ok.inj h4
          simp only [Prod.mk.injEq] at h4
          obtain ⟨rfl, -⟩ := h4
          exact hp.mem_iff.1 hu
      · intro hu
        exact ⟨result, _, .ok rfl hn hg (List.Perm.refl _), hu⟩
  rw [hu u]
  constructor
  · rintro ⟨src, hs, h'⟩
    exact ⟨src, hs, (key src hs u).1 h'⟩
  · rintro ⟨src, hs, h'⟩
    exact ⟨src, hs, (key src hs u).2 h'⟩

theorem split_lt {t a b : Str} (h : t = a ++ b) (hb : b ≠ []) :
    a.length < t.length ∧ a = t.take a.length ∧ b = t.drop a.length := by
  subst h
  have := List.length_pos_iff.2 hb
  refine ⟨by simp; omega, by simp, by simp⟩

/-- A way to check that no link begins in a text. -/
theorem noLink_of {org : Prop} {ws : List Str} {t rest : Str} (h : ∀ i < t.length,
    ¬"[[".toList <+: t.drop i ++ rest ∧ ∀ w ∈ ws, ¬'<' :: w <+: t.drop i ++ rest ∧
      (w <+: t.drop i ++ rest → ∃ c, (t.take i).getLast? = some c ∧ Alnum c)) :
    NoLink org ws t rest := by
  intro a b ht hb
  obtain ⟨h1, h2, h3⟩ := split_lt ht hb
  obtain ⟨g1, g2⟩ := h _ h1
  rw [← h2, ← h3] at g2
  rw [← h3] at g1
  refine ⟨fun _ c _ hp => g1 ?_, fun w hw => ⟨(g2 w hw).2, fun _ => (g2 w hw).1⟩⟩
  obtain ⟨v, hv⟩ := hp
  exact ⟨c :: v, by rw [← hv]; simp⟩

theorem noLink_quick {org : Prop} {ws : List Str} {t rest : Str} (h : ∀ i < t.length,
    ¬"[[".toList <+: t.drop i ++ rest ∧ ∀ w ∈ ws, ¬'<' :: w <+: t.drop i ++ rest ∧
      ¬w <+: t.drop i ++ rest) : NoLink org ws t rest :=
  noLink_of fun i hi => ⟨(h i hi).1, fun w hw =>
    ⟨((h i hi).2 w hw).1, fun hp => absurd hp ((h i hi).2 w hw).2⟩⟩

/-- A line with links of all kinds, one of which has no requested prefix. -/
example : SetLaid True (["http".toList, "https://a.b/".toList, "mid".toList].map wanted)
    "[[https://a.b/c][x]], [[file:f]] <mid:x y>; http://w.x/z).".toList
    ["https://a.b/c".toList, "mid:x y".toList, "http://w.x/z".toList] := by
  have h4 : SetLaid True (["http".toList, "https://a.b/".toList, "mid".toList].map wanted)
      ").".toList [] := .text (noLink_quick (by decide))
  have h3 : SetLaid True (["http".toList, "https://a.b/".toList, "mid".toList].map wanted)
      "; http://w.x/z).".toList ["http://w.x/z".toList] := by
    refine .plain (t := "; ".toList) (url := "http://w.x/z".toList) (rest := ").".toList)
      (noLink_quick (by decide)) (by unfold Alnum; decide) ?_ ?_ (by unfold Stops; decide) h4
    · exact ⟨"http:".toList, by decide, "//w.x/z".toList, rfl,
        plainBody_simple (w := "//w.x/".toList) (by decide) (by unfold PlainChar; decide)
        (by unfold PlainChar; decide) (by unfold Punct; decide)⟩
    · have key : ∀ w ∈ ["http".toList, "https://a.b/".toList, "mid".toList].map wanted,
          w <+: "http://w.x/z).".toList → w = "http:".toList := by decide
      intro w hw hp
      obtain rfl := key w hw hp
      exact ⟨"//w.x/z".toList, rfl, .inl (plainBody_simple (w := "//w.x/".toList) (by decide)
        (by unfold PlainChar; decide) (by unfold PlainChar; decide) (by unfold Punct; decide))⟩
  have h2 : SetLaid True (["http".toList, "https://a.b/".toList, "mid".toList].map wanted)
      " <mid:x y>; http://w.x/z).".toList ["mid:x y".toList, "http://w.x/z".toList] :=
    .angle (t := " ".toList) (url := "mid:x y".toList) trivial (noLink_quick (by decide)) (by decide)
      (by decide) (by decide) h3
  have h1 : SetLaid True (["http".toList, "https://a.b/".toList, "mid".toList].map wanted)
      ", [[file:f]] <mid:x y>; http://w.x/z).".toList ["mid:x y".toList, "http://w.x/z".toList] :=
    .other (t := ", ".toList) (url := "file:f".toList) (part := []) (descr := []) trivial
      (noLink_quick (by decide)) (by unfold Target; decide) (.inl ⟨rfl, rfl⟩) (by decide) h2
  refine .bracket (t := []) (url := "https://a.b/c".toList) (part := "[x]".toList)
    (descr := "x".toList) trivial (noLink_quick (by decide)) (by unfold Target; decide)
    (.inr ⟨rfl, by decide, ?_⟩) (by decide) h1
  rintro ⟨a, b, e⟩
  have hl := congrArg List.length e
  simp at hl
  have ha : a = [] := List.eq_nil_of_length_eq_zero (by omega)
  have hb : b = [] := List.eq_nil_of_length_eq_zero (by omega)
  subst ha hb
  exact absurd e (by decide)

end Burl.Links
