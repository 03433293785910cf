import Verif.Links.PrefixLemmas
/-! Sets of links: what is collected from a line, a file and a list of files. -/
namespace Burl.Links
open Burl.Regex Spec

theorem mem_oneOf {letter : Char → Bool} {ls : List Str} {s s' : St} :
    s' ∈ run letter (oneOf ls) s ↔ ∃ l ∈ ls, Moves s s' l ∧ s'.caps = s.caps := by
  unfold oneOf
  rw [mem_alts]
  constructor
  · rintro ⟨r, hr, h⟩
    obtain ⟨l, hl, rfl⟩ := List.mem_map.1 hr
    exact ⟨l, hl, mem_lits.1 h⟩
  · rintro ⟨l, hl, h⟩
    exact ⟨_, List.mem_map.2 ⟨l, hl, rfl⟩, mem_lits.2 h⟩

/-- The check of links in brackets: the text begins with one of the prefixes. -/
theorem matchString_prefix {letter : Char → Bool} {ls : List Str} {text : Str} :
    matchString letter (.cat .bol (oneOf ls)) text = true ↔ ∃ l ∈ ls, l <+: text := by
  unfold matchString
  rw [findFrom_isSome]
  constructor
  · rintro ⟨w, t, rfl, hne⟩
    obtain ⟨s', hs⟩ := List.exists_mem_of_ne_nil _ hne
    obtain ⟨u, g1, g2⟩ := mem_cat.1 hs
    obtain ⟨rfl, hp⟩ := mem_bol.1 g1
    obtain ⟨l, hl, m, -⟩ := mem_oneOf.1 g2
    have : w = [] := by simpa using hp
    subst this
    exact ⟨l, hl, s'.rest, m.1.symm⟩
  · rintro ⟨l, hl, t, rfl⟩
    refine ⟨[], l ++ t, rfl, ?_⟩
    apply List.ne_nil_of_mem (a := ⟨l.reverse, t, []⟩)
    exact mem_cat.2 ⟨_, mem_bol.2 ⟨rfl, rfl⟩, mem_oneOf.2 ⟨l, hl, ⟨rfl, by simp⟩, rfl⟩⟩

/-- A group that begins with one of the texts. -/
theorem group_oneOf {letter : Char → Bool} {ls : List Str} {i : Nat} {rs : List Re} (hrs : rs ≠ [])
    (hi : ∀ j ∈ idxs (cats rs), False) {s s' : St}
    (h : s' ∈ run letter (.group i (cats (oneOf ls :: rs))) s) :
    ∃ w, Moves s s' w ∧ s'.caps = (i, w) :: s.caps ∧ ∃ l ∈ ls, l <+: w := by
  obtain ⟨t, g1, rfl⟩ := mem_group.1 h
  rw [mem_cats_cons hrs] at g1
  obtain ⟨u, g2, g3⟩ := mem_cat.1 g1
  obtain ⟨l, hl, m1, c1⟩ := mem_oneOf.1 g2
  obtain ⟨⟨w, m2⟩, d, hd, hI⟩ := run_good letter _ g3
  have hd0 : d = [] := by
    cases d with
    | nil => rfl
    | cons x xs => exact absurd (hI x (by simp)) (fun h => hi _ h)
  have m := m1.trans m2
  refine ⟨l ++ w, m, ?_, l, hl, w, rfl⟩
  simp only
  rw [hd, hd0, c1, m.between]
  rfl

theorem plainItems_ne : plainItems.reverse ≠ [] := by decide +kernel
theorem angleItems_ne : angleItems.reverse ≠ [] := by decide +kernel
theorem plainItems_idxs : idxs (cats plainItems.reverse) = [] := by decide +kernel
theorem angleItems_idxs : idxs (cats angleItems.reverse) = [] := by decide +kernel
theorem bracketRe_idxs : idxs bracketRe = [1, 2] := by decide +kernel
theorem bracketRe_groups : groups bracketRe = 2 := by decide +kernel
theorem plainItems_groups : groups (cats plainItems.reverse) = 0 := by decide +kernel
theorem angleItems_groups : groups (cats angleItems.reverse) = 0 := by decide +kernel

theorem groups_lits (w : Str) : groups (cats (w.map .lit)) = 0 := by
  induction w with
  | nil => rfl
  | cons c cs ih =>
    cases cs with
    | nil => rfl
    | cons d ds =>
      have : cats ((c :: d :: ds).map .lit) = .cat (.lit c) (cats ((d :: ds).map .lit)) := rfl
      rw [this, groups, ih]; rfl

theorem groups_oneOf (ls : List Str) : groups (oneOf ls) = 0 := by
  unfold oneOf
  induction ls with
  | nil => rfl
  | cons l ls ih =>
    cases ls with
    | nil => exact groups_lits l
    | cons m ms =>
      have : alts ((l :: m :: ms).map fun l => cats (l.map .lit)) =
        .alt (cats (l.map .lit)) (alts ((m :: ms).map fun l => cats (l.map .lit))) := rfl
      rw [this, groups, ih, groups_lits]

theorem groups_cats_cons {r : Re} {rs : List Re} (h : rs ≠ []) :
    groups (cats (r :: rs)) = groups r + groups (cats rs) := by
  cases rs with
  | nil => exact absurd rfl h
  | cons a as => rfl

theorem sub_eq {m : Match} {i : Nat} {w : Str} {d : List (Nat × Str)} (hi : i ≠ 0)
    (h : m.caps = (i, w) :: d) : m.sub i = w := by
  unfold Match.sub
  rw [if_neg hi, h]
  simp

/-- The expression of links of a kind of source. -/
def setRe (k : Extract.Kind) (ls : List Str) : Re :=
  match k with
  | .org => alts [bracketRe, angleRe 3 (oneOf ls),
      .cat .wordB (.group 4 (cats (oneOf ls :: plainItems.reverse)))]
  | .txt => .cat .wordB (.group 1 (cats (oneOf ls :: plainItems.reverse)))

theorem compile_set (k : Extract.Kind) {ls : List Str} (hl : ls ≠ []) :
    compile (setPattern k ("(?:".toList ++ joinBar (ls.map quoteMeta) ++ ")".toList)) =
      some (setRe k ls) := by
  cases k
  · exact compile_org hl
  · exact compile_txt hl

theorem setRe_groups (k : Extract.Kind) (ls : List Str) :
    groups (setRe k ls) = match k with | .org => 4 | .txt => 1 := by
  have hp : groups (cats (oneOf ls :: plainItems.reverse)) = 0 := by
    rw [groups_cats_cons plainItems_ne, groups_oneOf, plainItems_groups]
  have ha : groups (cats (oneOf ls :: angleItems.reverse)) = 0 := by
    rw [groups_cats_cons angleItems_ne, groups_oneOf, angleItems_groups]
  cases k
  · show groups (.alt bracketRe (.alt (.cat (.lit '<') (.cat (.group 3
      (cats (oneOf ls :: angleItems.reverse))) (.lit '>')))
      (.cat .wordB (.group 4 (cats (oneOf ls :: plainItems.reverse)))))) = 4
    simp only [groups, ha, hp, bracketRe_groups]
  · simp only [setRe, groups, hp]

/-- What is added to the set for a match. -/
def pick (letter : Char → Bool) (rePrefix : Re) (m : List Str) : Option Str :=
  let g (i : Nat) : Str := (m[i]?).getD []
  if g 1 ≠ [] then if matchString letter rePrefix (g 1) then some (g 1) else none
  else if g 3 ≠ [] then some (g 3)
  else if g 4 ≠ [] then some (g 4)
  else none

theorem setMatches_eq {letter : Char → Bool} {rp : Re} {ms : List (List Str)}
    (h : ∀ m ∈ ms, 5 ≤ m.length ∨ ∃ b, b ≠ [] ∧ m[1]? = some b) (result : List Str) :
    setMatches letter rp ms result = .ok ((ms.filterMap (pick letter rp)).foldl addKey result) := by
  induction ms generalizing result with
  | nil => rfl
  | cons m ms ih =>
    have ih := ih (fun x hx => h x (by simp [hx]))
    simp only [setMatches, idx]
    by_cases hb : ∃ b, b ≠ [] ∧ m[1]? = some b
    · obtain ⟨b, hb1, hb2⟩ := hb
      rw [hb2]
      simp only [Res.bind_ok, if_pos hb1]
      rw [ih]
      by_cases hm : matchString letter rp b = true
      · have : pick letter rp m = some b := by simp [pick, hb2, hb1, hm]
        simp [hm, this]
      · have : pick letter rp m = none := by simp [pick, hb2, hb1, hm]
        simp [hm, this]
    · have hlen : 5 ≤ m.length := by
        rcases h m (by simp) with h1 | h1
        · exact h1
        · exact absurd h1 hb
      have e1 : m[1]? = some m[1] := List.getElem?_eq_getElem (by omega)
      have e3 : m[3]? = some m[3] := List.getElem?_eq_getElem (by omega)
      have e4 : m[4]? = some m[4] := List.getElem?_eq_getElem (by omega)
      have b1 : m[1] = [] := Classical.byContradiction fun hne => hb ⟨m[1], hne, e1⟩
      rw [e1, e3, e4, b1]
      simp only [Res.bind_ok, ne_eq, not_true_eq_false, if_false]
      by_cases h3 : m[3] = []
      · by_cases h4 : m[4] = []
        · have : pick letter rp m = none := by simp [pick, e1, e3, e4, b1, h3, h4]
          rw [if_neg (by simpa using h3), if_neg (by simpa using h4), ih,
            List.filterMap_cons, this]
        · have : pick letter rp m = some m[4] := by simp [pick, e1, e3, e4, b1, h3, h4]
          rw [if_neg (by simpa using h3), if_pos (by simpa using h4), ih,
            List.filterMap_cons, this]
          rfl
      · have : pick letter rp m = some m[3] := by simp [pick, e1, e3, b1, h3]
        rw [if_pos (by simpa using h3), ih, List.filterMap_cons, this]
        rfl

theorem getElem?_subs {r : Re} {m : Match} {i : Nat} (h : i ≤ groups r) :
    (subs r m)[i]? = some (m.sub i) := by
  unfold subs
  rw [List.getElem?_map, List.getElem?_range (by omega)]
  rfl

theorem length_subs (r : Re) (m : Match) : (subs r m).length = groups r + 1 := by
  simp [subs]

/-- What matches of the expression of links look like. -/
theorem setRe_match {letter : Char → Bool} {k : Extract.Kind} {ls : List Str} {line : Str}
    {m : Match} (h : m ∈ findAll letter (setRe k ls) line) :
    (k = .org ∧ m.sub 3 = [] ∧ m.sub 4 = []) ∨
    (k = .org ∧ m.sub 1 = [] ∧ ∃ l ∈ ls, l <+: m.sub 3) ∨
    (k = .org ∧ m.sub 1 = [] ∧ m.sub 3 = [] ∧ ∃ l ∈ ls, l <+: m.sub 4) ∨
    (k = .txt ∧ ∃ l ∈ ls, l <+: m.sub 1) := by
  obtain ⟨s, s', rfl, h1, hc, -⟩ := findAll_spec h
  cases k with
  | org =>
    simp only [setRe, mem_alts, List.mem_cons, List.not_mem_nil, or_false, exists_eq_or_imp,
      exists_eq_left] at h1
    rcases h1 with h1 | h1 | h1
    · left
      obtain ⟨-, d, hd, hI⟩ := run_good letter _ h1
      rw [bracketRe_idxs] at hI
      rw [hc, List.append_nil] at hd
      refine ⟨rfl, ?_, ?_⟩
      · refine sub_of_not_mem (by decide) fun p hp => ?_
        have := hI p (hd ▸ hp)
        intro h0; rw [h0] at this; revert this; decide
      · refine sub_of_not_mem (by decide) fun p hp => ?_
        have := hI p (hd ▸ hp)
        intro h0; rw [h0] at this; revert this; decide
    · right; left
      unfold angleRe at h1
      rw [mem_cats_cons (by simp)] at h1
      obtain ⟨t, g1, g2⟩ := mem_cat.1 h1
      rw [mem_cats_cons (by simp)] at g2
      obtain ⟨u, g3, g4⟩ := mem_cat.1 g2
      obtain ⟨m1, c1⟩ := mem_lit'.1 g1
      obtain ⟨w, m2, c2, l, hl, hw⟩ := group_oneOf angleItems_ne
        (by rw [angleItems_idxs]; simp) g3
      obtain ⟨m3, c3⟩ := mem_lit'.1 g4
      have hcaps : (mkMatch s s').caps = [(3, w)] := by
        show s'.caps = _
        rw [c3, c2, c1, hc]
      refine ⟨rfl, sub_of_not_mem (by decide) (by rw [hcaps]; simp), l, hl, ?_⟩
      rw [sub_eq (by decide) hcaps]
      exact hw
    · right; right; left
      obtain ⟨t, g1, g2⟩ := mem_cat.1 h1
      obtain ⟨rfl, -⟩ := mem_wordB.1 g1
      obtain ⟨w, m2, c2, l, hl, hw⟩ := group_oneOf plainItems_ne
        (by rw [plainItems_idxs]; simp) g2
      have hcaps : (mkMatch t s').caps = [(4, w)] := by
        show s'.caps = _
        rw [c2, hc]
      refine ⟨rfl, sub_of_not_mem (by decide) (by rw [hcaps]; simp),
        sub_of_not_mem (by decide) (by rw [hcaps]; simp), l, hl, ?_⟩
      rw [sub_eq (by decide) hcaps]
      exact hw
  | txt =>
    right; right; right
    obtain ⟨t, g1, g2⟩ := mem_cat.1 h1
    obtain ⟨rfl, -⟩ := mem_wordB.1 g1
    obtain ⟨w, m2, c2, l, hl, hw⟩ := group_oneOf plainItems_ne
      (by rw [plainItems_idxs]; simp) g2
    have hcaps : (mkMatch t s').caps = [(1, w)] := by
      show s'.caps = _
      rw [c2, hc]
    refine ⟨rfl, l, hl, ?_⟩
    rw [sub_eq (by decide) hcaps]
    exact hw

/-- Links of a line that go to the set. -/
def keysOf (letter : Char → Bool) (k : Extract.Kind) (ls : List Str) (line : Str) : List Str :=
  ((findAll letter (setRe k ls) line).map (subs (setRe k ls))).filterMap
    (pick letter (.cat .bol (oneOf ls)))

theorem keysOf_prefix {letter : Char → Bool} {k : Extract.Kind} {ls : List Str} {line u : Str}
    (h : u ∈ keysOf letter k ls line) : ∃ l ∈ ls, l <+: u := by
  obtain ⟨m', hm', hp⟩ := List.mem_filterMap.1 h
  obtain ⟨m, hm, rfl⟩ := List.mem_map.1 hm'
  have hg := setRe_groups k ls
  unfold pick at hp
  simp only at hp
  split at hp
  · split at hp
    · rename_i h2
      simp only [Option.some.injEq] at hp
      subst hp
      exact matchString_prefix.1 h2
    · simp at hp
  · rename_i h1
    have h1 := Classical.not_not.1 h1
    rcases setRe_match hm with ⟨rfl, h3, h4⟩ | ⟨rfl, _, h3⟩ | ⟨rfl, _, h3, h4⟩ | ⟨rfl, l, hl, h2⟩
    · simp only at hg
      rw [getElem?_subs (by rw [hg]; decide), getElem?_subs (by rw [hg]; decide), h3, h4] at hp
      simp at hp
    · simp only at hg
      rw [getElem?_subs (i := 3) (by rw [hg]; decide), getElem?_subs (i := 4) (by rw [hg]; decide)]
        at hp
      obtain ⟨l, hl, h3⟩ := h3
      simp only [Option.getD_some] at hp
      split at hp
      · simp only [Option.some.injEq] at hp; subst hp; exact ⟨l, hl, h3⟩
      · rename_i h5
        have h5 := Classical.not_not.1 h5
        rw [h5] at h3
        have : l = [] := List.eq_nil_of_prefix_nil h3
        subst this
        exact ⟨[], hl, List.nil_prefix⟩
    · simp only at hg
      rw [getElem?_subs (i := 3) (by rw [hg]; decide), getElem?_subs (i := 4) (by rw [hg]; decide),
        h3] at hp
      simp only [Option.getD_some, ne_eq, not_true_eq_false, if_false] at hp
      split at hp
      · simp only [Option.some.injEq] at hp; subst hp; exact h4
      · simp at hp
    · simp only at hg
      have e3 : (subs (setRe .txt ls) m)[3]? = none := by
        rw [List.getElem?_eq_none]; rw [length_subs, hg]; decide
      have e4 : (subs (setRe .txt ls) m)[4]? = none := by
        rw [List.getElem?_eq_none]; rw [length_subs, hg]; decide
      rw [e3, e4] at hp
      simp at hp

/-- Links that go to the set are parts of the line. -/
theorem keysOf_within {letter : Char → Bool} {k : Extract.Kind} {ls : List Str} {line u : Str}
    (h : u ∈ keysOf letter k ls line) : Within u line := by
  obtain ⟨m', hm', hp⟩ := List.mem_filterMap.1 h
  obtain ⟨m, hm, rfl⟩ := List.mem_map.1 hm'
  have hg : ∀ i : Nat, Within (((subs (setRe k ls) m)[i]?).getD []) line := by
    intro i
    by_cases hi : i ≤ groups (setRe k ls)
    · rw [getElem?_subs hi]
      obtain ⟨a, b, e⟩ := findAll_part hm i
      exact ⟨a, b, e⟩
    · rw [List.getElem?_eq_none (by rw [length_subs]; omega)]
      exact ⟨[], line, by simp⟩
  unfold pick at hp
  simp only at hp
  split at hp
  · split at hp
    · simp only [Option.some.injEq] at hp; subst hp; exact hg 1
    · simp at hp
  · split at hp
    · simp only [Option.some.injEq] at hp; subst hp; exact hg 3
    · split at hp
      · simp only [Option.some.injEq] at hp; subst hp; exact hg 4
      · simp at hp

theorem setLines_eq {letter : Char → Bool} {k : Extract.Kind} {ls : List Str}
    (hne : ∀ l ∈ ls, l ≠ []) (lines result : List Str) :
    setLines letter (setRe k ls) (.cat .bol (oneOf ls)) lines result =
      .ok ((lines.flatMap (keysOf letter k ls)).foldl addKey result) := by
  induction lines generalizing result with
  | nil => rfl
  | cons line lines ih =>
    simp only [setLines]
    rw [setMatches_eq]
    · simp only [Res.bind_ok, List.flatMap_cons, List.foldl_append]
      rw [ih]
      rfl
    · intro m' hm'
      obtain ⟨m, hm, rfl⟩ := List.mem_map.1 hm'
      have hg := setRe_groups k ls
      cases k with
      | org => left; rw [length_subs, hg]; decide
      | txt =>
        right
        simp only at hg
        refine ⟨m.sub 1, ?_, getElem?_subs (by rw [hg]; decide)⟩
        rcases setRe_match hm with ⟨h, _⟩ | ⟨h, _⟩ | ⟨h, _⟩ | ⟨-, l, hl, h2⟩
        · cases h
        · cases h
        · cases h
        · intro h0
          rw [h0] at h2
          exact hne l hl (List.eq_nil_of_prefix_nil h2)

theorem mem_addKeys {keys result : List Str} {u : Str} :
    u ∈ keys.foldl addKey result ↔ u ∈ result ∨ u ∈ keys := by
  induction keys generalizing result with
  | nil => simp
  | cons k ks ih =>
    rw [List.foldl_cons, ih]
    have : u ∈ addKey result k ↔ u ∈ result ∨ u = k := by
      unfold addKey
      split
      · rename_i h
        constructor
        · exact .inl
        · rintro (h1 | rfl)
          · exact h1
          · exact h
      · simp
    rw [this, List.mem_cons, or_assoc]

theorem nodup_addKeys {keys result : List Str} (h : result.Nodup) :
    (keys.foldl addKey result).Nodup := by
  induction keys generalizing result with
  | nil => exact h
  | cons k ks ih =>
    rw [List.foldl_cons]
    apply ih
    unfold addKey
    split
    · exact h
    · rename_i hk
      rw [List.nodup_append]
      refine ⟨h, by simp, ?_⟩
      intro a ha b hb
      simp only [List.mem_singleton] at hb
      subst hb
      rintro rfl
      exact hk ha

theorem wanted_ne (p : Str) : wanted p ≠ [] := by
  unfold wanted
  split
  · rename_i h; exact List.ne_nil_of_mem h
  · simp

/-- Links of a file with one of the prefixes. -/
def fileKeys (letter : Char → Bool) (k : Extract.Kind) (ps lines : List Str) : List Str :=
  lines.flatMap (keysOf letter k (ps.map wanted))

/-- `ExtractSet` with valid prefixes. -/
theorem extractSet_valid {letter : Char → Bool} {k : Extract.Kind} {ps : List Str} (hne : ps ≠ [])
    (hv : ∀ p ∈ ps, ValidPrefix p) (lines : List Str) (err : Option Extract.FileErr)
    (result : List Str) :
    extractSet letter k ps lines err result =
      .ok ((fileKeys letter k ps lines).foldl addKey result, err.map .file) := by
  have hb := (makeLinkSetBase_ok (letter := letter)).2 ⟨hne, hv, rfl⟩
  unfold extractSet
  rw [hb]
  simp only
  have hne' : ps.map wanted ≠ [] := by simpa using hne
  rw [compile_set k hne', compile_prefix hne']
  simp only
  rw [setLines_eq]
  · rfl
  · intro l hl
    obtain ⟨p, -, rfl⟩ := List.mem_map.1 hl
    exact wanted_ne p

theorem extractSet_empty (letter : Char → Bool) (k : Extract.Kind) (lines : List Str)
    (err : Option Extract.FileErr) (result : List Str) :
    extractSet letter k [] lines err result = .ok (result, some .emptyList) := rfl

theorem extractSet_invalid {letter : Char → Bool} {k : Extract.Kind} {ps : List Str} (hne : ps ≠ [])
    (hv : ∃ p ∈ ps, ¬ValidPrefix p) (lines : List Str) (err : Option Extract.FileErr)
    (result : List Str) :
    extractSet letter k ps lines err result = .ok (result, some .invalidPrefix) := by
  unfold extractSet
  rw [makeLinkSetBase_invalid hne hv]

end Burl.Links
