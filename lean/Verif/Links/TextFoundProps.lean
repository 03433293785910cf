import Verif.Links.TextFoundLemmas
import Verif.Links.FileProps
/-! Addresses in words of text files are found. -/
namespace Burl.Links
open Burl.Regex Spec Burl.Tree Burl.Tree.Spec

section
variable {letter : Char → Bool} {pre : List Char} {rest : Str}

/-- Marks of addresses are not letters. -/
def Marks (letter : Char → Bool) : Prop := ∀ c ∈ "./:%".toList, letter c = false

theorem Marks.dot (h : Marks letter) : letter '.' = false := h _ (by decide)
theorem Marks.slash (h : Marks letter) : letter '/' = false := h _ (by decide)
theorem Marks.colon (h : Marks letter) : letter ':' = false := h _ (by decide)
theorem Marks.percent (h : Marks letter) : letter '%' = false := h _ (by decide)

theorem urlEnds_segEnds (h : UrlEnds letter rest) : SegEnds letter rest := by
  intro c hc
  obtain ⟨⟨h1, h2, h3, h4⟩, h5⟩ := h c hc
  refine ⟨?_, ?_⟩
  · rintro (h | h | h)
    · rw [h1] at h; simp at h
    · exact h2 h
    · exact h5 (by
        have : c ∈ ['.', '@', ',', '~', '_', '-'] := h
        show c ∈ ['.', '@', ',', '~', '_', '-', '%']
        simp only [List.mem_cons, List.not_mem_nil, or_false] at this ⊢
        rcases this with h | h | h | h | h | h <;> simp [h])
  · rintro rfl
    exact h5 (by decide)

theorem urlEnds_pathEnds (h : UrlEnds letter rest) : PathEnds letter rest := by
  refine ⟨(urlEnds_segEnds h), ?_⟩
  intro hc
  exact (h _ hc).1.2.2.2 rfl

theorem urlEnds_domainEnds (h : UrlEnds letter rest) : DomainEnds letter rest := by
  intro c hc
  obtain ⟨⟨h1, h2, h3, h4⟩, h5⟩ := h c hc
  refine ⟨?_, ?_⟩
  · rintro (h | h | h | h)
    · rw [h1] at h; simp at h
    · exact h2 h
    · subst h; exact h5 (by decide)
    · subst h; exact h5 (by decide)
  · rintro rfl
    exact h5 (by decide)

theorem path_head {p : Str} (h : FullPath letter p) (hne : p ≠ []) : ∃ t, p = '/' :: t := by
  cases h with
  | nil => exact absurd rfl hne
  | cons _ _ => exact ⟨_, rfl⟩

theorem path_domainEnds (hm : Marks letter) {p : Str} (h : FullPath letter p)
    (hr : UrlEnds letter rest) : DomainEnds letter (p ++ rest) := by
  cases h with
  | nil => exact (urlEnds_domainEnds hr)
  | cons _ _ =>
    intro c hc
    simp only [List.cons_append, List.head?_cons, Option.some.injEq] at hc
    subst hc
    rw [hm.slash]
    decide

theorem domain_head {parts : List Str} {top : Str} (hd : Domain letter parts top) :
    ∃ c t, domainText parts top = c :: t ∧ DomainChar letter c := by
  obtain ⟨-, h2, h3, -, h5⟩ := hd
  cases parts with
  | nil =>
    cases top with
    | nil => simp at h3
    | cons c t => exact ⟨c, t, rfl, .inl (h5 c (by simp))⟩
  | cons p ps =>
    obtain ⟨-, ⟨c, hc, hd⟩, -⟩ := h2 p (by simp)
    cases p with
    | nil => simp at hc
    | cons a p =>
      simp only [List.head?_cons, Option.some.injEq] at hc
      subst hc
      exact ⟨a, _, rfl, hd⟩

theorem domainChar_ne {c : Char} (hm : Marks letter) (h : DomainChar letter c) :
    c ≠ '/' ∧ c ≠ ':' := by
  constructor
  · rintro rfl
    rcases h with h | h
    · rw [hm.slash] at h; simp at h
    · revert h; decide
  · rintro rfl
    rcases h with h | h
    · rw [hm.colon] at h; simp at h
    · revert h; decide

/-- Conditions for a match to be taken for an address. -/
theorem isUrl_of {m : Match} (h0 : m.text ≠ []) (h1 : m.sub 1 ≠ m.text) (h4 : m.sub 4 ≠ m.text)
    (h3 : m.sub 3 ≠ m.sub 4 ∨ m.sub 1 ≠ []) (h5 : m.sub 5 ≠ m.text) :
    matchIsUrl (subs reUrl m) = true := by
  have hg := reUrl_groups
  have e0 : (subs reUrl m)[0]? = some m.text := getElem?_subs (by omega)
  have e1 : (subs reUrl m)[1]? = some (m.sub 1) := getElem?_subs (by omega)
  have e3 : (subs reUrl m)[3]? = some (m.sub 3) := getElem?_subs (by omega)
  have e4 : (subs reUrl m)[4]? = some (m.sub 4) := getElem?_subs (by omega)
  have e5 : (subs reUrl m)[5]? = some (m.sub 5) := getElem?_subs (by omega)
  generalize subs reUrl m = l at *
  simp only [matchIsUrl, e0, e1, e3, e4, e5, Option.some.injEq, if_neg h0, if_neg h1, if_neg h4,
    if_neg h5]
  rw [if_neg]
  rintro ⟨-, h6, h7⟩
  rcases h3 with h | h
  · exact h h6
  · exact h h7

theorem ne_of_length {a b : Str} (h : a.length < b.length) : a ≠ b := by
  rintro rfl
  omega

/-- An address is the first match at the place where it begins. -/
theorem url_first (hm : Marks letter) {url : Str} (hu : TextUrl letter url)
    (hr : UrlEnds letter rest) :
    ∃ caps, (run letter reUrl ⟨pre, url ++ rest, []⟩).head? = some ⟨url.reverse ++ pre, rest, caps⟩ ∧
      matchIsUrl (subs reUrl ⟨pre, url, caps⟩) = true := by
  rw [reUrl_eq]
  have schemeGroup : ∀ {w slashes rest : Str}, w ≠ [] →
      (∀ c ∈ w, ('A' ≤ c ∧ c ≤ 'Z') ∨ ('a' ≤ c ∧ c ≤ 'z')) →
      (slashes = "//".toList ∨ (slashes = [] ∧ ¬"//".toList <+: rest)) →
      ∃ c2, (run letter (.opt false (.group 1 reScheme))
        ⟨pre, w ++ ':' :: (slashes ++ rest), []⟩).head? =
        some ⟨(w ++ ':' :: slashes).reverse ++ pre, rest, (1, w ++ ':' :: slashes) :: c2⟩ ∧
        ∀ p ∈ c2, p.1 = 2 := by
    intro w slashes rest hw ha hs
    obtain ⟨c2, h1, h2⟩ := scheme_first (letter := letter) (pre := pre) (caps := []) hw ha hs
    refine ⟨c2, ?_, h2⟩
    rw [run_opt, List.head?_append, run_group, List.head?_map, h1]
    simp only [Option.map_some, Option.some_or, Option.some.injEq, List.append_nil]
    rw [Moves.between (w := w ++ ':' :: slashes) ⟨by simp, by simp⟩]
    simp
  have find2 : ∀ {c2 : List (Nat × Str)} {k : Nat}, (∀ p ∈ c2, p.1 = 2) → k ≠ 2 →
      c2.find? (fun p => p.1 == k) = none := by
    intro c2 k h hk
    rw [List.find?_eq_none]
    intro p hp
    rw [h p hp]
    simpa using Ne.symm hk
  cases hu with
  | full hs hd hp =>
    rename_i sch parts top path
    obtain ⟨c, t, hdt, hdc⟩ := domain_head hd
    have hlenD : 0 < (domainText parts top).length := by rw [hdt]; simp
    have htop : top.length ≤ (domainText parts top).length := by simp [domainText]
    obtain ⟨w, slashes, rfl, hw, ha, hs⟩ : ∃ w slashes, sch = w ++ ':' :: slashes ∧ w ≠ [] ∧
        (∀ c ∈ w, ('A' ≤ c ∧ c ≤ 'Z') ∨ ('a' ≤ c ∧ c ≤ 'z')) ∧ (slashes = "//".toList ∨
          (slashes = [] ∧ ¬"//".toList <+: domainText parts top ++ path ++ rest)) := by
      obtain ⟨w, h1, h2, h3⟩ := hs
      rcases h3 with rfl | rfl
      · refine ⟨w, [], rfl, h1, h2, .inr ⟨rfl, ?_⟩⟩
        rw [hdt]
        rintro ⟨y, hy⟩
        have : '/' = c := (List.cons.inj hy).1
        exact (domainChar_ne hm hdc).1 this.symm
      · exact ⟨w, "//".toList, rfl, h1, h2, .inl rfl⟩
    obtain ⟨c2, g1, g2⟩ := schemeGroup hw ha hs
    refine ⟨(5, path) :: (3, domainText parts top) :: (4, top) :: (1, w ++ ':' :: slashes) :: c2,
      ?_, ?_⟩
    · have e : w ++ ':' :: slashes ++ (domainText parts top ++ path) ++ rest =
          w ++ ':' :: (slashes ++ (domainText parts top ++ path ++ rest)) := by simp
      rw [e, run_cat]
      refine head?_cat g1 ?_
      rw [run_cat]
      refine head?_cat (y := ⟨(domainText parts top).reverse ++ ((w ++ ':' :: slashes).reverse ++ pre),
        path ++ rest, (3, domainText parts top) :: (4, top) :: (1, w ++ ':' :: slashes) :: c2⟩) ?_ ?_
      · rw [run_opt, List.head?_append, List.append_assoc,
          domain_first hm.dot hd (path_domainEnds hm hp hr)]
        rfl
      · rw [pathGroup_first hm.percent hm.slash (urlEnds_pathEnds hr) hp]
        simp
    · have s1 : Match.sub ⟨pre, w ++ ':' :: slashes ++ (domainText parts top ++ path),
          (5, path) :: (3, domainText parts top) :: (4, top) :: (1, w ++ ':' :: slashes) :: c2⟩ 1 =
          w ++ ':' :: slashes := rfl
      apply isUrl_of
      · simp
      · rw [s1]
        apply ne_of_length
        simp; omega
      · apply ne_of_length
        show top.length < _
        simp; omega
      · right
        rw [s1]
        simp
      · apply ne_of_length
        show path.length < _
        simp; omega
  | domain hne hd hp =>
    rename_i parts top path
    obtain ⟨p, ps, rfl⟩ := List.exists_cons_of_ne_nil hne
    have hpd := hd.2.1 p (by simp)
    have hlen : top.length < (domainText (p :: ps) top).length := by
      simp [domainText]; omega
    refine ⟨[(5, path), (3, domainText (p :: ps) top), (4, top)], ?_, ?_⟩
    · rw [run_cat, run_opt, run_group]
      have hnone : run letter reScheme ⟨pre, domainText (p :: ps) top ++ path ++ rest, []⟩ = [] := by
        have e : domainText (p :: ps) top ++ path ++ rest =
            p ++ '.' :: (domainText ps top ++ path ++ rest) := by simp [domainText]
        rw [e]
        apply scheme_none
        · intro h
          rcases hpd.2.2.2 _ h with h | h | h
          · exact (domainChar_ne hm h).2 rfl
          · revert h; decide
          · revert h; decide
        · decide
        · decide
      rw [hnone]
      simp only [List.map_nil, List.nil_append, List.flatMap_cons, List.flatMap_nil, List.append_nil]
      rw [run_cat]
      refine head?_cat (y := ⟨(domainText (p :: ps) top).reverse ++ pre,
        path ++ rest, [(3, domainText (p :: ps) top), (4, top)]⟩) ?_ ?_
      · rw [run_opt, List.head?_append, List.append_assoc,
          domain_first hm.dot hd (path_domainEnds hm hp hr)]
        rfl
      · rw [pathGroup_first hm.percent hm.slash (urlEnds_pathEnds hr) hp]
        simp
    · apply isUrl_of
      · apply List.ne_nil_of_length_pos
        show 0 < (domainText (p :: ps) top ++ path).length
        simp; omega
      · apply Ne.symm
        apply List.ne_nil_of_length_pos
        show 0 < (domainText (p :: ps) top ++ path).length
        simp; omega
      · apply ne_of_length
        show top.length < _
        simp; omega
      · left
        apply Ne.symm
        exact ne_of_length hlen
      · apply ne_of_length
        show path.length < _
        simp; omega
  | path hw ha hs hp hne =>
    rename_i w slashes path
    obtain ⟨y, hy⟩ := path_head hp hne
    have hs' : slashes = "//".toList ∨ (slashes = [] ∧ ¬"//".toList <+: path ++ rest) := by
      rcases hs with h | ⟨h1, h2⟩
      · exact .inl h
      · refine .inr ⟨h1, fun h => h2 ?_⟩
        subst hy
        cases y with
        | nil =>
          exfalso
          obtain ⟨z, hz⟩ := h
          have hz' : '/' :: '/' :: z = '/' :: rest := hz
          simp only [List.cons.injEq, true_and] at hz'
          exact (urlEnds_pathEnds hr).2 (by rw [← hz']; rfl)
        | cons b y =>
          obtain ⟨z, hz⟩ := h
          have hz' : '/' :: '/' :: z = '/' :: b :: (y ++ rest) := hz
          simp only [List.cons.injEq, true_and] at hz'
          exact ⟨y, by rw [← hz'.1]; rfl⟩
    have hlen : 0 < path.length := by rw [hy]; simp
    obtain ⟨c2, g1, g2⟩ := schemeGroup hw ha hs'
    refine ⟨(5, path) :: (1, w ++ ':' :: slashes) :: c2, ?_, ?_⟩
    · have e : w ++ ':' :: (slashes ++ path) ++ rest =
          w ++ ':' :: (slashes ++ (path ++ rest)) := by simp
      rw [e, run_cat]
      refine head?_cat g1 ?_
      rw [run_cat, run_opt, domain_none]
      · simp only [List.nil_append, List.flatMap_cons, List.flatMap_nil, List.append_nil]
        rw [pathGroup_first hm.percent hm.slash (urlEnds_pathEnds hr) hp]
        simp
      · subst hy
        intro c hc
        simp only [List.cons_append, List.head?_cons, Option.some.injEq] at hc
        subst hc
        rw [hm.slash]
        decide
    · have f3 : Match.sub ⟨pre, w ++ ':' :: (slashes ++ path),
          (5, path) :: (1, w ++ ':' :: slashes) :: c2⟩ 4 = [] := by
        apply sub_of_not_mem (by decide)
        intro p hp
        simp only [List.mem_cons] at hp
        rcases hp with rfl | rfl | hp
        · simp
        · simp
        · rw [g2 p hp]; decide
      have s1 : Match.sub ⟨pre, w ++ ':' :: (slashes ++ path),
          (5, path) :: (1, w ++ ':' :: slashes) :: c2⟩ 1 = w ++ ':' :: slashes := rfl
      apply isUrl_of
      · simp
      · rw [s1]
        apply ne_of_length
        simp; omega
      · rw [f3]
        simp
      · right
        rw [s1]
        simp
      · apply ne_of_length
        show path.length < _
        simp; omega

/-- Nothing is found at a dull character. -/
theorem dull_first (h : ∀ c, rest.head? = some c → Dull letter c) :
    (run letter reUrl ⟨pre, rest, []⟩).head? = some ⟨pre, rest, [(5, [])]⟩ := by
  have hpart : ∀ c, rest.head? = some c → clsPart.has letter c = false := by
    intro c hc
    rw [← Bool.not_eq_true]
    intro hp
    rcases has_part hp with g | g
    · rw [(h c hc).1] at g; simp at g
    · exact (h c hc).2.1 g
  have h1 : run letter reScheme ⟨pre, rest, []⟩ = [] := by
    apply Classical.byContradiction
    intro hne
    obtain ⟨s', hs'⟩ := List.exists_mem_of_ne_nil _ hne
    obtain ⟨t, ht, -⟩ := mem_cat.1 hs'
    obtain ⟨v, hv, m, -, hp⟩ := (mem_plus_one rfl).1 ht
    obtain ⟨c, v, rfl⟩ := List.exists_cons_of_ne_nil hv
    have e := m.1
    simp only [List.cons_append] at e
    exact (h c (by rw [e]; rfl)).2.2.1 (has_alpha (hp c (by simp)))
  have h2 : run letter (.group 3 (.cat (.rep 0 16 rePart) (.group 4 reTop))) ⟨pre, rest, []⟩ = [] := by
    have g1 : run letter rePart ⟨pre, rest, []⟩ = [] := by
      unfold rePart
      rw [run_cat, run_opt, run_cat]
      have : run letter (.cls clsPart) ⟨pre, rest, []⟩ = [] := one_no hpart
      rw [this]
      simp only [List.flatMap_nil, List.nil_append, List.flatMap_cons, List.append_nil]
      rw [run_cat, this]
      rfl
    have g2 : run letter reTop ⟨pre, rest, []⟩ = [] := by
      unfold reTop
      rw [run_cat]
      have : run letter (.rep 2 64 (.cls clsL)) ⟨pre, rest, []⟩ = [] := by
        show ((one (clsL.has letter) ⟨pre, rest, []⟩).flatMap _).flatMap _ = _
        rw [one_no]
        · rfl
        · intro c hc
          rw [L_has]
          exact (h c hc).1
      rw [this]
      rfl
    rw [run_group, run_cat]
    show (((times _ 0 _).flatMap (loop false (run letter rePart) 16)).flatMap _).map _ = _
    simp only [times, List.flatMap_cons, List.flatMap_nil, List.append_nil]
    rw [show (16 : Nat) = 15 + 1 from rfl, loop, g1]
    simp only [List.filter_nil, List.flatMap_nil, List.nil_append, Bool.false_eq_true, if_false,
      List.flatMap_cons, List.append_nil]
    rw [run_group, g2]
    rfl
  rw [reUrl_eq, run_cat, run_opt, run_group, h1]
  simp only [List.map_nil, List.nil_append, List.flatMap_cons, List.flatMap_nil, List.append_nil]
  rw [run_cat, run_opt, h2]
  simp only [List.nil_append, List.flatMap_cons, List.flatMap_nil, List.append_nil]
  rw [run_opt, List.head?_append, run_group, List.head?_map]
  show Option.or (Option.map _ (loop false (run letter reSeg) rest.length _).head?) _ = _
  have h3 : run letter reSeg ⟨pre, rest, []⟩ = [] := by
    unfold reSeg
    rw [run_cat]
    have : run letter (.lit '/') ⟨pre, rest, []⟩ = [] := by
      apply one_no
      intro c hc
      simpa using (h c hc).2.2.2
    rw [this]
    rfl
  rw [loop_stop h3]
  simp only [Option.map_some, Option.some_or, Option.some.injEq]
  rw [Moves.between (w := []) ⟨rfl, rfl⟩]

/-- Links from a place in a word. -/
def linksFrom (letter : Char → Bool) (n : Nat) (pre : List Char) (rest : Str) (pe : Option Nat) :
    List Link :=
  ((findAllFrom letter reUrl n pre rest pe).filter fun m => matchIsUrl (subs reUrl m)).map
    fun m => ⟨m.text, [], 0⟩

theorem empty_not_url {pre : List Char} {caps : List (Nat × Str)} :
    matchIsUrl (subs reUrl ⟨pre, [], caps⟩) = false := by
  have e0 : (subs reUrl ⟨pre, [], caps⟩)[0]? = some [] := getElem?_subs (by omega)
  generalize subs reUrl ⟨pre, [], caps⟩ = l at *
  simp [matchIsUrl, e0]

theorem linksFrom_end {n : Nat} {pe : Option Nat} : linksFrom letter (n + 1) pre [] pe = [] := by
  have h := dull_first (letter := letter) (pre := pre) (rest := []) (by simp)
  unfold linksFrom
  rw [findAllFrom, findFrom_here h]
  simp only [if_true]
  split
  · rfl
  · have : mkMatch ⟨pre, [], []⟩ ⟨pre, [], [(5, [])]⟩ = ⟨pre, [], [(5, [])]⟩ := by
      unfold mkMatch
      rw [Moves.between (s := ⟨pre, [], []⟩) (s' := ⟨pre, [], [(5, [])]⟩) (w := []) ⟨rfl, rfl⟩]
    rw [this, List.filter_cons_of_neg (by rw [empty_not_url]; decide)]
    rfl

theorem linksFrom_dull {n : Nat} {pe : Option Nat} {c : Char} (hc : Dull letter c) :
    linksFrom letter (n + 1) pre (c :: rest) pe =
      linksFrom letter n (c :: pre) rest (some pre.length) := by
  have h := dull_first (letter := letter) (pre := pre) (rest := c :: rest) (by
    intro d hd
    simp only [List.head?_cons, Option.some.injEq] at hd
    subst hd
    exact hc)
  unfold linksFrom
  rw [findAllFrom, findFrom_here h]
  simp only [if_true]
  have : mkMatch ⟨pre, c :: rest, []⟩ ⟨pre, c :: rest, [(5, [])]⟩ = ⟨pre, [], [(5, [])]⟩ := by
    unfold mkMatch
    rw [Moves.between (s := ⟨pre, c :: rest, []⟩) (s' := ⟨pre, c :: rest, [(5, [])]⟩) (w := [])
      ⟨rfl, rfl⟩]
  rw [this]
  split
  · rfl
  · rw [List.singleton_append, List.filter_cons_of_neg (by rw [empty_not_url]; decide)]

theorem textUrl_ne {url : Str} (h : TextUrl letter url) : url ≠ [] := by
  cases h with
  | full hs _ _ =>
    obtain ⟨w, hw, -, rfl | rfl⟩ := hs <;> simp
  | domain hne hd _ =>
    obtain ⟨c, t, h, -⟩ := domain_head hd
    rw [h]
    simp
  | path hw _ _ _ _ => simp

/-- Characters of addresses. -/
def UrlChar (letter : Char → Bool) (c : Char) : Prop :=
  letter c = true ∨ ('0' ≤ c ∧ c ≤ '9') ∨ (('A' ≤ c ∧ c ≤ 'Z') ∨ ('a' ≤ c ∧ c ≤ 'z')) ∨
    c ∈ ".:/@,~_-%".toList

theorem barrier_not {c : Char} (h : Barrier letter c) : ¬UrlChar letter c := by
  obtain ⟨⟨h1, h2, h3, h4⟩, h5⟩ := h
  rintro (h | h | h | h)
  · rw [h1] at h; simp at h
  · exact h2 h
  · exact h3 h
  · apply h5
    have : c ∈ ['.', ':', '/', '@', ',', '~', '_', '-', '%'] := h
    show c ∈ ['.', ':', '@', ',', '~', '_', '-', '%']
    simp only [List.mem_cons, List.not_mem_nil, or_false] at this ⊢
    simp only [h4, false_or] at this
    exact this

theorem dotted_urlChars {d : Str} (h : Dotted letter d) : ∀ c ∈ d, UrlChar letter c := by
  induction h with
  | nil => simp
  | cons _ hp _ ih =>
    intro c hc
    simp only [List.mem_append, List.mem_cons] at hc
    rcases hc with hc | rfl | hc
    · rcases hp c hc with h | h | rfl | rfl
      · exact .inl h
      · exact .inr (.inl h)
      · exact .inr (.inr (.inr (by decide)))
      · exact .inr (.inr (.inr (by decide)))
    · exact .inr (.inr (.inr (by decide)))
    · exact ih c hc

theorem scheme_urlChars {s : Str} (h : SchemePart s) : ∀ c ∈ s, UrlChar letter c := by
  obtain ⟨w, -, hw, rfl | rfl⟩ := h <;>
  · intro c hc
    rcases List.mem_append.1 hc with hc | hc
    · exact .inr (.inr (.inl (hw c hc)))
    · refine .inr (.inr (.inr ?_))
      have : c = ':' ∨ c = '/' := by simp at hc; simp [hc]
      rcases this with rfl | rfl <;> decide

theorem path_urlChars {p : Str} (h : Path letter p) : ∀ c ∈ p, UrlChar letter c := by
  rcases h with rfl | ⟨t, rfl, h⟩
  · simp
  · intro c hc
    rcases List.mem_cons.1 hc with rfl | hc
    · exact .inr (.inr (.inr (by decide)))
    · rcases h c hc with h | h | h | h | h
      · exact .inl h
      · exact .inr (.inl h)
      · exact .inr (.inr (.inl (.inr ⟨h.1, Char.le_trans h.2 (by decide)⟩)))
      · exact .inr (.inr (.inl (.inl ⟨h.1, Char.le_trans h.2 (by decide)⟩)))
      · refine .inr (.inr (.inr ?_))
        have : c ∈ ['.', '/', '@', ',', '~', '_', '-', '%'] := h
        show c ∈ ['.', ':', '/', '@', ',', '~', '_', '-', '%']
        simp only [List.mem_cons, List.not_mem_nil, or_false] at this ⊢
        rcases this with h | h | h | h | h | h | h | h <;> simp [h]

theorem top_urlChars {t : Str} (h : TopLevel letter t) : ∀ c ∈ t, UrlChar letter c := by
  obtain ⟨w, -, hw, rfl | rfl⟩ := h
  · exact fun c hc => .inl (hw c hc)
  · intro c hc
    rcases List.mem_append.1 hc with hc | hc
    · exact .inl (hw c hc)
    · simp only [List.mem_singleton] at hc
      subst hc
      exact .inr (.inr (.inr (by decide)))

/-- Matches have no other characters. -/
theorem match_urlChars {s s' : St} (hc : s.caps = []) (h : s' ∈ run letter reUrl s) :
    ∃ w, Moves s s' w ∧ (∀ c ∈ w, UrlChar letter c) := by
  obtain ⟨sch, dom, path, mv, -, -, -, hsch, hpath, h4⟩ := url_match hc h
  refine ⟨_, mv, ?_⟩
  intro c hc
  simp only [List.append_assoc, List.mem_append] at hc
  rcases hc with hc | hc | hc
  · rcases hsch with rfl | hsch
    · simp at hc
    · exact scheme_urlChars hsch c hc
  · rcases h4 with ⟨rfl, -⟩ | ⟨dots, top, rfl, hd, ht, -⟩
    · simp at hc
    · rcases List.mem_append.1 hc with hc | hc
      · exact dotted_urlChars hd c hc
      · exact top_urlChars ht c hc
  · exact path_urlChars hpath c hc

theorem dotted_last {d : Str} (h : Dotted letter d) (hne : d ≠ []) : ∃ a, d = a ++ ['.'] := by
  induction h with
  | nil => exact absurd rfl hne
  | cons _ _ h ih =>
    rename_i part rest _ _
    by_cases h0 : rest = []
    · subst h0
      exact ⟨part, by simp⟩
    · obtain ⟨a, ha⟩ := ih h0
      exact ⟨part ++ ['.'] ++ a, by rw [ha]; simp⟩

/-- Plain text has no addresses inside. -/
theorem plain_no_shape {t url : Str} (h : PlainWord letter t) (hw : Within url t) :
    ¬UrlShape letter url := by
  obtain ⟨x, y, rfl⟩ := hw
  intro hs
  cases hs with
  | scheme h1 _ _ _ _ =>
    obtain ⟨w, -, -, rfl | rfl⟩ := h1 <;> exact h.1 (by simp)
  | domain h1 h2 h3 _ =>
    obtain ⟨a, rfl⟩ := dotted_last h1 h2
    obtain ⟨w, hw2, hw, hc⟩ := h3
    cases w with
    | nil => simp at hw2
    | cons c w =>
      have hl := hw c (by simp)
      rcases hc with rfl | rfl
      · have := h.2 (x ++ a) c (w ++ (_ ++ y)) (by simp; rfl)
        rw [hl] at this
        simp at this
      · have := h.2 (x ++ a) c (w ++ ['.'] ++ (_ ++ y)) (by simp; rfl)
        rw [hl] at this
        simp at this

theorem plain_suffix {a b : Str} (h : PlainWord letter (a ++ b)) : PlainWord letter b := by
  refine ⟨fun hc => h.1 (by simp [hc]), fun x c y e => h.2 (a ++ x) c y (by rw [e]; simp)⟩

/-- The expression matches everywhere, may be nothing. -/
theorem url_matches (s : St) : run letter reUrl s ≠ [] := by
  have : ∃ x, x ∈ run letter reUrl s := by
    rw [reUrl_eq]
    refine ⟨s, mem_cat.2 ⟨s, mem_opt.2 (.inr rfl), mem_cat.2 ⟨s, mem_opt.2 (.inr rfl),
      mem_opt.2 (.inr rfl)⟩⟩⟩
  obtain ⟨x, hx⟩ := this
  exact List.ne_nil_of_mem hx

/-- Nothing is found in plain text before a barrier or the end of the word. -/
theorem linksFrom_plain : ∀ (k : Nat) {t : Str}, t.length ≤ k → PlainWord letter t →
    (∀ c, rest.head? = some c → Barrier letter c) →
    ∀ {n : Nat} {pre : List Char} {pe : Option Nat}, t.length + rest.length < n →
    ∃ n' pe', rest.length < n' ∧ linksFrom letter n pre (t ++ rest) pe =
        linksFrom letter n' (t.reverse ++ pre) rest pe' := by
  intro k
  induction k with
  | zero =>
    intro t ht hp hr n pre pe hn
    obtain rfl : t = [] := List.length_eq_zero_iff.1 (by omega)
    exact ⟨n, pe, by simpa using hn, rfl⟩
  | succ k ih =>
    intro t ht hp hr n pre pe hn
    cases t with
    | nil => exact ⟨n, pe, by simpa using hn, rfl⟩
    | cons c t =>
      obtain ⟨n, rfl⟩ : ∃ m, n = m + 1 := ⟨n - 1, by omega⟩
      cases hrun : run letter reUrl ⟨pre, c :: t ++ rest, []⟩ with
      | nil => exact absurd hrun (url_matches _)
      | cons s' ss =>
        have hmem : s' ∈ run letter reUrl ⟨pre, c :: t ++ rest, []⟩ := by rw [hrun]; simp
        have hh : (run letter reUrl ⟨pre, c :: t ++ rest, []⟩).head? = some s' := by rw [hrun]; rfl
        obtain ⟨w, mv, hw⟩ := match_urlChars rfl hmem
        -- the match ends before the barrier
        have hwt : ∃ z, c :: t = w ++ z := by
          have e := mv.1
          simp only at e
          rcases List.append_eq_append_iff.1 e with ⟨a, h1, h2⟩ | ⟨b, h1, h2⟩
          · cases a with
            | nil => exact ⟨[], by simpa using h1.symm⟩
            | cons d a =>
              exfalso
              exact barrier_not (hr d (by rw [h2]; rfl)) (hw d (by rw [h1]; simp))
          · exact ⟨b, h1⟩
        obtain ⟨z, hz⟩ := hwt
        have htext : (mkMatch ⟨pre, c :: t ++ rest, []⟩ s').text = w := by
          show between _ _ = w
          rw [Moves.between mv]
        have hno : matchIsUrl (subs reUrl (mkMatch ⟨pre, c :: t ++ rest, []⟩ s')) = false := by
          rw [← Bool.not_eq_true]
          intro hu
          have := (match_shape rfl hmem hu).2
          rw [htext] at this
          exact plain_no_shape hp ⟨[], z, by simpa using hz⟩ this
        have hpre : s'.pre = w.reverse ++ pre := mv.2
        have hrest : s'.rest = z ++ rest := by
          have e := mv.1
          simp only at e
          rw [hz, List.append_assoc] at e
          exact (List.append_cancel_left e).symm
        unfold linksFrom
        by_cases h0 : w = []
        · subst h0
          show ∃ n' pe', _ ∧ List.map _ (List.filter _
            (findAllFrom letter reUrl (n + 1) pre (c :: (t ++ rest)) pe)) = _
          have hh' : (run letter reUrl ⟨pre, c :: (t ++ rest), []⟩).head? = some s' := hh
          rw [findAllFrom, findFrom_here hh']
          simp only
          rw [if_pos (by rw [hpre]; simp)]
          obtain ⟨n', pe', h1, h2⟩ := ih (t := t) (by simpa using ht)
            (plain_suffix (a := [c]) hp) hr (n := n) (pre := c :: pre) (pe := some s'.pre.length)
            (by simp at hn; omega)
          refine ⟨n', pe', h1, ?_⟩
          unfold linksFrom at h2
          have e : (c :: t).reverse ++ pre = t.reverse ++ c :: pre := by simp
          rw [e, ← h2]
          split
          · rfl
          · rw [List.singleton_append, List.filter_cons_of_neg]
            intro hu
            exact absurd (hno.symm.trans hu) (by decide)
        · rw [findAllFrom, findFrom_here hh]
          simp only
          have hl : 0 < w.length := List.length_pos_iff.2 h0
          rw [if_neg (by rw [hpre]; simp; omega), List.filter_cons_of_neg (by rw [hno]; decide)]
          have hlen := congrArg List.length hz
          simp only [List.length_cons, List.length_append] at hlen hn ht
          obtain ⟨n', pe', h1, h2⟩ := ih (t := z) (by omega)
            (plain_suffix (a := w) (by rw [← hz]; exact hp)) hr (n := n) (pre := w.reverse ++ pre)
            (pe := some s'.pre.length) (by omega)
          refine ⟨n', pe', h1, ?_⟩
          unfold linksFrom at h2
          rw [hpre, hrest]
          rw [hpre] at h2
          rw [h2, hz]
          simp

theorem word_found (hm : Marks letter) {word : Str} {urls : List Str}
    (h : WordLaid letter word urls) : ∀ {n : Nat} {pre : List Char} {pe : Option Nat},
    word.length < n → linksFrom letter n pre word pe = urls.map fun u => ⟨u, [], 0⟩ := by
  induction h with
  | nil =>
    intro n pre pe hn
    obtain ⟨k, rfl⟩ : ∃ k, n = k + 1 := ⟨n - 1, by omega⟩
    exact linksFrom_end
  | plain hp =>
    rename_i t
    intro n pre pe hn
    obtain ⟨n', pe', h1, h2⟩ := linksFrom_plain (rest := []) t.length (Nat.le_refl _) hp (by simp)
      (n := n) (pre := pre) (pe := pe) (by simpa using hn)
    rw [List.append_nil] at h2
    obtain ⟨k, rfl⟩ : ∃ k, n' = k + 1 := ⟨n' - 1, by simp at h1; omega⟩
    rw [h2, linksFrom_end]
    rfl
  | dull hc _ ih =>
    intro n pre pe hn
    obtain ⟨k, rfl⟩ : ∃ k, n = k + 1 := ⟨n - 1, by omega⟩
    rw [linksFrom_dull hc]
    exact ih (by simpa using hn)
  | skip hp hb _ ih =>
    rename_i t c rest urls _
    intro n pre pe hn
    obtain ⟨n', pe', h1, h2⟩ := linksFrom_plain (rest := c :: rest) t.length (Nat.le_refl _) hp
      (by
        intro d hd
        simp only [List.head?_cons, Option.some.injEq] at hd
        subst hd
        exact hb)
      (n := n) (pre := pre) (pe := pe) (by simpa using hn)
    obtain ⟨k, rfl⟩ : ∃ k, n' = k + 1 := ⟨n' - 1, by omega⟩
    rw [h2, linksFrom_dull hb.1]
    exact ih (by simpa using h1)
  | url hu hr _ ih =>
    rename_i url rest urls _
    intro n pre pe hn
    have hlen : 0 < url.length := List.length_pos_iff.2 (textUrl_ne hu)
    simp only [List.length_append] at hn
    obtain ⟨k, rfl⟩ : ∃ k, n = k + 1 := ⟨n - 1, by omega⟩
    obtain ⟨caps, h1, h2⟩ := url_first (pre := pre) hm hu hr
    unfold linksFrom
    have := findAllFrom_next (letter := letter) (r := reUrl) (n := k) (pre := pre)
      (t := []) (item := url) (rest := rest) (caps := caps) (pe := pe) (by
        intro a c b hab
        simp at hab) (textUrl_ne hu) (by simpa using h1)
    simp only [List.nil_append, List.reverse_nil] at this
    rw [this, List.filter_cons_of_pos (by exact h2), List.map_cons]
    have := ih (n := k) (pre := url.reverse ++ pre)
      (pe := some (url.reverse ++ pre).length) (by omega)
    unfold linksFrom at this
    rw [this]
    rfl

/-- C58: all addresses in a word, and nothing else, are found whole and in order. -/
theorem c58_word (hm : Marks letter) {word : Str} {urls : List Str}
    (h : WordLaid letter word urls) :
    wordLinks letter word = urls.map fun u => ⟨u, [], 0⟩ :=
  word_found hm h (by omega)

/-! ### Lines and files -/

theorem wordLinks_nil : wordLinks letter [] = [] := linksFrom_end (n := 1)

theorem txtLinksOf_nil : txtLinksOf letter [] = [] := by
  unfold txtLinksOf
  rw [wordsOf]
  simp

theorem txtLinksOf_cons {line : Str} (h : line ≠ []) : txtLinksOf letter line =
    wordLinks letter (scanWord line).1 ++ txtLinksOf letter (scanWord line).2 := by
  unfold txtLinksOf
  rw [wordsOf]
  simp [h]

theorem txtLinksOf_space {c : Char} {r : Str} (hc : isSpaceWord c = true) :
    txtLinksOf letter (c :: r) = txtLinksOf letter r := by
  have e : scanWord (c :: r) = scanWord r := by
    unfold scanWord
    rw [List.dropWhile_cons_of_pos hc]
  rw [txtLinksOf_cons (by simp), e]
  by_cases hr : r = []
  · subst hr
    show wordLinks letter [] ++ txtLinksOf letter [] = txtLinksOf letter []
    rw [wordLinks_nil]
    rfl
  · rw [txtLinksOf_cons hr]

theorem txtLinksOf_spaces {t r : Str} (ht : ∀ c ∈ t, isSpaceWord c = true) :
    txtLinksOf letter (t ++ r) = txtLinksOf letter r := by
  induction t with
  | nil => rfl
  | cons c t ih =>
    rw [List.cons_append, txtLinksOf_space (ht c (by simp)), ih fun d hd => ht d (by simp [hd])]

theorem takeWhile_stop {p : Char → Bool} {w rest : Str} (hw : ∀ c ∈ w, p c = true)
    (hr : ∀ c, rest.head? = some c → p c = false) :
    (w ++ rest).takeWhile p = w ∧ (w ++ rest).dropWhile p = rest := by
  induction w with
  | nil =>
    cases rest with
    | nil => simp
    | cons c r => simp [hr c rfl]
  | cons c w ih =>
    obtain ⟨h1, h2⟩ := ih fun d hd => hw d (by simp [hd])
    have hc := hw c (by simp)
    simp [hc, h1, h2]

theorem txtLinksOf_word {word rest : Str} (hw : ∀ c ∈ word, isSpaceWord c = false)
    (hr : ∀ c, rest.head? = some c → isSpaceWord c = true) :
    txtLinksOf letter (word ++ rest) = wordLinks letter word ++ txtLinksOf letter rest := by
  cases word with
  | nil =>
    rw [wordLinks_nil]
    rfl
  | cons a word =>
    have h0 : isSpaceWord a = false := hw a (by simp)
    obtain ⟨h1, h2⟩ := takeWhile_stop (p := (!isSpaceWord ·)) (w := a :: word) (rest := rest)
      (fun c hc => by simp [hw c hc]) (fun c hc => by simp [hr c hc])
    have e : scanWord (a :: word ++ rest) = (a :: word, rest.drop 1) := by
      unfold scanWord
      have : (a :: word ++ rest).dropWhile isSpaceWord = a :: word ++ rest := by
        rw [List.cons_append, List.dropWhile_cons_of_neg (by simp [h0])]
      simp only [this, h1, h2]
    rw [txtLinksOf_cons (by simp), e]
    congr 1
    cases rest with
    | nil => rfl
    | cons c r => exact (txtLinksOf_space (hr c rfl)).symm

/-- C58: all addresses of a line, and nothing else, are found whole and in order. -/
theorem c58_line (hm : Marks letter) {line : Str} {urls : List Str}
    (h : LineLaid letter white line urls) :
    txtLinksOf letter line = urls.map fun u => ⟨u, [], 0⟩ := by
  rw [← isSpaceWord_eq] at h
  induction h with
  | done ht =>
    rename_i t
    have := txtLinksOf_spaces (letter := letter) (r := []) ht
    rw [List.append_nil] at this
    rw [this, txtLinksOf_nil]
    rfl
  | word ht hw hr hl _ ih =>
    rw [txtLinksOf_spaces ht, txtLinksOf_word hw hr, c58_word hm hl, ih, List.map_append]

/-- Addresses of lines with numbers of the lines. -/
def numbered : Int → List (List Str) → List Link
  | _, [] => []
  | n, us :: uss => us.map (fun u => ⟨u, [], n⟩) ++ numbered (n + 1) uss

theorem trace_laid (hm : Marks letter) (accept : Link → Bool) :
    ∀ {lines : List Str} {urls : List (List Str)} {n : Int}, lines.length = urls.length →
    (∀ p ∈ lines.zip urls, LineLaid letter white p.1 p.2) →
    Extract.txtTrace (txtLinksOf letter) accept n lines = (numbered n urls).filter accept
  | [], [], _, _, _ => rfl
  | [], _ :: _, _, h, _ => by simp at h
  | _ :: _, [], _, h, _ => by simp at h
  | x :: xs, us :: uss, n, hlen, h => by
    rw [Extract.txtTrace, numbered, List.filter_append, c58_line hm (h (x, us) (by simp)),
      trace_laid hm accept (by simpa using hlen) fun p hp => h p (by simp [hp]), List.map_map]
    rfl

/-- C58: the tree of a text file has all accepted addresses of its lines, whole, in order, with
numbers of their lines, and no other links. -/
theorem c58_file (hm : Marks letter) (accept : Link → Bool) (h0 : Heap) {lines : List Str}
    {urls : List (List Str)} (hlen : lines.length = urls.length)
    (h : ∀ p ∈ lines.zip urls, LineLaid letter white p.1 p.2) :
    ∃ h' root cs, Extract.txtExtract (txtLinksOf letter) accept h0 lines = .ok (h', root) ∧
      RepT h' (.node .unset cs) root ∧ linksAll cs = (numbered 1 urls).filter accept := by
  obtain ⟨h', root, cs, e, b, hp⟩ := Extract.txtExtract_spec (txtLinksOf letter) accept h0 lines
  obtain ⟨as, ha, hk⟩ := b.kids
  refine ⟨h', root, cs, e, ?_, ?_⟩
  · simp only [RepT]
    exact ⟨as, ha, Extract.RepFs.rep _ _ hk⟩
  · rw [← trace_laid hm accept hlen h, ← Extract.pathsAll_links [], hp, List.map_map]
    simp

end

/-! A line with two addresses. -/
section

/-- Letters of ASCII. -/
def ascii (c : Char) : Bool := ('a' ≤ c && c ≤ 'z') || ('A' ≤ c && c ≤ 'Z')

theorem ascii_marks : Marks ascii := by unfold Marks; decide

theorem plain_of {letter : Char → Bool} {t : Str} (h : ∀ c ∈ t, c ≠ ':' ∧ c ≠ '.') :
    PlainWord letter t := by
  refine ⟨fun hc => (h _ hc).1 rfl, fun a c b e => ?_⟩
  rw [e] at h
  exact absurd rfl (h '.' (by simp)).2

theorem part_of {p : Str} (h : p ≠ []) (hl : p.length ≤ 64) (ha : ∀ c ∈ p, ascii c = true) :
    DomainPart ascii p := by
  refine ⟨hl, ⟨p.head h, List.head?_eq_some_head h, .inl (ha _ (List.head_mem h))⟩,
    ⟨p.getLast h, List.getLast?_eq_some_getLast h, .inl (ha _ (List.getLast_mem h))⟩,
    fun c hc => .inl (.inl (ha c hc))⟩

example : txtLinksOf ascii "see href=\"https://www.example.org/a%20b/~c\" or (example.com/d) or d.".toList =
    [⟨"https://www.example.org/a%20b/~c".toList, [], 0⟩, ⟨"example.com/d".toList, [], 0⟩] := by
  have sp : ∀ c ∈ " ".toList, white c = true := by decide
  have part : ∀ s ∈ ["www".toList, "example".toList], DomainPart ascii s := by
    intro s hs
    simp only [List.mem_cons, List.not_mem_nil, or_false] at hs
    rcases hs with rfl | rfl <;> exact part_of (by decide) (by decide) (by decide)
  have url1 : TextUrl ascii ("https://".toList ++ (domainText ["www".toList, "example".toList]
      "org".toList ++ "/a%20b/~c".toList)) := by
    refine .full ⟨"https".toList, by decide, by decide, .inr rfl⟩
      ⟨by decide, part, by decide, by decide, by decide⟩ ?_
    refine .cons (s := "a%20b".toList) (p := "/~c".toList) ?_ (.cons (s := "~c".toList) ?_ .nil)
    · exact .char (by decide) (.hex (by unfold HexDigit; decide) (by unfold HexDigit; decide)
        (.char (by decide) .nil))
    · exact .char (by decide) (.char (by decide) .nil)
  have url2 : TextUrl ascii (domainText ["example".toList] "com".toList ++ "/d".toList) :=
    .domain (by decide) ⟨by decide, fun s hs => part s (by simp_all), by decide, by decide,
      by decide⟩ (.cons (s := "d".toList) (.char (by decide) .nil) .nil)
  have ends : ∀ s ∈ ["\"".toList, ")".toList], UrlEnds ascii s := by
    intro s hs
    simp only [List.mem_cons, List.not_mem_nil, or_false] at hs
    rcases hs with rfl | rfl
    all_goals
      intro c hc
      have : some _ = some c := hc
      simp only [Option.some.injEq] at this
      subst this
      exact ⟨by unfold Dull; decide, by decide⟩
  have h : LineLaid ascii white
      "see href=\"https://www.example.org/a%20b/~c\" or (example.com/d) or d.".toList
      ["https://www.example.org/a%20b/~c".toList, "example.com/d".toList] := by
    refine .word (t := []) (word := "see".toList) (us := []) (by simp) (by decide) (by decide)
      (.plain (plain_of (by decide))) ?_
    refine .word (t := " ".toList) (word := "href=\"https://www.example.org/a%20b/~c\"".toList)
      (us := ["https://www.example.org/a%20b/~c".toList]) sp (by decide) (by decide) ?_ ?_
    · refine .skip (t := "href".toList) (c := '=') (plain_of (by decide))
        ⟨by unfold Dull; decide, by decide⟩ ?_
      refine .dull (by unfold Dull; decide) ?_
      exact .url url1 (ends "\"".toList (by simp)) (.plain (plain_of (by decide)))
    refine .word (t := " ".toList) (word := "or".toList) (us := []) sp (by decide) (by decide)
      (.plain (plain_of (by decide))) ?_
    refine .word (t := " ".toList) (word := "(example.com/d)".toList)
      (us := ["example.com/d".toList]) sp (by decide) (by decide) ?_ ?_
    · refine .dull (by unfold Dull; decide) ?_
      exact .url url2 (ends ")".toList (by simp)) (.plain (plain_of (by decide)))
    refine .word (t := " ".toList) (word := "or".toList) (us := []) sp (by decide) (by decide)
      (.plain (plain_of (by decide))) ?_
    refine .word (t := " ".toList) (word := "d.".toList) (rest := []) (us := []) sp (by decide)
      (by decide) (.plain ⟨by decide, ?_⟩) (.done (by simp))
    intro a c b e
    have e' : ['d', '.'] = a ++ '.' :: c :: b := e
    cases a with
    | nil => simp at e'
    | cons x a =>
      have := congrArg List.length e'
      simp at this
      omega
  exact c58_line ascii_marks h

end

end Burl.Links
