import Verif.Links.Props
import Verif.Links.CheckLemmas
import Verif.Links.SetProps
import Verif.Links.WordLemmas
/-! Properties of links of whole files and of schemes given by the user: C28, C33, C53. -/
namespace Burl.Links
open Burl.Regex Spec Burl.Tree.Spec
open Burl.Extract (orgExtract txtExtract All₂)
open Burl.Tree (Heap RepT)

/-! ### C28: schemes given by the user -/

theorem joinBar_ne {ls : List Str} (h : ls ≠ []) (hl : ∀ l ∈ ls, l ≠ []) : joinBar ls ≠ [] := by
  cases ls with
  | nil => exact absurd rfl h
  | cons l ls =>
    cases ls with
    | nil => exact hl l (by simp)
    | cons m ms => simp [joinBar]

theorem scheme_check_one_iff {letter : Char → Bool} {l text : Str} :
    matchString letter (cats (.bol :: (l ++ [':']).map .lit)) text = true ↔ l ++ [':'] <+: text := by
  refine ⟨scheme_check_one, ?_⟩
  rintro ⟨t, rfl⟩
  unfold matchString
  rw [findFrom_isSome]
  refine ⟨[], _, rfl, List.ne_nil_of_mem (a := ⟨(l ++ [':']).reverse, t, []⟩) ?_⟩
  rw [mem_cats_cons (by simp)]
  exact mem_cat.2 ⟨_, mem_bol.2 ⟨rfl, rfl⟩, mem_lits.2 ⟨⟨rfl, by simp⟩, rfl⟩⟩

/-! ### Schemes given by the user -/

theorem trimColon_spec (v : Str) : Trimmed v (trimColon v) := by
  unfold trimColon
  split
  · rename_i h
    have : v.dropLast ++ [':'] = v := by
      obtain ⟨t, ht⟩ := List.getLast?_eq_some_iff.1 h
      rw [ht]; simp
    have e : Trimmed (v.dropLast ++ [':']) v.dropLast := .colon
    rwa [this] at e
  · rename_i h
    refine .none fun t ht => h ?_
    rw [ht]
    simp

theorem trimmed_unique {v a b : Str} (h1 : Trimmed v a) (h2 : Trimmed v b) : a = b := by
  cases h1 with
  | colon =>
    generalize hv : a ++ [':'] = v at h2
    cases h2 with
    | colon => exact List.append_cancel_right hv
    | none h => exact absurd hv.symm (h a)
  | none h =>
    cases h2 with
    | colon => exact absurd rfl (h b)
    | none _ => rfl

theorem uniqueSchemes_snoc (v : Str) : ∀ (vs acc u : List Str), uniqueSchemes vs acc = u →
    uniqueSchemes (vs ++ [v]) acc =
      if trimColon v ≠ [] ∧ trimColon v ∉ u then u ++ [trimColon v] else u
  | [], acc, u, h => by
    obtain rfl : acc = u := h
    rfl
  | w :: vs, acc, u, h => by
    by_cases hw : trimColon w ≠ [] ∧ trimColon w ∉ acc
    · simp only [uniqueSchemes, List.cons_append] at h ⊢
      rw [if_pos hw] at h ⊢
      exact uniqueSchemes_snoc v vs _ u h
    · simp only [uniqueSchemes, List.cons_append] at h ⊢
      rw [if_neg hw] at h ⊢
      exact uniqueSchemes_snoc v vs _ u h

theorem schemesOf_eq {vs ss : List Str} (h : SchemesOf vs ss) : ss = uniqueSchemes vs [] := by
  induction h with
  | nil => rfl
  | @new vs ss v s _ ht h1 h2 ih =>
    have := trimmed_unique (trimColon_spec v) ht
    rw [uniqueSchemes_snoc v _ _ _ ih.symm, this, if_pos ⟨h1, h2⟩]
  | @old vs ss v s _ ht h1 ih =>
    have := trimmed_unique (trimColon_spec v) ht
    rw [uniqueSchemes_snoc v _ _ _ ih.symm, this, if_neg (by tauto)]

theorem schemesOf_unique (vs : List Str) : SchemesOf vs (uniqueSchemes vs []) := by
  induction hn : vs.length generalizing vs with
  | zero =>
    obtain rfl := List.length_eq_zero_iff.1 hn
    exact .nil
  | succ n ih =>
    rcases List.eq_nil_or_concat vs with rfl | ⟨ws, v, rfl⟩
    · cases hn
    · rw [List.concat_eq_append] at hn ⊢
      have := ih ws (by simpa using hn)
      rw [uniqueSchemes_snoc v ws [] _ rfl]
      split
      · rename_i h
        exact .new this (trimColon_spec v) h.1 h.2
      · rename_i h
        refine .old this (trimColon_spec v) ?_
        by_cases h1 : trimColon v = []
        · exact .inl h1
        · exact .inr (Classical.byContradiction fun h2 => h ⟨h1, h2⟩)

/-- Schemes without special characters are accepted; what links in brackets are checked for. -/
theorem updateRe_literal (p : OrgRe) {variants : List Str}
    (hne : uniqueSchemes variants [] ≠ []) (h : ∀ l ∈ uniqueSchemes variants [], Literal l) :
    ∃ r, updateRe p variants = (⟨makeSchemeReStr variants, r,
        linkRe (oneOf (uniqueSchemes variants []))⟩, none) ∧
      ∀ letter url, matchString letter r url = true ↔ Accepted (uniqueSchemes variants []) url := by
  have key : ∃ r, compile ("^".toList ++ joinBar (uniqueSchemes variants []) ++ ":".toList) = some r ∧
      ∀ letter url, matchString letter r url = true ↔ Accepted (uniqueSchemes variants []) url := by
    generalize uniqueSchemes variants [] = ls at hne h
    match ls, hne, h with
    | [s], _, h => exact ⟨_, compile_scheme_one (h s (by simp)), fun _ _ => scheme_check_one_iff⟩
    | a :: b :: rest, _, h =>
      have e : b :: rest = (b :: rest).dropLast ++ [(b :: rest).getLast (by simp)] :=
        (List.dropLast_concat_getLast (by simp)).symm
      obtain ⟨r, h1, h2⟩ := compile_scheme_many (a := a) (mid := (b :: rest).dropLast)
        (z := (b :: rest).getLast (by simp)) (h a (by simp))
        (fun l hl => h l (by rw [← e] at hl; exact List.mem_cons_of_mem _ hl))
      rw [← e] at h1
      exact ⟨r, h1, h2⟩
  obtain ⟨r, hr, hm⟩ := key
  refine ⟨r, ?_, hm⟩
  unfold updateRe makeSchemeReStr
  simp only
  rw [if_neg (joinBar_ne hne fun l hl => (h l hl).1), hr]
  simp only
  rw [compile_link hne h]

/-- C28 for schemes given by the user that have no special characters: they are accepted, and links
found later, but for links in double brackets, have one of these schemes. -/
theorem c28_configured_partial (letter : Char → Bool) (p : OrgRe) {variants schemes : List Str}
    (hs : SchemesOf variants schemes) (hne : schemes ≠ []) (h : ∀ l ∈ schemes, Literal l) :
    ∃ p', updateRe p variants = (p', none) ∧ ∀ line, ∃ links, orgLinks letter p' line = .ok links ∧
      ∀ l ∈ links, l.url ≠ [] ∧ Within l.url line ∧ (HasScheme schemes l.url ∨
        (Within ("[[".toList ++ l.url ++ "]".toList) line ∧ Accepted schemes l.url)) := by
  obtain rfl := schemesOf_eq hs
  obtain ⟨r, hr, hm⟩ := updateRe_literal p hne h
  refine ⟨_, hr, fun line => ?_⟩
  obtain ⟨links, h1, h2⟩ := orgLinks_spec (letter := letter)
    (p := ⟨makeSchemeReStr variants, r, linkRe (oneOf (uniqueSchemes variants []))⟩) rfl
    (groups_oneOf _) (oneOf_idxs _) (L := (· ∈ uniqueSchemes variants []))
    (fun s s' w => oneOf_lang s s' w) line
  refine ⟨links, h1, fun l hl => ?_⟩
  obtain ⟨g1, g2, g3⟩ := h2 l hl
  exact ⟨g1, g2, g3.imp id fun ⟨g4, g5⟩ => ⟨g4, (hm _ _).1 g5⟩⟩

example : Accepted ["ftp".toList, "gopher".toList, "https".toList] "see gopher".toList := by
  exact .inr (.inl ⟨"gopher".toList, by decide, "see ".toList, [], rfl⟩)

/-- C28 for a single scheme without special characters: all the links have it. -/
theorem c28_configured_one (letter : Char → Bool) (p : OrgRe) {variants : List Str} {scheme : Str}
    (hs : SchemesOf variants [scheme]) (h : Literal scheme) :
    ∃ p', updateRe p variants = (p', none) ∧ ∀ line, ∃ links, orgLinks letter p' line = .ok links ∧
      ∀ l ∈ links, Within l.url line ∧ HasScheme [scheme] l.url := by
  obtain ⟨p', h1, h2⟩ := c28_configured_partial letter p hs (by simp) (by simpa using h)
  refine ⟨p', h1, fun line => ?_⟩
  obtain ⟨links, h3, h4⟩ := h2 line
  refine ⟨links, h3, fun l hl => ⟨(h4 l hl).2.1, ?_⟩⟩
  rcases (h4 l hl).2.2 with h5 | ⟨-, h5⟩
  · exact h5
  · exact ⟨scheme, by simp, h5⟩

example : SchemesOf ["https:".toList, [], "https".toList, ":".toList] ["https".toList] ∧
    Literal "https".toList :=
  ⟨schemesOf_unique _, by decide, by decide⟩

/-! ### C28: files -/

/-- Links of a line; the function does not fail. -/
def orgFind (letter : Char → Bool) (line : Str) : List Link :=
  match orgLinks letter orgReDefault line with
  | .ok links => links
  | _ => []

theorem orgFind_eq (letter : Char → Bool) (line : Str) :
    orgLinks letter orgReDefault line = .ok (orgFind letter line) := by
  obtain ⟨links, h, -⟩ := c28_scheme_partial letter line
  unfold orgFind
  rw [h]

/-- C28 for files (partial): every link of the tree made from an Org file is in the line the number
of which it has, and has one of the configured schemes unless it is a link in double brackets. -/
theorem c28_file_partial (letter : Char → Bool) (accept : Link → Bool) (h0 : Heap)
    (lines : List Str) :
    ∃ h' root cs, orgExtract (orgFind letter) accept h0 lines = .ok (h', root) ∧
      RepT h' (.node .unset cs) root ∧ ∀ l ∈ linksAll cs, ∃ i : Nat, ∃ line,
        lines[i]? = some line ∧ l.lineNo = (i : Int) + 1 ∧ l.url ≠ [] ∧ Within l.url line ∧
        (HasScheme defaultSchemes l.url ∨
          (Within ("[[".toList ++ l.url ++ "]".toList) line ∧ ("doi".toList <+: l.url ∨
            Within "http".toList l.url ∨ Within "mid:".toList l.url))) := by
  obtain ⟨h', root, cs, h1, h2, h3, -⟩ := Extract.c25_links (orgFind letter) accept h0 lines
  refine ⟨h', root, cs, h1, h2, fun l hl => ?_⟩
  rw [h3, Extract.c25_lineNo] at hl
  obtain ⟨i, line, k, g1, g2, g3, rfl⟩ := hl
  obtain ⟨links, g4, g5⟩ := c28_scheme_partial letter line
  rw [orgFind_eq] at g4
  have g4 := Res.ok.inj g4
  subst g4
  obtain ⟨g6, g7, g8⟩ := g5 k g2
  exact ⟨i, line, g1, rfl, g6, g7, g8⟩

/-! ### C33 -/

/-- C33: the loop over words of a line ends, and what it collects are the links `txtLinksOf`. -/
theorem c33_terminates (letter : Char → Bool) (line : Str) :
    ∃ rest, Loop wordsDone (wordsBody letter) (line, []) (.ok (rest, txtLinksOf letter line)) ∧
      ∀ r, Loop wordsDone (wordsBody letter) (line, []) r →
        r = .ok (rest, txtLinksOf letter line) := by
  have := words_loop letter line []
  rw [List.nil_append] at this
  exact ⟨[], this, fun r hr => hr.unique this⟩

/-- Links of a line of a text file. -/
theorem txtLinksOf_spec {letter : Char → Bool} (hc : letter ':' = false) {line : Str} {l : Link}
    (h : l ∈ txtLinksOf letter line) : ∃ word, IsWord isSpaceWord line word ∧
      Within l.url word ∧ l.url ≠ [] ∧ UrlShape letter l.url ∧ ¬SchemePart l.url := by
  obtain ⟨word, hw, hl⟩ := List.mem_flatMap.1 h
  obtain ⟨h1, h2, h3⟩ := wordLinks_spec hl
  refine ⟨word, wordsOf_isWord hw ?_, h1, h2, h3, wordLinks_not_scheme hc hl⟩
  rintro rfl
  obtain ⟨a, b, e⟩ := h1
  simp at e
  exact h2 e.2.1

theorem txtTrace_mem {find : Str → List Link} {accept : Link → Bool} {l : Link} :
    ∀ {lines : List Str} {n : Int}, l ∈ Extract.txtTrace find accept n lines →
      ∃ i : Nat, ∃ line k, lines[i]? = some line ∧ k ∈ find line ∧
        l = { k with lineNo := (i : Int) + n } ∧ accept l = true
  | [], _, h => by simp [Extract.txtTrace] at h
  | x :: xs, n, h => by
    rw [Extract.txtTrace, List.mem_append, List.mem_filter] at h
    rcases h with ⟨h, ha⟩ | h
    · obtain ⟨k, hk, rfl⟩ := List.mem_map.1 h
      exact ⟨0, x, k, rfl, hk, by simp, ha⟩
    · obtain ⟨i, line, k, h1, h2, h3, h4⟩ := txtTrace_mem h
      refine ⟨i + 1, line, k, h1, h2, ?_, h4⟩
      rw [h3]; congr 1; omega

/-- C33: extraction from a text file ends with a tree; every link in it is part of a word of the
line with that number, and has the shape of an address: a scheme and something after it, or a
domain name of several parts; it is not just a scheme.  The colon is not a letter. -/
theorem c33_words (letter : Char → Bool) (hc : letter ':' = false) (accept : Link → Bool) (h0 : Heap) (lines : List Str) :
    ∃ h' root cs, txtExtract (txtLinksOf letter) accept h0 lines = .ok (h', root) ∧
      RepT h' (.node .unset cs) root ∧ ∀ l ∈ linksAll cs, accept l = true ∧
        ∃ i : Nat, ∃ line word, lines[i]? = some line ∧ l.lineNo = (i : Int) + 1 ∧
          IsWord white line word ∧ Within l.url word ∧ l.url ≠ [] ∧
          UrlShape letter l.url ∧ ¬SchemePart l.url := by
  obtain ⟨h', root, cs, e, b, hp⟩ := Extract.txtExtract_spec (txtLinksOf letter) accept h0 lines
  obtain ⟨as, ha, hk⟩ := b.kids
  refine ⟨h', root, cs, e, ?_, fun l hl => ?_⟩
  · simp only [RepT]
    exact ⟨as, ha, Extract.RepFs.rep _ _ hk⟩
  · have hl' : l ∈ Extract.txtTrace (txtLinksOf letter) accept 1 lines := by
      rw [← Extract.pathsAll_links [], hp, List.map_map] at hl
      simpa using hl
    obtain ⟨i, line, k, h1, h2, h3, h4⟩ := txtTrace_mem hl'
    obtain ⟨word, g1, g2, g3, g4⟩ := txtLinksOf_spec hc h2
    subst h3
    rw [isSpaceWord_eq] at g1
    exact ⟨h4, i, line, word, h1, rfl, g1, g2, g3, g4⟩

/-- Shapes that are not addresses: nothing, text without dots and colons, a path. -/
theorem c33_not_shape (letter : Char → Bool) :
    ¬UrlShape letter [] ∧
    (∀ w, (∀ c ∈ w, c ≠ ':' ∧ c ≠ '.') → ¬UrlShape letter w) ∧
    (∀ p, letter '/' = false → ¬UrlShape letter ('/' :: p)) := by
  have noColon : ∀ {s : Str}, SchemePart s → ':' ∈ s := by
    rintro s ⟨w, -, -, rfl | rfl⟩ <;> simp
  have dotIn : ∀ {d : Str}, Dotted letter d → d ≠ [] → '.' ∈ d := by
    intro d h hne
    cases h with
    | nil => exact absurd rfl hne
    | cons _ _ _ => simp
  refine ⟨?_, ?_, ?_⟩
  · intro h
    generalize hs : ([] : Str) = s at h
    cases h with
    | scheme h1 _ _ _ h2 =>
      have := congrArg List.length hs
      have h3 : 0 < (_ : Str).length := List.length_pos_iff.2 h2
      simp only [List.length_nil, List.length_append] at this h3
      omega
    | domain h1 h2 _ _ =>
      have := congrArg List.length hs
      have h3 : 0 < (_ : Str).length := List.length_pos_iff.2 h2
      simp only [List.length_nil, List.length_append] at this h3
      omega
  · intro w hw h
    cases h with
    | scheme h1 _ _ _ _ => exact (hw ':' (by simp [noColon h1])).1 rfl
    | domain h1 h2 _ _ => exact (hw '.' (by simp [dotIn h1 h2])).2 rfl
  · intro p hp h
    generalize hs : '/' :: p = s at h
    cases h with
    | scheme h1 _ _ _ _ =>
      obtain ⟨w, hw, hc, rfl | rfl⟩ := h1 <;>
      · obtain ⟨c, cs, rfl⟩ := List.exists_cons_of_ne_nil hw
        simp only [List.cons_append, List.cons.injEq] at hs
        have := hc c (by simp)
        rw [← hs.1] at this
        revert this; decide
    | domain h1 h2 _ _ =>
      cases h1 with
      | nil => exact h2 rfl
      | cons g1 g2 _ =>
        obtain ⟨c, cs, rfl⟩ := List.exists_cons_of_ne_nil g1
        simp only [List.cons_append, List.cons.injEq] at hs
        have := g2 c (by simp)
        rw [← hs.1, hp] at this
        revert this; decide

/-- Hypotheses of C33 are met, with links of two shapes. -/
example : (∃ l ∈ wordLinks isAlpha "(see:ftp://a.bc/d),example.com".toList,
    l.url = "example.com".toList) ∧
    (wordLinks isAlpha "(see:ftp://a.bc/d),example.com".toList).length = 2 := by
  decide +kernel

/-! ### C53 -/

theorem uniqueSchemes_eq (vs : List Str) (acc : List Str) (hacc : acc.Nodup) :
    uniqueSchemes vs acc = acc ++ (((vs.map trimColon).filter
      fun s => decide (s ≠ []) && decide (s ∉ acc)).eraseDups) := by
  induction vs generalizing acc with
  | nil => simp [uniqueSchemes]
  | cons v vs ih =>
    simp only [uniqueSchemes, List.map_cons]
    split
    · rename_i h
      rw [ih _ (by
        rw [List.nodup_append]
        exact ⟨hacc, by simp, by rintro a ha b hb rfl; simp at hb; subst hb; exact h.2 ha⟩)]
      rw [List.filter_cons_of_pos (by simpa using h), List.eraseDups_cons, List.filter_filter,
        List.append_assoc]
      congr 2
      simp only [List.singleton_append, List.cons.injEq, true_and]
      congr 2
      funext x
      simp only [List.mem_append, List.mem_singleton, not_or]
      by_cases h1 : x = [] <;> by_cases h2 : x ∈ acc <;> by_cases h3 : x = trimColon v <;>
        simp [h1, h2, h3]
    · rename_i h
      rw [ih _ hacc, List.filter_cons_of_neg (by simpa using h)]

/-- C53: the pattern of schemes consists of the items without one trailing colon each, empty ones
and repetitions dropped, in the order of first occurrences, separated by bars. -/
theorem c53_normalised (vs : List Str) :
    ∃ trimmed, All₂ Trimmed vs trimmed ∧
      makeSchemeReStr vs =
        List.intercalate ['|'] ((trimmed.filter fun s => decide (s ≠ [])).eraseDups) := by
  refine ⟨vs.map trimColon, ?_, ?_⟩
  · induction vs with
    | nil => exact .nil
    | cons v vs ih => exact .cons (trimColon_spec v) ih
  · unfold makeSchemeReStr
    rw [uniqueSchemes_eq vs [] (by simp)]
    simp only [List.nil_append, List.not_mem_nil, not_false_eq_true, decide_true, Bool.and_true]
    generalize ((vs.map trimColon).filter fun s => decide (s ≠ [])).eraseDups = ls
    induction ls with
    | nil => rfl
    | cons l ls ih =>
      cases ls with
      | nil => simp [joinBar, List.intercalate]
      | cons m ms =>
        rw [joinBar, ih]
        · simp [List.intercalate, List.intersperse]
        · simp

theorem nodup_eraseDups (l : List Str) : l.eraseDups.Nodup := by
  induction hn : l.length using Nat.strongRecOn generalizing l with
  | ind n ih =>
    cases l with
    | nil => simp
    | cons a as =>
      rw [List.eraseDups_cons, List.nodup_cons]
      refine ⟨by simp, ih _ ?_ _ rfl⟩
      have := List.length_filter_le (fun b => !b == a) as
      simp only [List.length_cons] at hn
      omega

/-- C53: which schemes there are in the list; none is there twice. -/
theorem c53_members {vs ss : List Str} (h : SchemesOf vs ss) :
    ss.Nodup ∧ ∀ s, s ∈ ss ↔ s ≠ [] ∧ ∃ v ∈ vs, Trimmed v s := by
  obtain rfl := schemesOf_eq h
  rw [uniqueSchemes_eq vs [] (by simp)]
  simp only [List.nil_append]
  refine ⟨nodup_eraseDups _, fun s => ?_⟩
  rw [List.mem_eraseDups, List.mem_filter, List.mem_map]
  constructor
  · rintro ⟨⟨v, hv, rfl⟩, h⟩
    exact ⟨by simpa using h, v, hv, trimColon_spec v⟩
  · rintro ⟨h, v, hv, ht⟩
    exact ⟨⟨v, hv, trimmed_unique (trimColon_spec v) ht⟩, by simpa using h⟩

/-- C53: an update fails if there are no schemes, and a failure keeps the previous patterns. -/
theorem c53_update (p : OrgRe) (vs : List Str) :
    ((∀ v ∈ vs, ∀ s, Trimmed v s → s = []) → (updateRe p vs).2 = some .noVariants) ∧
    ((updateRe p vs).2 ≠ none → (updateRe p vs).1 = p) ∧
    ((updateRe p vs).2 = none →
      (updateRe p vs).1.schemeStr = makeSchemeReStr vs ∧
      compile ("^".toList ++ makeSchemeReStr vs ++ ":".toList) = some (updateRe p vs).1.scheme ∧
      compile (makeLinkReStr (makeSchemeReStr vs)) = some (updateRe p vs).1.link) := by
  refine ⟨fun h => ?_, ?_, ?_⟩
  · have : makeSchemeReStr vs = [] := by
      have : uniqueSchemes vs [] = [] := by
        rw [List.eq_nil_iff_forall_not_mem]
        intro s hs
        obtain ⟨h1, v, hv, ht⟩ := ((c53_members (schemesOf_unique vs)).2 s).1 hs
        exact h1 (h v hv s ht)
      unfold makeSchemeReStr
      rw [this]
      rfl
    unfold updateRe
    simp [this]
  · unfold updateRe
    simp only
    split
    · simp
    · split
      · simp
      · split
        · simp
        · simp
  · unfold updateRe
    simp only
    split
    · simp
    · split
      · simp
      · rename_i r1 h1
        split
        · simp
        · rename_i r2 h2
          exact fun _ => ⟨rfl, h1, h2⟩

example : makeSchemeReStr ["https:".toList, [], "mid".toList, "https".toList, ":".toList, "doi:".toList]
    = "https|mid|doi".toList := by decide

/-- An update with a wrong pattern fails. -/
example : (updateRe orgReDefault ["a(".toList]).2 = some .syntax_ := by decide +kernel

end Burl.Links
