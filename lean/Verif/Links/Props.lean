import Verif.Links.OrgLemmas
import Verif.Regex.LetterLemmas
import Verif.Links.TxtLemmas
import Verif.Extract.Props
/-! Properties C28-C31, C33, C53. -/
namespace Burl.Links
open Burl.Regex Spec Burl.Tree.Spec

/-! ### C28 -/

def schemeRe : Re := (compile (makeSchemeReStr schemeVariants)).getD .never

theorem orgReDefault_link : orgReDefault.link = linkRe schemeRe := by decide +kernel

theorem orgReDefault_scheme : orgReDefault.scheme =
    alts [.cat .bol (cats ("doi".toList.map .lit)),
      .cat (.lit 'h') (.cat (.lit 't') (.cat (.lit 't') (.cat (.lit 'p') (.opt false (.lit 's'))))),
      cats ("mid:".toList.map .lit)] := by decide +kernel

theorem schemeRe_eq : schemeRe =
    alts [cats ("doi".toList.map .lit),
      .cat (.lit 'h') (.cat (.lit 't') (.cat (.lit 't') (.cat (.lit 'p') (.opt false (.lit 's'))))),
      cats ("mid".toList.map .lit)] := by decide +kernel

theorem schemeRe_idxs : idxs schemeRe = [] := by decide +kernel
theorem schemeRe_groups : groups schemeRe = 0 := by decide +kernel

theorem mem_https {letter : Char → Bool} {s s' : St}
    (h : s' ∈ run letter (.cat (.lit 'h') (.cat (.lit 't') (.cat (.lit 't') (.cat (.lit 'p')
      (.opt false (.lit 's')))))) s) :
    Moves s s' "http".toList ∨ Moves s s' "https".toList := by
  obtain ⟨t1, g1, h⟩ := mem_cat.1 h
  obtain ⟨t2, g2, h⟩ := mem_cat.1 h
  obtain ⟨t3, g3, h⟩ := mem_cat.1 h
  obtain ⟨t4, g4, h⟩ := mem_cat.1 h
  have m := (((mem_lit'.1 g1).1.trans (mem_lit'.1 g2).1).trans (mem_lit'.1 g3).1).trans
    (mem_lit'.1 g4).1
  rcases mem_opt.1 h with g5 | rfl
  · exact .inr (m.trans (mem_lit'.1 g5).1)
  · exact .inl m

theorem schemeRe_lang {letter : Char → Bool} (s s' : St) (w : Str) (h : s' ∈ run letter schemeRe s)
    (m : Moves s s' w) : w ∈ defaultSchemes := by
  rw [schemeRe_eq, mem_alts] at h
  simp only [List.mem_cons, List.not_mem_nil, or_false, exists_eq_or_imp, exists_eq_left] at h
  rcases h with h | h | h
  · have := (mem_lits.1 h).1.unique m
    subst this; decide
  · rcases mem_https h with h | h
    · have := h.unique m
      subst this; decide
    · have := h.unique m
      subst this; decide
  · have := (mem_lits.1 h).1.unique m
    subst this; decide

/-- The check of links in brackets with the default schemes. -/
theorem scheme_check {letter : Char → Bool} {text : Str}
    (h : matchString letter orgReDefault.scheme text = true) :
    "doi".toList <+: text ∨ Within "http".toList text ∨ Within "mid:".toList text := by
  unfold matchString at h
  obtain ⟨w, t, rfl, hne⟩ := findFrom_isSome.1 h
  obtain ⟨s', hs⟩ := List.exists_mem_of_ne_nil _ hne
  rw [orgReDefault_scheme, mem_alts] at hs
  simp only [List.mem_cons, List.not_mem_nil, or_false, exists_eq_or_imp, exists_eq_left] at hs
  have within : ∀ {x : Str}, Moves ⟨w.reverse ++ [], t, []⟩ s' x → Within x (w ++ t) := by
    intro x m
    have e : t = x ++ s'.rest := m.1
    refine ⟨w, s'.rest, ?_⟩
    rw [e]
    simp
  rcases hs with hs | hs | hs
  · obtain ⟨u, g1, g2⟩ := mem_cat.1 hs
    obtain ⟨rfl, hp⟩ := mem_bol.1 g1
    have : w = [] := by simpa using hp
    subst this
    exact .inl ⟨s'.rest, (mem_lits.1 g2).1.1.symm⟩
  · rcases mem_https hs with m | m
    · exact .inr (.inl (within m))
    · obtain ⟨a, b, e⟩ := within m
      exact .inr (.inl ⟨a, 's' :: b, by rw [e]; simp⟩)
  · exact .inr (.inr (within (mem_lits.1 hs).1))

/-- C28 (partial): extraction of links from a line never panics; each link found is in the line and
has one of the configured schemes, or it is the target of a link in double brackets that begins
with `doi`, or contains `http` or `mid:`.  Missing: links in double brackets need not have a
configured scheme (see `c28_violation`). -/
theorem c28_scheme_partial (letter : Char → Bool) (line : Str) :
    ∃ links, orgLinks letter orgReDefault line = .ok links ∧
      ∀ l ∈ links, l.url ≠ [] ∧ Within l.url line ∧ (HasScheme defaultSchemes l.url ∨
        (Within ("[[".toList ++ l.url ++ "]".toList) line ∧
          ("doi".toList <+: l.url ∨ Within "http".toList l.url ∨ Within "mid:".toList l.url))) := by
  obtain ⟨links, h1, h2⟩ := orgLinks_spec (letter := letter) orgReDefault_link schemeRe_groups
    schemeRe_idxs (L := (· ∈ defaultSchemes)) schemeRe_lang line
  refine ⟨links, h1, fun l hl => ?_⟩
  obtain ⟨g1, g2, g3⟩ := h2 l hl
  refine ⟨g1, g2, ?_⟩
  rcases g3 with ⟨w, hw, hp⟩ | ⟨g4, g5⟩
  · exact .inl ⟨w, hw, hp⟩
  · exact .inr ⟨g4, scheme_check g5⟩

/-- Links of a line do not depend on the set of letters. -/
theorem orgLinks_congr (f g : Char → Bool) (line : Str) :
    orgLinks f orgReDefault line = orgLinks g orgReDefault line := by
  have h1 : noLetter orgReDefault.link = true := by decide +kernel
  have h2 : noLetter orgReDefault.scheme = true := by decide +kernel
  simp only [orgLinks, orgLinkMatchIsUrl, findAll_congr f g h1, matchString_congr f g h2]

/-- C28 is violated: the expression for schemes is `^doi|https?|mid:`, in which `^` belongs to the
first alternative and the colon to the last one, so a link to a file with `http` in its name is
taken for a link with a configured scheme. -/
theorem c28_violation (letter : Char → Bool) :
    ∃ l, orgLinks letter orgReDefault "[[file:http.org]]".toList = .ok [l] ∧
      l.url = "file:http.org".toList ∧ ¬HasScheme defaultSchemes l.url := by
  refine ⟨⟨"file:http.org".toList, [], 0⟩, ?_, rfl, ?_⟩
  · rw [orgLinks_congr letter Regex.isAlpha]; decide +kernel
  · rintro ⟨s, hs, hp⟩
    simp only [defaultSchemes, List.mem_cons, List.not_mem_nil, or_false] at hs
    rcases hs with rfl | rfl | rfl | rfl <;> revert hp <;> decide

/-- Lines without double brackets: C28 holds. -/
theorem c28_without_brackets (letter : Char → Bool) (line : Str)
    (h : ¬Within "[[".toList line) :
    ∃ links, orgLinks letter orgReDefault line = .ok links ∧
      ∀ l ∈ links, HasScheme defaultSchemes l.url := by
  obtain ⟨links, h1, h2⟩ := c28_scheme_partial letter line
  refine ⟨links, h1, fun l hl => ?_⟩
  rcases (h2 l hl).2.2 with h3 | ⟨⟨a, b, e⟩, -⟩
  · exact h3
  · exact absurd ⟨a, l.url ++ "]".toList ++ b, by rw [e]; simp⟩ h

example : orgLinks Regex.isAlpha orgReDefault "see <https://a.b/c d> or http://x.y/(z).".toList =
    .ok [⟨"https://a.b/c d".toList, [], 0⟩, ⟨"http://x.y/(z)".toList, [], 0⟩] := by
  decide +kernel

end Burl.Links
