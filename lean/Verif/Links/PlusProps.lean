import Verif.Links.FoundProps
/-! Schemes with characters that are special in patterns (C28, C56, C66). -/
namespace Burl.Links
open Burl.Regex Spec Burl.Tree.Spec

/-- Default schemes and `svn+ssh`. -/
def plusVariants : List Str := schemeVariants ++ ["svn+ssh".toList]

/-- Expressions for these schemes (pkg/burl_links/extract_org.go:62-79). -/
def plusRe : OrgRe :=
  ⟨makeSchemeReStr plusVariants, (compile ("^".toList ++ makeSchemeReStr plusVariants ++ ":".toList)).getD .never,
    (compile (makeLinkReStr (makeSchemeReStr plusVariants))).getD .never⟩

theorem plus_update (p : OrgRe) : updateRe p plusVariants = (plusRe, none) := by
  have h0 : makeSchemeReStr plusVariants ≠ [] := by decide +kernel
  have h1 : (compile ("^".toList ++ makeSchemeReStr plusVariants ++ ":".toList)).isSome = true := by decide +kernel
  have h2 : (compile (makeLinkReStr (makeSchemeReStr plusVariants))).isSome = true := by decide +kernel
  unfold updateRe plusRe
  obtain ⟨a, ha⟩ := Option.isSome_iff_exists.1 h1
  obtain ⟨b, hb⟩ := Option.isSome_iff_exists.1 h2
  simp only [h0, if_false, ha, hb, Option.getD_some]

theorem plus_congr (f g : Char → Bool) (line : Str) : orgLinks f plusRe line = orgLinks g plusRe line := by
  have h1 : noLetter plusRe.link = true := by decide +kernel
  have h2 : noLetter plusRe.scheme = true := by decide +kernel
  simp only [orgLinks, orgLinkMatchIsUrl, findAll_congr f g h1, matchString_congr f g h2]

/-- C28 and C56 are violated for schemes with a plus, which RFC 3986 allows: a scheme is taken for a part of a
pattern.  With `-scheme svn+ssh` a link with this scheme is not found, a link with the scheme `svnssh` is, though
nobody has configured it. -/
theorem c28_violation_plus (letter : Char → Bool) (p : OrgRe) :
    ∃ p', updateRe p (schemeVariants ++ ["svn+ssh".toList]) = (p', none) ∧
      orgLinks letter p' "<svn+ssh://host/x>".toList = .ok [] ∧
      orgLinks letter p' "<svnssh:x>".toList = .ok [⟨"svnssh:x".toList, [], 0⟩] := by
  refine ⟨plusRe, plus_update p, ?_, ?_⟩
  · rw [plus_congr letter Regex.isAlpha]; decide +kernel
  · rw [plus_congr letter Regex.isAlpha]; decide +kernel

/-- A minus is not special in patterns, a plus is. -/
example : Literal "svn-ssh".toList ∧ ¬Literal "svn+ssh".toList := by
  constructor
  · exact ⟨by decide, by decide⟩
  · exact fun h => absurd (h.2 '+' (by decide)) (by decide)

end Burl.Links
