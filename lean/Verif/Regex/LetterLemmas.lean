import Verif.Regex.Model
/-! Expressions without `\p{L}` do not depend on the set of letters. -/
namespace Burl.Regex

def noLetter : Re → Bool
  | .cls k => k.items.all (· != .letter)
  | .cat a b => noLetter a && noLetter b
  | .alt a b => noLetter a && noLetter b
  | .star _ r => noLetter r
  | .plus _ r => noLetter r
  | .opt _ r => noLetter r
  | .rep _ _ r => noLetter r
  | .group _ r => noLetter r
  | _ => true

theorem has_congr {k : Cls} (h : k.items.all (· != .letter) = true) (f g : Char → Bool) :
    k.has f = k.has g := by
  have key : ∀ d, k.items.any (Item.has f d) = k.items.any (Item.has g d) := by
    intro d
    generalize k.items = l at h
    induction l with
    | nil => rfl
    | cons i is ih =>
      simp only [List.all_cons, Bool.and_eq_true] at h
      simp only [List.any_cons, ih h.2]
      congr 1
      cases i with
      | letter => simp at h
      | _ => rfl
  funext c
  simp only [Cls.has, key]

theorem run_congr (f g : Char → Bool) (r : Re) (h : noLetter r = true) : run f r = run g r := by
  induction r with
  | cls k =>
    funext s
    simp only [run, has_congr (k := k) h f g]
  | cat a b iha ihb =>
    simp only [noLetter, Bool.and_eq_true] at h
    funext s
    simp only [run, iha h.1, ihb h.2]
  | alt a b iha ihb =>
    simp only [noLetter, Bool.and_eq_true] at h
    funext s
    simp only [run, iha h.1, ihb h.2]
  | star _ r ih => funext s; simp only [run, ih h]
  | plus _ r ih => funext s; simp only [run, ih h]
  | opt _ r ih => funext s; simp only [run, ih h]
  | rep _ _ r ih => funext s; simp only [run, ih h]
  | group _ r ih => funext s; simp only [run, ih h]
  | _ => funext s; simp only [run]

theorem findFrom_congr (f g : Char → Bool) {r : Re} (h : noLetter r = true) (pre : List Char)
    (rest : Str) : findFrom f r pre rest = findFrom g r pre rest := by
  induction rest generalizing pre with
  | nil => simp only [findFrom, run_congr f g r h]
  | cons c cs ih => simp only [findFrom, run_congr f g r h, ih]

theorem matchString_congr (f g : Char → Bool) {r : Re} (h : noLetter r = true) (text : Str) :
    matchString f r text = matchString g r text := by
  simp only [matchString, findFrom_congr f g h]

theorem findAll_congr (f g : Char → Bool) {r : Re} (h : noLetter r = true) (text : Str) :
    findAll f r text = findAll g r text := by
  have key : ∀ n pre rest pe, findAllFrom f r n pre rest pe = findAllFrom g r n pre rest pe := by
    intro n
    induction n with
    | zero => intros; rfl
    | succ n ih => intro pre rest pe; simp only [findAllFrom, findFrom_congr f g h, ih]
  exact key _ _ _ _

end Burl.Regex
