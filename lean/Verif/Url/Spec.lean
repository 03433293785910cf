import Verif.Base
/-! Specification vocabulary for URL variants: independent of the model. -/
namespace Burl.Url.Spec

/-- A redundant URL tail: slashes, an optional question mark, ampersands, an optional hash. -/
def RedundantTail (t : Str) : Prop :=
  ∃ (a b : Nat) (q h : Bool),
    t = List.replicate a '/' ++ (if q then ['?'] else []) ++ List.replicate b '&'
          ++ (if h then ['#'] else [])

/-- `v` is `u` without a (possibly empty) redundant tail. -/
def Truncation (u v : Str) : Prop := ∃ t, RedundantTail t ∧ u = v ++ t

/-- `u'` is `u` itself or `u` with a leading `http:` and `https:` exchanged. -/
def SchemeAlt (u u' : Str) : Prop :=
  u' = u ∨
  (∃ r, u = "http:".toList ++ r ∧ u' = "https:".toList ++ r) ∨
  (∃ r, u = "https:".toList ++ r ∧ u' = "http:".toList ++ r)

end Burl.Url.Spec
