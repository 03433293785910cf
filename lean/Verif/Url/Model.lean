import Verif.Base
/-! Model of `pkg/burl_url/url.go`. -/
namespace Burl.Url

/-- `if i > 0 && slice[i-1] == c { i-- }` (pkg/burl_url/url.go:49-51 and 55-57). -/
def backOnce (slice : Str) (c : Char) (i : Nat) : Nat :=
  if 0 < i ∧ slice[i - 1]? = some c then i - 1 else i

/-- `for i > 0 && slice[i-1] == c { i-- }` (pkg/burl_url/url.go:52-54 and 58-60). -/
def backWhile (slice : Str) (c : Char) : Nat → Nat
  | 0 => 0
  | i + 1 => if slice[i]? = some c then backWhile slice c i else i + 1

/-- `RedundantTailVariants` (pkg/burl_url/url.go:35-66).  The copy of the string into a rune
slice (lines 41-48) is the identity on `Str` (valid UTF-8); the final loop (62-64) appends
`slice[:i]` for `i` up to and including `n`. -/
def redundantTailVariants (url : Str) : List Str :=
  if url.length = 0 then []
  else
    let n := url.length
    let i := n
    let i := backOnce url '#' i
    let i := backWhile url '&' i
    let i := backOnce url '?' i
    let i := backWhile url '/' i
    (List.range' i (n + 1 - i)).map (fun k => url.take k)

/-- The `replacements` map literal (pkg/burl_url/url.go:21-24). -/
def replacements : List (Str × Str) :=
  [("http:".toList, "https:".toList), ("https:".toList, "http:".toList)]

/-- Body of the loop over `replacements` (pkg/burl_url/url.go:26-30). -/
def replaceStep (url : Str) (retval : List Str) (kv : Str × Str) : List Str :=
  if kv.1.isPrefixOf url then retval ++ redundantTailVariants (kv.2 ++ url.drop kv.1.length)
  else retval

/-- `UrlVariants` (pkg/burl_url/url.go:20-32).  `order` is the order in which this execution
happens to iterate over the map; Go chooses any permutation of `replacements`. -/
def urlVariants (order : List (Str × Str)) (url : Str) : List Str :=
  order.foldl (replaceStep url) (redundantTailVariants url)

end Burl.Url
