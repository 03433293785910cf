import Verif.Base
/-! Model of `pkg/burl_fuzzy/approsearch.go` and `rank.go`, of `container/heap` and of
`(*BurlBackend).Search`.  Distances are `Int` without wrap-around: a distance never exceeds
the length of a string by more than a constant.  Runes are compared for equality only, so the
distance is modelled for any type with decidable equality. -/
namespace Burl.Fuzzy

/-- `CutCost` (pkg/burl_fuzzy/approsearch.go:34). -/
def cutCost : Int := 32767

/-- `SameRuneDistance` (pkg/burl_fuzzy/approsearch.go:37-43). -/
def sameRune {α : Type} [DecidableEq α] (p w : α) : Int := if p = w then 0 else 1

/-- `MinDistance` (pkg/burl_fuzzy/approsearch.go:45-53). -/
def minDistance (args : List Int) : Int :=
  args.foldl (fun result v => if v < result then v else result) cutCost

/-- Slice element access: out of range is a panic. -/
def idx {β : Type} (l : List β) (i : Nat) : Res Empty β :=
  match l[i]? with
  | some v => .ok v
  | none => .panic

/-- The fixed array `prevDistance [2]EditorDistance` (pkg/burl_fuzzy/approsearch.go:77). -/
structure Prev where
  p0 : Int
  p1 : Int

/-- `prevDistance[i%2]` (pkg/burl_fuzzy/approsearch.go:92). -/
def Prev.get (p : Prev) (i : Nat) : Int := if i % 2 = 0 then p.p0 else p.p1
/-- `prevDistance[i%2] = v` (pkg/burl_fuzzy/approsearch.go:94). -/
def Prev.set (p : Prev) (i : Nat) (v : Int) : Prev :=
  if i % 2 = 0 then { p with p0 := v } else { p with p1 := v }

/-- Body of the inner loop (pkg/burl_fuzzy/approsearch.go:90-101). -/
def innerStep {α : Type} [DecidableEq α] (pattern word : List α) (iPattern iWord : Nat)
    (costAlt cost : List Int) (prev : Prev) : Res Empty (List Int × Prev) :=
  (idx pattern (iPattern - 1)).bind fun pPrev =>
  (idx pattern iPattern).bind fun pCur =>
  (idx word iWord).bind fun wCur =>
  (idx word (iWord - 1)).bind fun wPrev =>
  (idx cost iWord).bind fun old =>
  (idx costAlt (iWord - 1)).bind fun diag =>
  (idx cost (iWord - 1)).bind fun left =>
  (idx costAlt iWord).bind fun up =>
  let d_transposition := if pPrev = wCur ∧ pCur = wPrev then prev.get iWord + 1 else cutCost
  let prev := prev.set iWord old
  let cost := cost.set iWord
    (minDistance [diag + sameRune pCur wCur, left + 1, up + 1, d_transposition])
  .ok (cost, prev)

/-- The inner loop (pkg/burl_fuzzy/approsearch.go:89-102), `fuel` iterations from `iWord`. -/
def innerLoop {α : Type} [DecidableEq α] (pattern word : List α) (iPattern : Nat)
    (costAlt : List Int) : Nat → Nat → List Int → Prev → Res Empty (List Int)
  | 0, _, cost, _ => .ok cost
  | fuel + 1, iWord, cost, prev =>
    (innerStep pattern word iPattern iWord costAlt cost prev).bind fun r =>
      innerLoop pattern word iPattern costAlt fuel (iWord + 1) r.1 r.2

/-- Body of the outer loop (pkg/burl_fuzzy/approsearch.go:80-102); returns `cost` and
`costAlt` after the swap. -/
def outerStep {α : Type} [DecidableEq α] (pattern word : List α) (iPattern : Nat)
    (cost costAlt : List Int) : Res Empty (List Int × List Int) :=
  let (cost, costAlt) := (costAlt, cost)
  (idx cost 0).bind fun c0 =>
  (idx pattern iPattern).bind fun pCur =>
  (idx word 0).bind fun w0 =>
  (idx costAlt 0).bind fun up =>
  let prev : Prev := ⟨c0, (iPattern : Int) - 1⟩
  let cost := cost.set 0
    (minDistance [sameRune pCur w0 + iPattern, 1 + iPattern, up + 1])
  (innerLoop pattern word iPattern costAlt (word.length - 1) 1 cost prev).bind fun cost =>
  .ok (cost, costAlt)

/-- The outer loop (pkg/burl_fuzzy/approsearch.go:79-104). -/
def outerLoop {α : Type} [DecidableEq α] (pattern word : List α) :
    Nat → Nat → List Int → List Int → Res Empty (List Int)
  | 0, _, cost, _ => .ok cost
  | fuel + 1, iPattern, cost, costAlt =>
    (outerStep pattern word iPattern cost costAlt).bind fun r =>
      outerLoop pattern word fuel (iPattern + 1) r.1 r.2

/-- `EditorDistanceRunes` (pkg/burl_fuzzy/approsearch.go:55-106). -/
def editorDistanceRunes {α : Type} [DecidableEq α] (pattern word : List α) : Res Empty Int :=
  let costAlt := word.map fun _ => (0 : Int)
  let initDistance := minDistance [1, 1]
  -- `pattern[0]` is evaluated once per symbol of the word
  let init : Res Empty (List Int) :=
    match word, pattern with
    | [], _ => .ok []
    | _ :: _, [] => .panic
    | _ :: _, p0 :: _ => .ok (word.map fun w => initDistance * sameRune p0 w)
  init.bind fun cost =>
  (outerLoop pattern word (pattern.length - 1) 1 cost costAlt).bind fun cost =>
  .ok (minDistance cost)

/-- `SearchDistanceDL` (pkg/burl_fuzzy/approsearch.go:108-112).  `lower` is the rune mapping of
`strings.ToLower`. -/
def searchDistanceDL (lower : Char → Char) (pattern word : Str) : Res Empty Int :=
  editorDistanceRunes (pattern.map lower) (word.map lower)

/-! ### rank.go -/

/-- `WeightedString` (pkg/burl_fuzzy/rank.go:24-27). -/
structure WS where
  weight : Int
  word : Str
  deriving Repr, DecidableEq

/-- Go string comparison `a < b` (bytewise, which on valid UTF-8 is rune-wise). -/
def strLt : Str → Str → Bool
  | _, [] => false
  | [], _ :: _ => true
  | a :: as, b :: bs => if a = b then strLt as bs else a.toNat < b.toNat

/-- `(*WeightedString).Less` (pkg/burl_fuzzy/rank.go:29-39). -/
def WS.less (a b : WS) : Bool :=
  if a.weight ≠ b.weight then a.weight < b.weight
  else
    let lenA := utf8Len a.word
    let lenB := utf8Len b.word
    if lenA ≠ lenB then lenA < lenB
    else strLt a.word b.word

/-- `(*WeightedStringHeap).Less` (pkg/burl_fuzzy/rank.go:45-49), for any `less` on elements.
Indices are always in range where `container/heap` calls it. -/
def hLess {α : Type} (less : α → α → Bool) (h : List α) (i j : Nat) : Bool :=
  match h[i]?, h[j]? with
  | some a, some b => less b a
  | _, _ => false

/-- `WeightedStringHeap.Swap` (pkg/burl_fuzzy/rank.go:51). -/
def swap {α : Type} (h : List α) (i j : Nat) : List α :=
  match h[i]?, h[j]? with
  | some a, some b => (h.set i b).set j a
  | _, _ => h

/-- `up` of `container/heap` (standard library).  Every iteration moves to a smaller index. -/
def up {α : Type} (less : α → α → Bool) : Nat → List α → Nat → List α
  | 0, h, _ => h
  | fuel + 1, h, j =>
    let i := (j - 1) / 2
    if i = j ∨ !hLess less h j i then h
    else up less fuel (swap h i j) i

/-- `down` of `container/heap` (standard library).  Returns the heap and the final index. -/
def down {α : Type} (less : α → α → Bool) (n : Nat) : Nat → List α → Nat → List α × Nat
  | 0, h, i => (h, i)
  | fuel + 1, h, i =>
    let j1 := 2 * i + 1
    if j1 ≥ n then (h, i)
    else
      let j2 := j1 + 1
      let j := if j2 < n ∧ hLess less h j2 j1 then j2 else j1
      if !hLess less h j i then (h, i)
      else down less n fuel (swap h i j) j

/-- `heap.Push` (standard library). -/
def heapPush {α : Type} (less : α → α → Bool) (h : List α) (x : α) : List α :=
  let h := h ++ [x]
  up less h.length h (h.length - 1)

/-- `heap.Fix` (standard library). -/
def heapFix {α : Type} (less : α → α → Bool) (h : List α) (i : Nat) : List α :=
  let (h', i') := down less h.length h.length h i
  if i' > i then h' else up less h'.length h' i

/-- `(*WeightedStringHeap).Add` (pkg/burl_fuzzy/rank.go:64-71). -/
def heapAdd {α : Type} (less : α → α → Bool) (limit : Int) (h : List α) (item : α) :
    Res Empty (List α) :=
  if (h.length : Int) < limit then .ok (heapPush less h item)
  else
    (idx h 0).bind fun top =>
      if less item top then .ok (heapFix less (h.set 0 item) 0) else .ok h

/-- `DefaultDistanceLimit` (pkg/burl_fuzzy/rank.go:73-83). -/
def defaultDistanceLimit (length : Nat) : Int :=
  if length < 2 then 0 else if length < 4 then 1 else if length < 7 then 2 else 3

/-- `strings.Contains`. -/
def contains (word query : Str) : Bool :=
  match word with
  | [] => query.isEmpty
  | c :: cs => query.isPrefixOf (c :: cs) || contains cs query

/-- `GetSubqueryDistance` (pkg/burl_fuzzy/rank.go:85-101). -/
def getSubqueryDistance (lower : Char → Char) (query word : Str) (limit : Int) :
    Res Empty Int :=
  if limit < 0 then .ok (utf8Len word)
  else if limit = 0 then
    if contains word query then .ok 0 else .ok (utf8Len word)
  else
    let lenDiff : Int := (utf8Len query : Int) - utf8Len word
    if lenDiff > limit then .ok lenDiff
    else searchDistanceDL lower query word

/-- `SubqueryLimit` (pkg/burl_fuzzy/rank.go:103-106). -/
structure SubqueryLimit where
  query : Str
  limit : Int

/-- `MakeSubqueryLimit` (pkg/burl_fuzzy/rank.go:108-114). -/
def makeSubqueryLimit (query : List Str) (limit : Int) : List SubqueryLimit :=
  query.map fun w => ⟨w, minDistance [limit, defaultDistanceLimit (utf8Len w)]⟩

/-- `QueryDistance` (pkg/burl_fuzzy/rank.go:116-124); the accumulator is `distance`. -/
def queryDistanceLoop (lower : Char → Char) (word : Str) (limit : Int) :
    List SubqueryLimit → Int → Res Empty (Bool × Int)
  | [], distance => .ok (true, distance)
  | q :: qs, distance =>
    (getSubqueryDistance lower q.query word (limit - distance)).bind fun d =>
      let distance := distance + d
      if distance > limit then .ok (false, distance)
      else queryDistanceLoop lower word limit qs distance

/-- `QueryDistance` (pkg/burl_fuzzy/rank.go:116-124). -/
def queryDistance (lower : Char → Char) (query : List SubqueryLimit) (word : Str) (limit : Int) :
    Res Empty (Bool × Int) :=
  queryDistanceLoop lower word limit query 0

/-- The callback of `ProcessUrlSource` over all words of the source
(pkg/burl_fuzzy/rank.go:141-149). -/
def collect (lower : Char → Char) (sub : List SubqueryLimit) (tolerance limit : Int) :
    List Str → List WS → Res Empty (List WS)
  | [], h => .ok h
  | word :: rest, h =>
    (queryDistance lower sub word tolerance).bind fun r =>
      if !r.1 then collect lower sub tolerance limit rest h
      else
        (heapAdd WS.less limit h ⟨r.2, word⟩).bind fun h =>
          collect lower sub tolerance limit rest h

/-- `ProcessUrlSource` (pkg/burl_fuzzy/rank.go:128-153).  `sort` stands for `sort.Sort(&h)`. -/
def processUrlSource (lower : Char → Char) (sort : List WS → List WS) (queryWords : List Str)
    (source : List Str) (limitPtr : Option Int) (tolerancePtr : Option Int) :
    Res Empty (List WS) :=
  let limit := limitPtr.getD 10
  let toleranceLimit := tolerancePtr.getD 5
  (collect lower (makeSubqueryLimit queryWords toleranceLimit) toleranceLimit limit source
    []).bind fun h => .ok (sort h)

/-- `strings.Fields` for a given `unicode.IsSpace`. -/
def fields (isSpace : Char → Bool) (s : Str) : List Str :=
  let rec go : Str → Str → List Str
    | [], cur => if cur.isEmpty then [] else [cur.reverse]
    | c :: cs, cur =>
      if isSpace c then (if cur.isEmpty then go cs [] else cur.reverse :: go cs [])
      else go cs (c :: cur)
  go s []

/-- Errors of `Search` (cmd/burl_backend/burl_backend.go:216-242). -/
inductive SearchErr where
  | backend       -- the sticky initialisation error
  | limit         -- "limit is out of range"
  | tolerance     -- "Negative tolerance"
  deriving Repr, DecidableEq

/-- The limit check of `Search` (cmd/burl_backend/burl_backend.go:230-235). -/
def limitOutOfRange : Option Int → Bool
  | some l => l ≤ 0 || l ≥ 100
  | none => false

/-- `(*BurlBackend).Search` (cmd/burl_backend/burl_backend.go:216-250) on the URLs of the
extracted links; `backendErr` is whether initialisation failed.  The reply lists the sorted
heap in reverse. -/
def search (lower : Char → Char) (isSpace : Char → Bool) (sort : List WS → List WS)
    (backendErr : Bool) (links : List Str) (query : Str) (limit tolerance : Option Int) :
    Res SearchErr (List Str) :=
  if backendErr then .err .backend
  else if limitOutOfRange limit then .err .limit
  else
    let tol := tolerance.getD 5
    if tol < 0 then .err .tolerance
    else
      match processUrlSource lower sort (fields isSpace query) links limit (some tol) with
      | .ok h => .ok (h.reverse.map WS.word)
      | .panic => .panic

end Burl.Fuzzy
