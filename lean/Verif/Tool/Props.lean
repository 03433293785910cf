import Verif.Tool.Model
import Verif.Tree.Props
import Verif.Extract.Props
/-! C51: what `burl_tool` prints. -/
namespace Burl.Tool
open Burl Burl.Extract Burl.Extract.Spec
open Burl.Tree (Heap Addr CountDescendants FilterChildrenCount RepT IsReply)
open Burl.Tree.Spec

theorem filter_all (order : List (Str × Str)) (url : Str) :
    filterExact (variants order url) = fun _ => true := rfl

/-- Counting and limiting of a tree of links. -/
theorem count_limit {h : Heap} {p : Props} {cs : List Tree} {g : Addr}
    (ht : RepT h (.node p cs) g) (f : Link → Bool) (n : Int) (hn : 0 ≤ n)
    (hlt : matches_ f (.node p cs) * n < 2 ^ 63) :
    ∃ h1 a h2 y, CountDescendants h g f (.ok (h1, some a)) ∧
      (∀ r, CountDescendants h g f r → r = .ok (h1, some a)) ∧
      FilterChildrenCount h1 a n (.ok h2) ∧ (∀ r, FilterChildrenCount h1 a n r → r = .ok h2) ∧
      IsReply h2 a y ∧ Burl.Tree.Limited f n (.node p cs) y := by
  obtain ⟨h1, b, fp, s1, _, _, s4, s5, _⟩ := Burl.Tree.countDescendants_spec f h p cs g ht
  have hmm : Burl.Tree.sumTotals (Burl.Tree.countAs f cs) = matches_ f (.node p cs) := by
    rw [Burl.Tree.countAs_total]; rfl
  obtain ⟨y, g1, g2⟩ := Burl.Tree.limited_tree f (.node p cs)
    (.node (Burl.Tree.sumTotals (Burl.Tree.countAs f cs)) 0 p (Burl.Tree.countAs f cs))
    (by simp [Burl.Tree.countA]) n hn
    (by rintro ⟨ls, e⟩; cases e) (by simp only [Annot.total]; rw [hmm]; exact hlt)
  obtain ⟨h2, fp', u1, u2, _⟩ := Burl.Tree.filterChildrenCount_spec _ n h1 b fp s4 s5 y g1
  refine ⟨h1, b, h2, y, s1, ?_, u1, ?_, ⟨fp', u2⟩, g2⟩
  · rintro r1 ⟨r', hl, rfl⟩
    obtain ⟨r'', hl', e⟩ := s1
    rw [hl.unique hl', ← e]
  · intro r g
    have g' := u1
    unfold FilterChildrenCount at g g'
    split at g
    · rename_i c0 t0 n0 hb
      rw [hb] at g'
      obtain ⟨x, hx, rfl⟩ := g
      obtain ⟨x', hx', e⟩ := g'
      rw [e, hx.unique hx']
    · rename_i hb
      split at g'
      · rename_i c0 t0 n0 hb'
        exact absurd hb' (hb _ _ _)
      · cases g'

/-- What the files read hold: a tree for each of them that has links. -/
def FileTrees (find : Finder) (files : Files) (list : List Source) (trees : List Tree) : Prop :=
  All₂ (fun src t => IsFileTree find (fun _ => true) files src t ∧
      ∃ cs, t = .node (.file src.name) cs ∧
        linksAll cs = found (find.of src.kind) (fun _ => true) 1 (fileLines files src))
    ((untilFailure (fileErr files) list).1.filter fun src =>
      decide (found (find.of src.kind) (fun _ => true) 1 (fileLines files src) ≠ [])) trees

/-- The tree printed, with shares of the limit of eight links. -/
theorem printed_limited (order : Str → List (Str × Str)) (find : Finder) (files : Files)
    (typed : List Args.Source) (url : Str) (rest : List Str)
    (hlt : ∀ trees, FileTrees find files (sources typed (url :: rest)) trees →
      (linksAll trees).length < 2 ^ 59)
    {r : Res ToolErr (Option (Heap × Addr) × Option FileErr)}
    (hr : Tool order find files typed (url :: rest) r) :
    ∃ trees, FileTrees find files (sources typed (url :: rest)) trees ∧
      ((trees = [] ∧ r = .ok (none, (untilFailure (fileErr files) (sources typed (url :: rest))).2)) ∨
        (trees ≠ [] ∧ ∃ h a y,
          r = .ok (some (h, a), (untilFailure (fileErr files) (sources typed (url :: rest))).2) ∧
          IsReply h a y ∧ Burl.Tree.Limited (fun _ => true) 8 (.node .fileGroup trees) y)) := by
  obtain ⟨h', group, trees, e, ht, hcase⟩ := group_trees find (fun _ => true) (fun _ _ => rfl) files
    [] (sources typed (url :: rest))
  refine ⟨trees, ht, ?_⟩
  unfold Tool at hr
  simp only [filter_all] at hr
  rw [e] at hr
  rcases hcase with ⟨h1, rfl⟩ | ⟨h1, g, rfl, hrep⟩
  · exact .inl ⟨h1, hr⟩
  · right
    refine ⟨h1, ?_⟩
    have hm : matches_ (fun _ => true) (.node .fileGroup trees) = ((linksAll trees).length : Int) := by
      unfold matches_ links
      rw [List.filter_eq_self.2 (fun _ _ => rfl)]
    have hl := hlt trees ht
    obtain ⟨g1, a, g2, y, k1, k2, k3, k4, k5, k6⟩ := count_limit hrep (fun _ => true) 8 (by decide)
      (by rw [hm]; omega)
    obtain ⟨r1, q1, q2⟩ := hr
    rw [k2 r1 q1] at q2
    obtain ⟨r2, q3, q4⟩ := q2
    rw [k4 r2 q3] at q4
    exact ⟨g2, a, y, q4, k5, k6⟩

theorem limited_part {trees : List Tree} {y : Annot}
    (k : Burl.Tree.Limited (fun _ => true) 8 (.node .fileGroup trees) y) :
    Part y.erase (.node .fileGroup trees) ∧ (links y.erase).length ≤ 8 ∧
      ((linksAll trees).length ≤ 8 → links y.erase = matching (fun _ => true) (.node .fileGroup trees)) := by
  have hm : matches_ (fun _ => true) (.node .fileGroup trees) = ((linksAll trees).length : Int) := by
    unfold matches_ links
    rw [List.filter_eq_self.2 (fun _ _ => rfl)]
  refine ⟨(Burl.Tree.c18_counted_part _ y _ k.counted).1, ?_, fun h8 => k.full (by rw [hm]; omega)⟩
  have := k.le
  rw [Burl.Tree.exact_length k.exact] at this
  omega

/-- **C51 (part).** The tool ends without a crash and prints a part of the tree of links of the
files read, at most eight links; all of them but repetitions if there are no more than eight. The
first failure of a file is reported.  Missing: the links are not restricted to the URL, see the
violation below. -/
theorem c51_printed_partial (order : Str → List (Str × Str)) (find : Finder) (files : Files)
    (typed : List Args.Source) (url : Str) (rest : List Str)
    (hlt : ∀ trees, FileTrees find files (sources typed (url :: rest)) trees →
      (linksAll trees).length < 2 ^ 59)
    {r : Res ToolErr (Option (Heap × Addr) × Option FileErr)}
    (hr : Tool order find files typed (url :: rest) r) :
    ∃ trees, FileTrees find files (sources typed (url :: rest)) trees ∧
      ((trees = [] ∧ r = .ok (none, (untilFailure (fileErr files) (sources typed (url :: rest))).2)) ∨
        (trees ≠ [] ∧ ∃ h a y,
          r = .ok (some (h, a), (untilFailure (fileErr files) (sources typed (url :: rest))).2) ∧
          IsReply h a y ∧ Part y.erase (.node .fileGroup trees) ∧ (links y.erase).length ≤ 8 ∧
          ((linksAll trees).length ≤ 8 →
            links y.erase = matching (fun _ => true) (.node .fileGroup trees)))) := by
  obtain ⟨trees, ht, h | ⟨h1, h, a, y, e, hy, k⟩⟩ := printed_limited order find files typed url rest hlt hr
  · exact ⟨trees, ht, .inl h⟩
  · exact ⟨trees, ht, .inr ⟨h1, h, a, y, e, hy, limited_part k⟩⟩

/-- The tool has a result for every URL and sources. -/
theorem c51_total (order : Str → List (Str × Str)) (find : Finder) (files : Files)
    (typed : List Args.Source) (url : Str) (rest : List Str)
    (hlt : ∀ trees, FileTrees find files (sources typed (url :: rest)) trees →
      (linksAll trees).length < 2 ^ 59) :
    ∃ r, Tool order find files typed (url :: rest) r := by
  obtain ⟨h', group, trees, e, ht, hcase⟩ := group_trees find (fun _ => true) (fun _ _ => rfl) files
    [] (sources typed (url :: rest))
  unfold Tool
  simp only [filter_all]
  rw [e]
  rcases hcase with ⟨_, rfl⟩ | ⟨_, g, rfl, hrep⟩
  · exact ⟨_, rfl⟩
  · have hm : matches_ (fun _ => true) (.node .fileGroup trees) =
        ((linksAll trees).length : Int) := by
      unfold matches_ links
      rw [List.filter_eq_self.2 (fun _ _ => rfl)]
    have hl := hlt trees ht
    obtain ⟨g1, a, g2, y, k1, _, k3, _⟩ := count_limit hrep (fun _ => true) 8 (by decide)
      (by rw [hm]; omega)
    exact ⟨_, _, k1, _, k3, rfl⟩

/-- Without a URL nothing is read. -/
theorem c51_usage (order : Str → List (Str × Str)) (find : Finder) (files : Files)
    (typed : List Args.Source) (r : Res ToolErr (Option (Heap × Addr) × Option FileErr)) :
    Tool order find files typed [] r ↔ r = .err .usage := Iff.rfl

/-- What is printed does not depend on the URL. -/
theorem c51_violation_any (order : Str → List (Str × Str)) (find : Finder) (files : Files)
    (typed : List Args.Source) (url url' : Str) (rest : List Str)
    (r : Res ToolErr (Option (Heap × Addr) × Option FileErr)) :
    Tool order find files typed (url :: rest) r ↔ Tool order find files typed (url' :: rest) r :=
  Iff.rfl

/-- **C51 fails**: whatever the URL is, the only link of a file is printed. -/
theorem c51_violation (order : Str → List (Str × Str)) (find : Finder) (files : Files)
    (url name : Str) (lines : List Str) (l : Link)
    (hfile : files name = some (lines, none))
    (hlink : found find.org (fun _ => true) 1 lines = [l])
    {r : Res ToolErr (Option (Heap × Addr) × Option FileErr)}
    (hr : Tool order find files [⟨.org, name⟩] [url] r) :
    ∃ h a y, r = .ok (some (h, a), none) ∧ IsReply h a y ∧ links y.erase = [l] := by
  have hs : sources [⟨.org, name⟩] [url] = [⟨.org, name⟩] := rfl
  have hu : untilFailure (fileErr files) [(⟨.org, name⟩ : Source)] = ([⟨.org, name⟩], none) := by
    have : fileErr files ⟨.org, name⟩ = none := by
      unfold fileErr
      rw [hfile]
    simp only [untilFailure, this]
  have hfl : fileLines files ⟨.org, name⟩ = lines := by
    unfold fileLines
    rw [hfile]
  have hof : find.of Kind.org = find.org := rfl
  have htrees : ∀ trees, FileTrees find files (sources [⟨.org, name⟩] [url]) trees →
      ∃ cs, trees = [.node (.file name) cs] ∧ linksAll cs = [l] := by
    intro trees ht
    unfold FileTrees at ht
    rw [hs, hu] at ht
    simp only [List.filter_cons, List.filter_nil] at ht
    rw [hfl, hof, hlink, if_pos (by simp)] at ht
    cases ht with
    | cons h1 h2 =>
      cases h2
      obtain ⟨-, cs, rfl, h3⟩ := h1
      refine ⟨cs, rfl, ?_⟩
      rw [h3]
      show found (find.of Kind.org) (fun _ => true) 1 (fileLines files ⟨.org, name⟩) = _
      rw [hfl, hof, hlink]
  have hlen : ∀ trees, FileTrees find files (sources [⟨.org, name⟩] [url]) trees →
      linksAll trees = [l] := by
    intro trees ht
    obtain ⟨cs, rfl, h⟩ := htrees trees ht
    simp [linksAll, links, h]
  obtain ⟨trees, ht, hcase⟩ := c51_printed_partial order find files [⟨.org, name⟩] url []
    (fun trees ht => by rw [hlen trees ht]; simp) hr
  have hl := hlen trees ht
  rw [hs, hu] at hcase
  rcases hcase with ⟨rfl, _⟩ | ⟨hne, h, a, y, h1, h2, h3, h4, h5⟩
  · cases hl
  · refine ⟨h, a, y, h1, h2, ?_⟩
    rw [h5 (by rw [hl]; simp)]
    have key : ∀ ts, linksAll ts = [l] → matchingAll (fun _ => true) ts = [l] := by
      have one : (∀ t : Tree, (links t = [l] → matching (fun _ => true) t = [l]) ∧
          (links t = [] → matching (fun _ => true) t = [])) ∧ True := by
        refine ⟨fun t => ?_, trivial⟩
        refine Tree.rec
          (motive_1 := fun t => (links t = [l] → matching (fun _ => true) t = [l]) ∧
            (links t = [] → matching (fun _ => true) t = []))
          (motive_2 := fun ts => (linksAll ts = [l] → matchingAll (fun _ => true) ts = [l]) ∧
            (linksAll ts = [] → matchingAll (fun _ => true) ts = [])) ?_ ?_ ?_ ?_ t
        · intro ls
          constructor
          · intro h
            simp only [links] at h
            subst h
            simp [matching, firstByUrl]
          · intro h
            simp only [links] at h
            subst h
            simp [matching, firstByUrl]
        · intro p cs ih
          simpa [links, matching] using ih
        · simp [linksAll, matchingAll]
        · intro t ts ih1 ih2
          simp only [linksAll, matchingAll]
          constructor
          · intro h
            cases hx : links t with
            | nil =>
              rw [hx] at h
              rw [ih1.2 hx, ih2.1 h]
              rfl
            | cons k ks =>
              rw [hx] at h
              simp only [List.cons_append, List.cons.injEq, List.append_eq_nil_iff] at h
              obtain ⟨rfl, rfl, h⟩ := h
              rw [ih1.1 hx, ih2.2 h]
              rfl
          · intro h
            rw [List.append_eq_nil_iff] at h
            rw [ih1.2 h.1, ih2.2 h.2]
            rfl
      intro ts hts
      exact (one.1 (.node .fileGroup ts)).1 hts
    exact key trees hl

/-- Files of the example: one link to `http://a`. -/
def exOne : Files := fun name =>
  if name = "a.org".toList then some (["* A".toList, "see http://a".toList], none) else none

/-- A query about another URL finds the link to `http://a`. -/
example : ∃ h a y, Tool (fun _ => []) exFinder exOne [⟨.org, "a.org".toList⟩]
        ["https://orgmode.org/".toList] (.ok (some (h, a), none)) ∧
      IsReply h a y ∧ links y.erase = [⟨"http://a".toList, [], 2⟩] := by
  have hf : exOne "a.org".toList = some (["* A".toList, "see http://a".toList], none) := by
    decide +kernel
  have hl : found exFinder.org (fun _ => true) 1 ["* A".toList, "see http://a".toList] =
      [⟨"http://a".toList, [], 2⟩] := by decide +kernel
  have hlt : ∀ trees, FileTrees exFinder exOne (sources [⟨.org, "a.org".toList⟩]
      ["https://orgmode.org/".toList]) trees → (linksAll trees).length < 2 ^ 59 := by
    intro trees ht
    have hs : (untilFailure (fileErr exOne) (sources [⟨.org, "a.org".toList⟩]
        ["https://orgmode.org/".toList])).1.filter (fun src =>
          decide (found (exFinder.of src.kind) (fun _ => true) 1 (fileLines exOne src) ≠ [])) =
        [⟨.org, "a.org".toList⟩] := by decide +kernel
    have hn : (found (exFinder.of .org) (fun _ => true) 1
        (fileLines exOne ⟨.org, "a.org".toList⟩)).length = 1 := by decide +kernel
    unfold FileTrees at ht
    rw [hs] at ht
    cases ht with
    | cons h1 h2 =>
      cases h2
      obtain ⟨-, cs, rfl, h3⟩ := h1
      simp only [linksAll, links, h3, List.append_nil]
      rw [hn]
      decide
  obtain ⟨r, hr⟩ := c51_total (fun _ => []) exFinder exOne [⟨.org, "a.org".toList⟩]
    "https://orgmode.org/".toList [] hlt
  obtain ⟨h, a, y, h1, h2, h3⟩ := c51_violation _ _ _ _ _ _ _ hf hl hr
  exact ⟨h, a, y, h1 ▸ hr, h2, h3⟩

end Burl.Tool
