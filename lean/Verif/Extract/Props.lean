import Verif.Extract.PathLemmas
import Verif.Json.Lemmas
import Verif.Tree.Props
/-! Property theorems for extraction of links into a tree and for its serialisation (C24–C27). -/
namespace Burl.Extract
open Burl.Tree (Heap Addr Obj load load_ok RepT RepTs UrlMentions MentionsQuery IsReply Orders
  Decides)
open Burl.Tree.Spec (Link Props Tree links linksAll)
open Spec

/-! ### C24 -/

/-- Label of a headline. -/
def headLabel (h : Headline) : Props := .heading h.lineNo h.title

theorem sections_of {head : Str → Option (Nat × Str)} (find : Str → List Link)
    (accept : Link → Bool) (h0 : Heap) (lines : List Str) (hh : ∀ l ∈ lines, head l = orgHeading l)
    (hr : Regular head 0 lines) :
    ∃ h' root cs, orgExtract find accept h0 lines = .ok (h', root) ∧
      RepT h' (.node .unset cs) root ∧
      pathsAll [] cs = (expected head find accept 1 [] lines).map fun e =>
        (e.1.map headLabel, e.2) := by
  obtain ⟨h', root, cs, e, b, hp⟩ := orgExtract_spec find accept h0 lines
  obtain ⟨as, ha, hk⟩ := b.kids
  refine ⟨h', root, cs, e, ?_, ?_⟩
  · simp only [RepT]
    exact ⟨as, ha, RepFs.rep _ _ hk⟩
  · rw [hp, trace_regular find accept lines 1 _ 0 [] (regular_congr lines 0 hh hr) (by simp)
      (by simp) rfl rfl, expected_congr find accept lines 1 [] hh]
    simp only [List.map_map, Function.comp_def]
    apply List.map_congr_left
    intro x _
    congr 1

/-- C24, for outlines without gaps and tidy lines: the chain of labels above each link is the
chain of headlines of the sections the link belongs to.  Missing: outlines that skip a level or
have more than ten, headlines followed by blanks; see the `c24_violation` theorems. -/
theorem c24_sections_partial (find : Str → List Link) (accept : Link → Bool) (h0 : Heap)
    (lines : List Str) (ht : ∀ l ∈ lines, Tidy l) (hr : Regular headline 0 lines) :
    ∃ h' root cs, orgExtract find accept h0 lines = .ok (h', root) ∧
      RepT h' (.node .unset cs) root ∧
      pathsAll [] cs = (expected headline find accept 1 [] lines).map fun e =>
        (e.1.map headLabel, e.2) :=
  sections_of find accept h0 lines (fun l hl => (orgHeading_tidy (ht l hl)).symm) hr

/-- C24 for all lines, with headings as the code reads them, for outlines without gaps: the chain of
labels above each link is the chain of headings of the sections the link belongs to.  Missing: outlines
that skip a level or have more than ten. -/
theorem c24_regular_partial {head : Str → Option (Nat × Str)} (hh : Reads head)
    (find : Str → List Link) (accept : Link → Bool) (h0 : Heap) (lines : List Str)
    (hr : Regular head 0 lines) :
    ∃ h' root cs, orgExtract find accept h0 lines = .ok (h', root) ∧
      RepT h' (.node .unset cs) root ∧
      pathsAll [] cs = (expected head find accept 1 [] lines).map fun e =>
        (e.1.map headLabel, e.2) :=
  sections_of find accept h0 lines (fun l _ => by rw [reads_unique hh]) hr

/-- Lines of an outline with nested sections. -/
def exLines : List Str := ["http://a".toList, "* A".toList, "** B http://b".toList,
  "http://c".toList, "* C".toList, "http://d".toList]

/-- The words that begin with `http:` (a finder for examples only). -/
def exFind (line : Str) : List Link :=
  match line.reverse.takeWhile (· != ' ') with
  | r => if "http:".toList.isPrefixOf r.reverse then [⟨r.reverse, [], 0⟩] else []

theorem exLines_tidy : ∀ l ∈ exLines, Tidy l := by
  intro l hl
  simp only [exLines, List.mem_cons, List.not_mem_nil, or_false] at hl
  rcases hl with rfl | rfl | rfl | rfl | rfl | rfl <;>
    exact ⟨by intro c h; revert h; simp; rintro rfl; rfl,
      by intro c r h hb; revert hb; simp [List.dropWhile] at h; obtain ⟨rfl, _⟩ := h; decide,
      by decide⟩

theorem exLines_regular : Regular headline 0 exLines :=
  ⟨by decide, by decide, by decide, by decide, by decide, by decide, by decide, by decide,
    by decide, trivial⟩

/-- Hypotheses of C24 are met, with links in nested sections. -/
example : ∃ h' root cs, orgExtract exFind (fun _ => true) [] exLines = .ok (h', root) ∧
    RepT h' (.node .unset cs) root ∧
    (pathsAll [] cs).map (fun e => (e.1, e.2.url)) =
      [([], "http://a".toList),
       ([.heading 2 "A".toList, .heading 3 "B http://b".toList], "http://b".toList),
       ([.heading 2 "A".toList, .heading 3 "B http://b".toList], "http://c".toList),
       ([.heading 5 "C".toList], "http://d".toList)] := by
  obtain ⟨h', root, cs, h1, h2, h3⟩ := c24_sections_partial exFind (fun _ => true) [] exLines
    exLines_tidy exLines_regular
  refine ⟨h', root, cs, h1, h2, ?_⟩
  rw [h3]
  decide

/-- What the code gives on any lines: labels are the current contents of the slots. -/
theorem orgExtract_paths (find : Str → List Link) (accept : Link → Bool) (lines : List Str) :
    ∃ h' root cs, orgExtract find accept [] lines = .ok (h', root) ∧
      RepT h' (.node .unset cs) root ∧
      pathsAll [] cs = (trace find accept 1 (List.replicate 10 none) 0 lines).map fun e =>
        (e.1.map slotProps, e.2) := by
  obtain ⟨h', root, cs, e, b, hp⟩ := orgExtract_spec find accept [] lines
  obtain ⟨as, ha, hk⟩ := b.kids
  refine ⟨h', root, cs, e, ?_, hp⟩
  simp only [RepT]
  exact ⟨as, ha, RepFs.rep _ _ hk⟩

/-- C24 is violated when a level is skipped: the link of the last section appears under the
heading `B` of the previous one. -/
theorem c24_violation_stale :
    let lines := ["* A".toList, "** B".toList, "* C".toList, "*** D".toList, "http://d".toList]
    ∃ h' root cs, orgExtract exFind (fun _ => true) [] lines = .ok (h', root) ∧
      RepT h' (.node .unset cs) root ∧
      (pathsAll [] cs).map (·.1) =
        [[.heading 3 "C".toList, .heading 2 "B".toList, .heading 4 "D".toList]] ∧
      (expected headline exFind (fun _ => true) 1 [] lines).map (fun e => e.1.map headLabel) =
        [[.heading 3 "C".toList, .heading 4 "D".toList]] := by
  intro lines
  obtain ⟨h', root, cs, h1, h2, h3⟩ := orgExtract_paths exFind (fun _ => true) lines
  refine ⟨h', root, cs, h1, h2, ?_, by decide⟩
  rw [h3]
  decide

/-- C24 is violated by a blank after the title: the heading is not recognised. -/
theorem c24_violation_trailing_blank :
    let lines := ["* A".toList, "* B ".toList, "http://b".toList]
    ∃ h' root cs, orgExtract exFind (fun _ => true) [] lines = .ok (h', root) ∧
      RepT h' (.node .unset cs) root ∧
      (pathsAll [] cs).map (·.1) = [[.heading 1 "A".toList]] ∧
      (expected headline exFind (fun _ => true) 1 [] lines).map (fun e => e.1.map headLabel) =
        [[.heading 2 "B".toList]] := by
  intro lines
  obtain ⟨h', root, cs, h1, h2, h3⟩ := orgExtract_paths exFind (fun _ => true) lines
  refine ⟨h', root, cs, h1, h2, ?_, by decide⟩
  rw [h3]
  decide

def exStars (n : Nat) (title : String) : Str := List.replicate n '*' ++ ' ' :: title.toList

/-- C24 is violated by the eleventh level: it replaces the ninth instead of being below the
tenth. -/
theorem c24_violation_deep :
    let lines := (List.range 11).map (fun i => exStars (i + 1) "t") ++ ["http://a".toList]
    ∃ h' root cs, orgExtract exFind (fun _ => true) [] lines = .ok (h', root) ∧
      RepT h' (.node .unset cs) root ∧
      (pathsAll [] cs).map (·.1.length) = [9] ∧
      (expected headline exFind (fun _ => true) 1 [] lines).map (·.1.length) = [11] := by
  intro lines
  obtain ⟨h', root, cs, h1, h2, h3⟩ := orgExtract_paths exFind (fun _ => true) lines
  refine ⟨h', root, cs, h1, h2, ?_, by decide⟩
  rw [h3]
  decide

/-! ### C25 -/

/-- C25: for any lines extraction from Org does not panic and the links of the tree, in document
order, are exactly the accepted links of the lines with the numbers of their lines; there are no
empty bodies and no headings without links. -/
theorem c25_links (find : Str → List Link) (accept : Link → Bool) (h0 : Heap)
    (lines : List Str) :
    ∃ h' root cs, orgExtract find accept h0 lines = .ok (h', root) ∧
      RepT h' (.node .unset cs) root ∧ linksAll cs = found find accept 1 lines ∧ FullAll cs := by
  obtain ⟨h', root, cs, e, b, hp⟩ := orgExtract_spec find accept h0 lines
  obtain ⟨as, ha, hk⟩ := b.kids
  refine ⟨h', root, cs, e, ?_, ?_, b.full⟩
  · simp only [RepT]
    exact ⟨as, ha, RepFs.rep _ _ hk⟩
  · rw [← pathsAll_links [], hp, List.map_map]
    exact trace_links find accept lines 1 _ _

/-- C25: the line number of each link of `found` is the number of a line, counted from 1, that has
the link. -/
theorem c25_lineNo (find : Str → List Link) (accept : Link → Bool) (lines : List Str) (l : Link) :
    l ∈ found find accept 1 lines ↔ ∃ i : Nat, ∃ line k, lines[i]? = some line ∧
      k ∈ find line ∧ accept k = true ∧ l = { k with lineNo := (i : Int) + 1 } := by
  have key : ∀ (lines : List Str) (n : Int), l ∈ found find accept n lines ↔
      ∃ i : Nat, ∃ line k, lines[i]? = some line ∧
      k ∈ find line ∧ accept k = true ∧ l = { k with lineNo := (i : Int) + n } := by
    intro lines
    induction lines with
    | nil => intro n; simp [found]
    | cons x xs ih =>
      intro n
      rw [found, List.mem_append, ih]
      constructor
      · rintro (h | ⟨i, line, k, h1, h2, h3, h4⟩)
        · obtain ⟨k, hk, rfl⟩ := List.mem_map.1 h
          rw [List.mem_filter] at hk
          exact ⟨0, x, k, rfl, hk.1, hk.2, by simp⟩
        · refine ⟨i + 1, line, k, h1, h2, h3, ?_⟩
          rw [h4]; congr 1; omega
      · rintro ⟨i, line, k, h1, h2, h3, h4⟩
        cases i with
        | zero =>
          left
          simp only [List.getElem?_cons_zero, Option.some.injEq] at h1
          subst h1
          exact List.mem_map.2 ⟨k, List.mem_filter.2 ⟨h2, h3⟩, by rw [h4]; simp⟩
        | succ i =>
          right
          refine ⟨i, line, k, h1, h2, h3, ?_⟩
          rw [h4]; congr 1; omega
  exact key lines 1

/-- C25 on lines that skip a level: the two links are there. -/
example : ∃ h' root cs, orgExtract exFind (fun _ => true) []
      ["** A http://a".toList, "text".toList, "http://b".toList] = .ok (h', root) ∧
    RepT h' (.node .unset cs) root ∧
    linksAll cs = [⟨"http://a".toList, [], 1⟩, ⟨"http://b".toList, [], 3⟩] := by
  obtain ⟨h', root, cs, h1, h2, h3, _⟩ := c25_links exFind (fun _ => true) []
    ["** A http://a".toList, "text".toList, "http://b".toList]
  exact ⟨h', root, cs, h1, h2, h3.trans (by decide)⟩

/-! ### C27 -/

/-- The filter does not look at line numbers (there is no filter in the backend). -/
def IgnoresLineNo (accept : Link → Bool) : Prop := ∀ k n, accept { k with lineNo := n } = accept k

theorem All₂.imp {α β : Type} {R S : α → β → Prop} (h : ∀ a b, R a b → S a b) {as : List α}
    {bs : List β} (hr : All₂ R as bs) : All₂ S as bs := by
  induction hr with
  | nil => exact .nil
  | cons hab _ ih => exact .cons (h _ _ hab) ih

theorem group_trees (find : Finder) (accept : Link → Bool) (ha : IgnoresLineNo accept)
    (files : Files) (h : Heap) (list : List Source) :
    ∃ h' group trees, extractGroup find accept files h list =
        .ok (h', group, (untilFailure (fileErr files) list).2,
          (untilFailure (fileErr files) list).1) ∧
      All₂ (fun src t => IsFileTree find accept files src t ∧ ∃ cs, t = .node (.file src.name) cs ∧
          linksAll cs = found (find.of src.kind) accept 1 (fileLines files src))
        ((untilFailure (fileErr files) list).1.filter fun src =>
          decide (found (find.of src.kind) accept 1 (fileLines files src) ≠ [])) trees ∧
      ((trees = [] ∧ group = none) ∨
        (trees ≠ [] ∧ ∃ g, group = some g ∧ RepT h' (.node .fileGroup trees) g)) := by
  obtain ⟨h', group, us, e, ha2, hcase⟩ := extractGroup_spec find accept files h list
  refine ⟨h', group, us, e, ?_, hcase⟩
  have hw : withLinks find accept files (untilFailure (fileErr files) list).1 =
      (untilFailure (fileErr files) list).1.filter fun src =>
          decide (found (find.of src.kind) accept 1 (fileLines files src) ≠ []) := by
    unfold withLinks
    apply List.filter_congr
    intro src _
    rw [← fileTrace_links find accept src.kind _ ha]
    cases fileTrace find accept src.kind (fileLines files src) <;> simp
  rw [← hw]
  refine ha2.imp ?_
  rintro src t ⟨cs, h1, h2, h3, h4, h5⟩
  refine ⟨⟨cs, h1, h2, h3, h4, h5⟩, cs, h1, ?_⟩
  rw [← pathsAll_links [], h4, fileTrace_links find accept src.kind _ ha]

/-- C27: files are read in order up to the first failure, which is reported; the group has one
subtree for every file read that has links, in order, labelled by its name, with the links of its
lines; there is no group if there are no links. -/
theorem c27_group (find : Finder) (accept : Link → Bool) (ha : IgnoresLineNo accept)
    (files : Files) (h : Heap) (list : List Source) :
    ∃ h' group trees, extractGroup find accept files h list =
        .ok (h', group, (untilFailure (fileErr files) list).2,
          (untilFailure (fileErr files) list).1) ∧
      All₂ (fun src t => ∃ cs, t = .node (.file src.name) cs ∧
          linksAll cs = found (find.of src.kind) accept 1 (fileLines files src))
        ((untilFailure (fileErr files) list).1.filter fun src =>
          decide (found (find.of src.kind) accept 1 (fileLines files src) ≠ [])) trees ∧
      ((trees = [] ∧ group = none) ∨
        (trees ≠ [] ∧ ∃ g, group = some g ∧ RepT h' (.node .fileGroup trees) g)) := by
  obtain ⟨h', group, us, e, ha2, hcase⟩ := group_trees find accept ha files h list
  exact ⟨h', group, us, e, ha2.imp fun _ _ h => h.2, hcase⟩

/-- C27: `untilFailure` is a prefix of the list whose elements but the last one have not failed;
it is the whole list if there is no failure, and otherwise the failure is that of the last
element. -/
theorem c27_untilFailure {α ε : Type} (status : α → Option ε) (l : List α) :
    (untilFailure status l).1 <+: l ∧
    (∀ x ∈ (untilFailure status l).1.dropLast, status x = none) ∧
    ((untilFailure status l).2 = none → (untilFailure status l).1 = l ∧ ∀ x ∈ l, status x = none) ∧
    (∀ e, (untilFailure status l).2 = some e →
      ∃ x, (untilFailure status l).1.getLast? = some x ∧ status x = some e) := by
  induction l with
  | nil => simp [untilFailure]
  | cons x xs ih =>
    obtain ⟨i1, i2, i3, i4⟩ := ih
    rw [untilFailure]
    cases hx : status x with
    | some e =>
      refine ⟨by simp, by simp, by simp, ?_⟩
      intro e' he
      exact ⟨x, rfl, by rw [hx]; simpa using he⟩
    | none =>
      refine ⟨by simpa using i1, ?_, ?_, ?_⟩
      · intro y hy
        simp only at hy
        cases hu : (untilFailure status xs).1 with
        | nil => rw [hu] at hy; simp at hy
        | cons z zs =>
          rw [hu, List.dropLast_cons_cons] at hy
          rcases List.mem_cons.1 hy with rfl | hy
          · exact hx
          · exact i2 y (by rw [hu]; exact hy)
      · intro h
        obtain ⟨h1, h2⟩ := i3 h
        refine ⟨by simp [h1], ?_⟩
        intro y hy
        rcases List.mem_cons.1 hy with rfl | hy
        · exact hx
        · exact h2 y hy
      · intro e he
        obtain ⟨y, h1, h2⟩ := i4 e he
        refine ⟨y, ?_, h2⟩
        simp only
        cases hu : (untilFailure status xs).1 with
        | nil => rw [hu] at h1; simp at h1
        | cons z zs => rw [hu] at h1; simpa using h1

/-- C27: the backend answers queries from this index only if every file was read without failure
and there is some link; otherwise it has an error. -/
theorem c27_init (find : Finder) (files : Files) (list : List Source) :
    ∃ h group err, initBackend find files list = .ok (h, group, err) ∧
      (err = none ↔ list ≠ [] ∧ (∀ src ∈ list, fileErr files src = none) ∧
        ∃ src ∈ list, found (find.of src.kind) (fun _ => true) 1 (fileLines files src) ≠ []) ∧
      (err = none → ∃ g trees, group = some g ∧ RepT h (.node .fileGroup trees) g ∧
        All₂ (IsFileTree find (fun _ => true) files)
          (withLinks find (fun _ => true) files list) trees) := by
  unfold initBackend
  cases hl : list with
  | nil => exact ⟨_, _, _, rfl, by simp, by simp⟩
  | cons s0 rest =>
    rw [if_neg (by simp), ← hl]
    obtain ⟨h', group, us, e, ha2, hcase⟩ := extractGroup_spec find (fun _ => true) files [] list
    obtain ⟨_, _, u3, u4⟩ := c27_untilFailure (fileErr files) list
    have hmem : ∀ src, (fileTrace find (fun _ => true) src.kind (fileLines files src) ≠ []) ↔
        found (find.of src.kind) (fun _ => true) 1 (fileLines files src) ≠ [] := by
      intro src
      rw [← fileTrace_links find (fun _ => true) src.kind _ (fun _ _ => rfl)]
      simp
    simp only [e, Res.bind_ok]
    cases herr : (untilFailure (fileErr files) list).2 with
    | some e =>
      refine ⟨_, _, _, rfl, ?_, by simp⟩
      simp only [reduceCtorEq, false_iff, not_and]
      intro _ hall
      exfalso
      obtain ⟨x, hx, hs⟩ := u4 e herr
      have hpre := (c27_untilFailure (fileErr files) list).1
      have hm : x ∈ list := hpre.subset (List.mem_of_getLast? hx)
      rw [hall x hm] at hs
      cases hs
    | none =>
      obtain ⟨hfull, hall⟩ := u3 herr
      rw [hfull] at ha2
      rcases hcase with ⟨rfl, rfl⟩ | ⟨hne, g, rfl, hrep⟩
      · refine ⟨_, _, _, rfl, ?_, by simp⟩
        simp only [reduceCtorEq, false_iff, not_and]
        rintro _ _ ⟨src, hsrc, hf⟩
        have hw : src ∈ withLinks find (fun _ => true) files list := by
          unfold withLinks
          rw [List.mem_filter]
          refine ⟨hsrc, ?_⟩
          have := (hmem src).2 hf
          simpa using this
        generalize withLinks find (fun _ => true) files list = w at ha2 hw
        cases ha2
        simp at hw
      · refine ⟨_, _, _, rfl, ?_, fun _ => ⟨g, us, rfl, hrep, ha2⟩⟩
        simp only [true_iff]
        refine ⟨by rw [hl]; simp, hall, ?_⟩
        cases hw : withLinks find (fun _ => true) files list with
        | nil => rw [hw] at ha2; cases ha2; exact absurd rfl hne
        | cons src ws =>
          have hsm : src ∈ withLinks find (fun _ => true) files list := by rw [hw]; simp
          unfold withLinks at hsm
          rw [List.mem_filter] at hsm
          exact ⟨src, hsm.1, (hmem src).1 (by simpa using hsm.2)⟩

/-- C27: the error of the backend is the first failure of a file; without files or without links it
tells so. -/
theorem c27_init_error (find : Finder) (files : Files) (list : List Source) :
    ∃ h group err, initBackend find files list = .ok (h, group, err) ∧
      (err = some .noFiles ↔ list = []) ∧
      (∀ f, err = some (.file f) ↔ ∃ before src after, list = before ++ src :: after ∧
        (∀ x ∈ before, fileErr files x = none) ∧ fileErr files src = some f) ∧
      (err = some .noLinks ↔ list ≠ [] ∧ (∀ src ∈ list, fileErr files src = none) ∧
        ∀ src ∈ list, found (find.of src.kind) (fun _ => true) 1 (fileLines files src) = []) := by
  have first : ∀ (list : List Source) (f : FileErr), (untilFailure (fileErr files) list).2 = some f ↔
      ∃ before src after, list = before ++ src :: after ∧ (∀ x ∈ before, fileErr files x = none) ∧
        fileErr files src = some f := by
    intro list f
    induction list with
    | nil => simp [untilFailure]
    | cons x xs ih =>
      rw [untilFailure]
      cases hx : fileErr files x with
      | some e =>
        simp only [Option.some.injEq]
        constructor
        · rintro rfl; exact ⟨[], x, xs, rfl, by simp, hx⟩
        · rintro ⟨before, src, after, h1, h2, h3⟩
          cases before with
          | nil => cases h1; rw [hx] at h3; exact Option.some.inj h3
          | cons b bs => cases h1; rw [h2 x (by simp)] at hx; cases hx
      | none =>
        simp only [ih]
        constructor
        · rintro ⟨before, src, after, rfl, h2, h3⟩
          exact ⟨x :: before, src, after, rfl, by simpa [hx] using h2, h3⟩
        · rintro ⟨before, src, after, h1, h2, h3⟩
          cases before with
          | nil => cases h1; rw [hx] at h3; cases h3
          | cons b bs => cases h1; exact ⟨bs, src, after, rfl, fun y hy => h2 y (by simp [hy]), h3⟩
  obtain ⟨h, group, err, e, h1, -⟩ := c27_init find files list
  refine ⟨h, group, err, e, ?_⟩
  unfold initBackend at e
  by_cases hl : list = []
  · subst hl
    rw [if_pos (by simp)] at e
    cases e
    simp
  rw [if_neg (by simpa using hl)] at e
  obtain ⟨h', g', us, e', -, -⟩ := extractGroup_spec find (fun _ => true) files [] list
  simp only [e', Res.bind_ok] at e
  obtain ⟨-, -, u3, u4⟩ := c27_untilFailure (fileErr files) list
  cases hf : (untilFailure (fileErr files) list).2 with
  | some f =>
    rw [hf] at e
    cases e
    have hfirst := (first list f).1 hf
    refine ⟨by simp [hl], fun f' => ?_, ?_⟩
    · rw [← first, hf]; simp
    · simp only [Option.some.injEq, reduceCtorEq, false_iff, not_and]
      rintro - hall
      obtain ⟨_, src, _, rfl, _, h3⟩ := hfirst
      rw [hall src (by simp)] at h3
      cases h3
  | none =>
    obtain ⟨-, hall⟩ := u3 hf
    rw [hf] at e
    have hno : ∀ f, ¬∃ before src after, list = before ++ src :: after ∧
        (∀ x ∈ before, fileErr files x = none) ∧ fileErr files src = some f := by
      intro f hx
      rw [← first, hf] at hx
      cases hx
    cases g' with
    | none =>
      cases e
      refine ⟨by simp [hl], fun f => ⟨fun h => (by cases h), fun h => absurd h (hno f)⟩, ?_⟩
      simp only [true_iff]
      refine ⟨hl, hall, fun src hs => ?_⟩
      refine Classical.byContradiction fun hne => ?_
      have := h1.2 ⟨hl, hall, src, hs, hne⟩
      cases this
    | some g =>
      cases e
      refine ⟨by simp [hl], fun f => ⟨fun h => (by cases h), fun h => absurd h (hno f)⟩, ?_⟩
      simp only [reduceCtorEq, false_iff, not_and]
      rintro - - hx
      obtain ⟨-, -, src, hs, hne⟩ := h1.1 rfl
      exact hne (hx src hs)

/-- Files for examples: a good one, one without links and a missing one. -/
def exFiles : Files := fun name =>
  if name = "a.org".toList then some (exLines, none)
  else if name = "b.txt".toList then some (["nothing".toList], none)
  else if name = "c.txt".toList then some (["http://c".toList], some .scan)
  else none

def exFinder : Finder := ⟨exFind, exFind⟩

/-- C27 on concrete files: the third one fails after its first line, the last one is not read. -/
example : ∃ h' g t1 t2, extractGroup exFinder (fun _ => true) exFiles []
      [⟨.org, "a.org".toList⟩, ⟨.txt, "b.txt".toList⟩, ⟨.txt, "c.txt".toList⟩,
        ⟨.txt, "d.txt".toList⟩] = .ok (h', some g, some .scan,
          [⟨.org, "a.org".toList⟩, ⟨.txt, "b.txt".toList⟩, ⟨.txt, "c.txt".toList⟩]) ∧
    RepT h' (.node .fileGroup [.node (.file "a.org".toList) t1, .node (.file "c.txt".toList) t2]) g := by
  obtain ⟨h', group, trees, h1, h2, h3⟩ := c27_group exFinder (fun _ => true) (fun _ _ => rfl)
    exFiles [] [⟨.org, "a.org".toList⟩, ⟨.txt, "b.txt".toList⟩, ⟨.txt, "c.txt".toList⟩,
        ⟨.txt, "d.txt".toList⟩]
  rw [show (List.filter _ _) = [⟨.org, "a.org".toList⟩, ⟨.txt, "c.txt".toList⟩] from by
    decide] at h2
  cases h2 with | cons r1 h2 => cases h2 with | cons r2 h2 =>
  cases h2
  obtain ⟨c1, rfl, _⟩ := r1
  obtain ⟨c2, rfl, _⟩ := r2
  rcases h3 with ⟨h, _⟩ | ⟨_, g, rfl, hr⟩
  · cases h
  · exact ⟨h', g, c1, c2, h1, hr⟩

/-! ### C26 -/

/-- Files with outlines going deeper step by step (of any number of levels). -/
def StepwiseFiles (files : Files) (list : List Source) : Prop :=
  ∀ head, Reads head → ∀ src ∈ list, src.kind = .org → Stepwise head 0 (fileLines files src)

theorem stepwiseFiles_iff {files : Files} {list : List Source} : StepwiseFiles files list ↔
    ∀ src ∈ list, src.kind = .org → Stepwise orgHeading 0 (fileLines files src) :=
  ⟨fun h => h _ orgHeading_reads, fun h head hh => by rw [← reads_unique hh]; exact h⟩

theorem labelled_index {find : Finder} {files : Files} {list : List Source}
    (hs : StepwiseFiles files list) {trees : List Tree}
    (ha : All₂ (IsFileTree find (fun _ => true) files)
      (withLinks find (fun _ => true) files list) trees) :
    Labelled Named (.node .fileGroup trees) := by
  rw [stepwiseFiles_iff] at hs
  refine ⟨trivial, ?_⟩
  have hsub : ∀ src ∈ withLinks find (fun _ => true) files list, src ∈ list := fun src h =>
    (List.mem_filter.1 h).1
  generalize withLinks find (fun _ => true) files list = w at ha hsub
  induction ha with
  | nil => trivial
  | @cons src t ws ts hr _ ih =>
    refine ⟨?_, ih fun s h => hsub s (by simp [h])⟩
    obtain ⟨cs, rfl, _, hfull, hp, -⟩ := hr
    refine ⟨trivial, labelledAll_of_paths Named cs [] hfull ?_⟩
    rw [hp]
    intro e he p hpm
    cases hk : src.kind with
    | txt =>
      rw [hk] at he
      simp only [fileTrace, List.mem_map] at he
      obtain ⟨_, _, rfl⟩ := he
      simp at hpm
    | org =>
      rw [hk] at he
      simp only [fileTrace, List.mem_map] at he
      obtain ⟨x, hx, rfl⟩ := he
      obtain ⟨s, hsm, rfl⟩ := List.mem_map.1 hpm
      have := trace_stepwise find.org (fun _ => true) _ 1 _ 0 0
        (hs src (hsub src (by simp)) hk) (by simp) (by simp) (by simp) x hx s hsm
      cases s with
      | none => exact absurd rfl this
      | some v => trivial

/-- C26, for files with outlines that go deeper step by step: every successful reply is
serialised, and the result is `Json.Spec.render` of the reply.  Missing: outlines that skip a
level, see `c26_violation_skipped_level`. -/
theorem c26_serialised_partial (find : Finder) (files : Files) (list : List Source)
    (hs : StepwiseFiles files list) {h : Heap} {g : Addr}
    (hi : initBackend find files list = .ok (h, some g, none))
    {order : Str → List (Str × Str)} (ho : Orders order) (q : MentionsQuery)
    (hq : ∃ u ∈ q.variants, u ≠ []) {h' : Heap} {a : Addr}
    (hr : UrlMentions order h (some g) q (.ok (h', a))) :
    ∃ y, IsReply h' a y ∧ ∀ r, Json.Marshal h' a r ↔ r = .ok (Json.Spec.render y) := by
  obtain ⟨h1, group, err, e, _, htree⟩ := c27_init find files list
  rw [hi] at e
  have e := Res.ok.inj e
  simp only [Prod.mk.injEq] at e
  obtain ⟨rfl, rfl, rfl⟩ := e
  obtain ⟨g', trees, hg, hrep, ha⟩ := htree rfl
  have hg := Option.some.inj hg
  subst hg
  have hlab := labelled_index hs ha
  have hf : Decides q fun l => decide (l.url ∈ Tree.mentionVariants order q) := fun l => by
    rw [decide_eq_true_iff, Tree.mentionVariants_mem ho]
  obtain ⟨y, hy, hc⟩ := Tree.c18_counts ho hrep q hq hf hr
  obtain ⟨hpart, _⟩ := Tree.c18_counted_part _ _ _ hc
  have hly := labelled_part Named hpart hlab
  refine ⟨y, hy, ?_⟩
  obtain ⟨fp, hrp⟩ := hy
  intro r
  rw [Json.marshal_tree y a fp hrp r, Json.renderR_named y hly]

/-- C26: any reply found in memory is either serialised to one value or the backend crashes
serialising it, and it crashes just if a node has no label. -/
theorem c26_serialised_or_crash {h' : Heap} {a : Addr} {y : Tree.Spec.Annot}
    (hy : IsReply h' a y) : (∃ r, Json.Marshal h' a r) ∧
    (∀ r r', Json.Marshal h' a r → Json.Marshal h' a r' → r = r') ∧
    (Json.Marshal h' a .panic ↔ ¬ Labelled Named y.erase) ∧
    (Json.Marshal h' a (.ok (Json.Spec.render y)) ↔ Labelled Named y.erase) := by
  obtain ⟨fp, hr⟩ := hy
  have := Json.marshal_tree y a fp hr
  refine ⟨⟨_, (this _).2 rfl⟩, fun r r' h1 h2 => by rw [(this r).1 h1, (this r').1 h2], ?_⟩
  rw [this, this]
  by_cases hl : Labelled Named y.erase
  · simp [Json.renderR_named y hl, hl]
  · simp [Json.renderR_unnamed y hl, hl]

def exSkipFiles : Files := fun _ => some (["** A".toList, "http://a".toList], none)
def exSources : List Source := [⟨.org, "a.org".toList⟩]

def exSkipTree : Tree := .node .fileGroup [.node (.file "a.org".toList)
  [.node .missingHeading [.node (.heading 1 "A".toList) [.body [Tree.exLink "http://a" 2]]]]]

def exSkipHeap : Heap := [.node .fileGroup [1], .node (.file "a.org".toList) [2],
  .node .missingHeading [3], .node (.heading 1 "A".toList) [4], .leaf [Tree.exLink "http://a" 2]]

/-- C26 is violated by a file that begins with a heading of the second level: the query is
answered and serialisation of the answer crashes the backend. -/
theorem c26_violation_skipped_level :
    ∃ h g h' a, initBackend exFinder exSkipFiles exSources = .ok (h, some g, none) ∧
      UrlMentions (fun _ => Url.replacements) h (some g) (Tree.exQuery none) (.ok (h', a)) ∧
      ∀ r, Json.Marshal h' a r ↔ r = .panic := by
  have hi : initBackend exFinder exSkipFiles exSources = .ok (exSkipHeap, some 0, none) := by rfl
  have ht : RepT exSkipHeap exSkipTree 0 := by simp [exSkipTree, exSkipHeap, RepT, RepTs]
  obtain ⟨r, hr⟩ := (Tree.urlMentions_spec Tree.exOrders ht (Tree.exQuery none)
    (Tree.exNonempty _) (Tree.exDecides _)).1
  have hc : (match Tree.filterA 8 (.node (Tree.sumTotals (Tree.countAs Tree.exAccept
      [.node (.file "a.org".toList)
  [.node .missingHeading [.node (.heading 1 "A".toList) [.body [Tree.exLink "http://a" 2]]]]]))
      0 .fileGroup (Tree.countAs Tree.exAccept [.node (.file "a.org".toList)
  [.node .missingHeading [.node (.heading 1 "A".toList) [.body [Tree.exLink "http://a" 2]]]]])) with
      | .ok y => (match Json.renderR y with | .panic => true | _ => false)
      | _ => false) = true := by decide +kernel
  rcases (Tree.urlMentions_spec Tree.exOrders ht _ (Tree.exNonempty _) (Tree.exDecides _)).2 _ hr
    with ⟨e, _⟩ | ⟨y, h2, b, e1, e2, ⟨fp, e3⟩, _⟩
  · rw [show (Tree.exQuery none).limit = 8 from rfl] at e
    rw [e] at hc
    simp at hc
  · rw [show (Tree.exQuery none).limit = 8 from rfl] at e1
    rw [e1] at hc
    subst e2
    refine ⟨exSkipHeap, 0, h2, b, hi, hr, ?_⟩
    intro r
    rw [Json.marshal_tree y b fp e3 r]
    simp only at hc
    cases hy : Json.renderR y with
    | panic => rfl
    | ok _ => rw [hy] at hc; simp at hc
    | err e => exact e.elim

/-- Hypotheses of `c26_serialised_partial` are met: the example files without the failing ones. -/
example : ∃ h g, StepwiseFiles exFiles exSources ∧
    initBackend exFinder exFiles exSources = .ok (h, some g, none) := by
  refine ⟨_, _, stepwiseFiles_iff.2 ?_, rfl⟩
  intro src hsrc _
  simp only [exSources, List.mem_singleton] at hsrc
  subst hsrc
  exact ⟨by decide, by decide, by decide, trivial⟩

end Burl.Extract
