import Verif.Extract.Props
/-! Property C24 for outlines of any shape: what is above each link. -/
namespace Burl.Extract
open Burl.Tree (Heap RepT)
open Burl.Tree.Spec (Link Props Tree)
open Spec

/-- Label of a place in the chain above a link. -/
def placeLabel : Option Headline → Props
  | some h => headLabel h
  | none => .missingHeading

def placeSlot (p : Option Headline) : Slot := p.map fun h => (h.lineNo, h.title)

theorem slotProps_place (p : Option Headline) : slotProps (placeSlot p) = placeLabel p := by
  cases p <;> rfl

/-- Contents of all the slots. -/
def allLatest (seen : List Headline) : List (Option Headline) :=
  (List.range 10).map fun i => seen.reverse.find? fun k => depth k.level == i + 1

theorem depth_le {n : Nat} (h : 1 ≤ n) : 1 ≤ depth n ∧ depth n ≤ 10 := by
  unfold depth; split <;> omega

theorem latest_eq {seen : List Headline} {h : Headline} (hl : seen.getLast? = some h)
    (h1 : 1 ≤ h.level) : latest seen = (allLatest seen).take (depth h.level) := by
  unfold latest allLatest
  rw [hl]
  simp only
  rw [← List.map_take, List.take_range, Nat.min_eq_left (depth_le h1).2]

theorem allLatest_snoc (seen : List Headline) (h : Headline) (h1 : 1 ≤ h.level) :
    allLatest (seen ++ [h]) = (allLatest seen).set (depth h.level - 1) (some h) := by
  have hd := depth_le h1
  unfold allLatest
  apply List.ext_getElem?
  intro i
  rw [List.getElem?_set]
  simp only [List.getElem?_map, List.reverse_append, List.reverse_cons, List.reverse_nil,
    List.nil_append, List.singleton_append, List.find?_cons, List.length_map, List.length_range]
  by_cases hi : i < 10
  · rw [List.getElem?_range hi]
    simp only [Option.map_some]
    by_cases he : depth h.level - 1 = i
    · rw [if_pos he, if_pos (by omega)]
      have : (depth h.level == i + 1) = true := by simp; omega
      rw [this]
    · rw [if_neg he]
      have : (depth h.level == i + 1) = false := by simp; omega
      rw [this]
  · rw [List.getElem?_eq_none (by simp; omega)]
    rw [if_neg (by omega)]
    rfl

theorem trace_latest (find : Str → List Link) (accept : Link → Bool) : ∀ (lines : List Str)
    (n : Int) (seen : List Headline) (len : Nat), (∀ h ∈ seen, 1 ≤ h.level) →
    (∀ h, seen.getLast? = some h → len = depth h.level) → (seen = [] → len = 0) →
    trace find accept n ((allLatest seen).map placeSlot) len lines =
      (expectedBy latest orgHeading find accept n seen lines).map fun e =>
        (e.1.map placeSlot, e.2)
  | [], _, _, _, _, _, _ => rfl
  | l :: ls, n, seen, len, hp, hl, hn => by
    have now : ∀ (seen : List Headline) (len : Nat), (∀ h ∈ seen, 1 ≤ h.level) →
        (∀ h, seen.getLast? = some h → len = depth h.level) → (seen = [] → len = 0) →
        ((allLatest seen).map placeSlot).take len = (latest seen).map placeSlot := by
      intro seen len hp hl hn
      cases hs : seen.getLast? with
      | none =>
        rw [hn (List.getLast?_eq_none_iff.1 hs)]
        simp [latest, hs]
      | some h =>
        rw [latest_eq hs (hp h (List.mem_of_getLast? hs)), hl h hs, List.map_take]
    rw [trace, expectedBy]
    unfold slotStep
    cases hh : orgHeading l with
    | none =>
      simp only [List.map_append, List.map_map]
      rw [trace_latest find accept ls (n + 1) seen len hp hl hn, now seen len hp hl hn]
      simp [Function.comp_def]
    | some st =>
      obtain ⟨level, title⟩ := st
      have hpos := orgHeading_pos hh
      have e : ((allLatest seen).map placeSlot).set (levelOf level - 1) (some (n, title)) =
          (allLatest (seen ++ [⟨level, n, title⟩])).map placeSlot := by
        rw [allLatest_snoc seen _ hpos, List.map_set]
        rfl
      have hp' : ∀ h ∈ seen ++ [⟨level, n, title⟩], 1 ≤ h.level := by
        intro h hm
        rcases List.mem_append.1 hm with h1 | h1
        · exact hp h h1
        · have := List.mem_singleton.1 h1
          subst this
          exact hpos
      have hl' : ∀ h, (seen ++ [(⟨level, n, title⟩ : Headline)]).getLast? = some h →
          levelOf level = depth h.level := by
        intro h hm
        simp at hm
        subst hm
        rfl
      have hn' : seen ++ [(⟨level, n, title⟩ : Headline)] = [] → levelOf level = 0 := by simp
      simp only [List.map_append, List.map_map]
      rw [e, trace_latest find accept ls (n + 1) _ _ hp' hl' hn', now _ _ hp' hl' hn']
      simp [Function.comp_def]

theorem expectedBy_congr {α : Type} (above : List Headline → α) {head head' : Str → Option (Nat × Str)}
    (find : Str → List Link) (accept : Link → Bool) : ∀ (lines : List Str) (n : Int)
    (seen : List Headline), (∀ l ∈ lines, head l = head' l) →
    expectedBy above head find accept n seen lines = expectedBy above head' find accept n seen lines
  | [], _, _, _ => rfl
  | l :: ls, n, seen, h => by
    rw [expectedBy, expectedBy, h l (by simp),
      expectedBy_congr above find accept ls (n + 1) _ fun k hk => h k (by simp [hk])]

theorem above_of {head : Str → Option (Nat × Str)} (find : Str → List Link) (accept : Link → Bool)
    (h0 : Heap) (lines : List Str) (hh : ∀ l ∈ lines, orgHeading l = head l) :
    ∃ h' root cs, orgExtract find accept h0 lines = .ok (h', root) ∧
      RepT h' (.node .unset cs) root ∧
      pathsAll [] cs = (expectedBy latest head find accept 1 [] lines).map fun e =>
        (e.1.map placeLabel, e.2) := by
  obtain ⟨h', root, cs, e, b, hp⟩ := orgExtract_spec find accept h0 lines
  obtain ⟨as, ha, hk⟩ := b.kids
  refine ⟨h', root, cs, e, ?_, ?_⟩
  · simp only [RepT]
    exact ⟨as, ha, RepFs.rep _ _ hk⟩
  · have e0 : List.replicate 10 (none : Slot) = (allLatest []).map placeSlot := by decide
    rw [hp, e0, trace_latest find accept lines 1 [] 0 (by simp) (by simp) (by simp),
      expectedBy_congr latest find accept lines 1 [] hh]
    simp only [List.map_map, Function.comp_def]
    apply List.map_congr_left
    intro x _
    congr 1
    apply List.map_congr_left
    intro y _
    exact slotProps_place y

/-- C24 for outlines of any shape, with tidy lines: above each link there is, for every depth down
to that of the last headline, the latest headline of that depth or a placeholder. -/
theorem c24_above_partial (find : Str → List Link) (accept : Link → Bool) (h0 : Heap)
    (lines : List Str) (ht : ∀ l ∈ lines, Tidy l) :
    ∃ h' root cs, orgExtract find accept h0 lines = .ok (h', root) ∧
      RepT h' (.node .unset cs) root ∧
      pathsAll [] cs = (expectedBy latest headline find accept 1 [] lines).map fun e =>
        (e.1.map placeLabel, e.2) :=
  above_of find accept h0 lines fun l hl => orgHeading_tidy (ht l hl)

/-- C24 for all lines, with headings as the code reads them, and outlines of any shape: above each link
there is, for every depth down to that of the last heading, the latest heading of that depth or a
placeholder. -/
theorem c24_above {head : Str → Option (Nat × Str)} (hh : Reads head) (find : Str → List Link)
    (accept : Link → Bool) (h0 : Heap) (lines : List Str) :
    ∃ h' root cs, orgExtract find accept h0 lines = .ok (h', root) ∧
      RepT h' (.node .unset cs) root ∧
      pathsAll [] cs = (expectedBy latest head find accept 1 [] lines).map fun e =>
        (e.1.map placeLabel, e.2) :=
  above_of find accept h0 lines fun l _ => by rw [reads_unique hh]

/-- For the code a heading may have a tab after the stars, or no title, but no blanks after the title. -/
example {head : Str → Option (Nat × Str)} (hh : Reads head) :
    head "*\tA".toList = some (1, "A".toList) ∧ head "**  ".toList = some (2, []) ∧
    head "* A ".toList = none := by
  rw [← reads_unique hh]
  decide

theorem enclosing_split : ∀ {seen : List Headline} {h : Headline}, h ∈ enclosing seen →
    ∃ before after, seen = before ++ h :: after ∧ ∀ k ∈ after, h.level < k.level
  | [], _, hm => by simp [enclosing] at hm
  | x :: seen, h, hm => by
    rw [enclosing] at hm
    split at hm
    · rename_i hx
      rcases List.mem_cons.1 hm with rfl | hm
      · refine ⟨[], seen, rfl, fun k hk => ?_⟩
        have := List.all_eq_true.1 hx k hk
        simpa using this
      · obtain ⟨b, a, rfl, h2⟩ := enclosing_split hm
        exact ⟨x :: b, a, rfl, h2⟩
    · obtain ⟨b, a, rfl, h2⟩ := enclosing_split hm
      exact ⟨x :: b, a, rfl, h2⟩

/-- C24, outlines with at most ten levels: the headline of every section a link belongs to is above
it, at the depth given by the number of its stars. -/
theorem c24_enclosing (seen : List Headline) (hs : ∀ k ∈ seen, 1 ≤ k.level ∧ k.level ≤ 10)
    (h : Headline) (hm : h ∈ enclosing seen) : (latest seen)[h.level - 1]? = some (some h) := by
  have hd : ∀ k ∈ seen, depth k.level = k.level := by
    intro k hk
    unfold depth
    rw [if_neg (by have := hs k hk; omega)]
  obtain ⟨b, a, rfl, ha⟩ := enclosing_split hm
  have hh := hs h (by simp)
  obtain ⟨z, hz⟩ : ∃ z, (b ++ h :: a).getLast? = some z :=
    ⟨_, List.getLast?_eq_some_getLast (by simp)⟩
  have hzm := List.mem_of_getLast? hz
  have hle : h.level ≤ z.level := by
    rcases List.eq_nil_or_concat a with rfl | ⟨a', y, rfl⟩
    · simp at hz
      rw [hz]
    · have : y = z := by
        rw [List.concat_eq_append, ← List.cons_append, ← List.append_assoc] at hz
        rw [List.getLast?_append] at hz
        exact Option.some.inj hz
      subst this
      exact Nat.le_of_lt (ha y (by simp))
  rw [latest_eq hz (hs z hzm).1, hd z hzm, List.getElem?_take_of_lt (by omega)]
  unfold allLatest
  rw [List.getElem?_map, List.getElem?_range (by omega)]
  simp only [Option.map_some, Option.some.injEq, List.reverse_append, List.reverse_cons,
    List.append_assoc, List.find?_append]
  have h1 : a.reverse.find? (fun k => depth k.level == h.level - 1 + 1) = none := by
    rw [List.find?_eq_none]
    intro k hk hc
    have hk' := List.mem_reverse.1 hk
    rw [hd k (by simp [hk'])] at hc
    have := ha k hk'
    simp at hc
    omega
  rw [h1]
  have h2 : (depth h.level == h.level - 1 + 1) = true := by
    rw [hd h (by simp)]
    simp; omega
  simp [h2]

/-- C24: the innermost label above a link is that of the last headline, and there are as many labels
as it has stars. -/
theorem c24_innermost (seen : List Headline) (hs : ∀ k ∈ seen, 1 ≤ k.level ∧ k.level ≤ 10)
    (h : Headline) (hl : seen.getLast? = some h) :
    (latest seen).length = h.level ∧ (latest seen).getLast? = some (some h) := by
  have hm := List.mem_of_getLast? hl
  have hh := hs h hm
  have hlen : (latest seen).length = h.level := by
    unfold latest
    rw [hl]
    simp only [List.length_map, List.length_range]
    unfold depth
    rw [if_neg (by omega)]
  refine ⟨hlen, ?_⟩
  rw [List.getLast?_eq_getElem?, hlen]
  apply c24_enclosing seen hs
  rcases List.eq_nil_or_concat seen with rfl | ⟨s', x, rfl⟩
  · cases hl
  · have : x = h := by simpa using hl
    subst this
    rw [List.concat_eq_append, enclosing_snoc]
    simp

/-- C24: where the sections a link belongs to skip no level, the labels above it are exactly their
headlines. -/
theorem c24_no_gap (seen : List Headline) (hs : ∀ k ∈ seen, 1 ≤ k.level ∧ k.level ≤ 10)
    (hg : (enclosing seen).map Headline.level = List.range' 1 (enclosing seen).length) :
    latest seen = (enclosing seen).map some := by
  have hlen : (latest seen).length = (enclosing seen).length := by
    rcases List.eq_nil_or_concat seen with rfl | ⟨s', x, rfl⟩
    · rfl
    · rw [(c24_innermost _ hs x (by simp)).1]
      rw [List.concat_eq_append, enclosing_snoc] at hg ⊢
      have := congrArg List.getLast? hg
      simp only [List.map_append, List.length_append, List.length_singleton, List.range'_concat] at this
      simp at this
      simp
      omega
  apply List.ext_getElem?
  intro i
  by_cases hi : i < (enclosing seen).length
  · rw [List.getElem?_map, List.getElem?_eq_getElem hi]
    have hlev : ((enclosing seen)[i]).level = i + 1 := by
      have := congrArg (·[i]?) hg
      simp only [List.getElem?_map, List.getElem?_eq_getElem hi, Option.map_some] at this
      rw [List.getElem?_range' hi] at this
      have := Option.some.inj this
      omega
    have := c24_enclosing seen hs _ (List.getElem_mem hi)
    rw [hlev] at this
    simpa using this
  · rw [List.getElem?_eq_none (by omega), List.getElem?_eq_none (by simp; omega)]

/-- C24: any label above a link that is not a placeholder is that of an earlier headline with as many
stars as its depth, with no later headline of that many stars. -/
theorem c24_labels (seen : List Headline) (hs : ∀ k ∈ seen, 1 ≤ k.level ∧ k.level ≤ 10)
    (i : Nat) (h : Headline) (he : (latest seen)[i]? = some (some h)) :
    h.level = i + 1 ∧ ∃ before after, seen = before ++ h :: after ∧ ∀ k ∈ after, k.level ≠ h.level := by
  unfold latest at he
  cases hl : seen.getLast? with
  | none => rw [hl] at he; simp at he
  | some z =>
    rw [hl] at he
    simp only [List.getElem?_map] at he
    have hd : ∀ k ∈ seen, depth k.level = k.level := by
      intro k hk
      unfold depth
      rw [if_neg (by have := hs k hk; omega)]
    cases hr : (List.range (depth z.level))[i]? with
    | none => rw [hr] at he; simp at he
    | some j =>
      have hj : j = i := by
        have h1 := (List.getElem?_eq_some_iff.1 hr)
        obtain ⟨h1, h2⟩ := h1
        rw [List.getElem_range] at h2
        exact h2.symm
      subst hj
      rw [hr] at he
      simp only [Option.map_some, Option.some.injEq] at he
      obtain ⟨h1, as, bs, h2, h3⟩ := List.find?_eq_some_iff_append.1 he
      have hseen : seen = bs.reverse ++ h :: as.reverse := by
        have := congrArg List.reverse h2
        simpa using this
      have hmem : h ∈ seen := by rw [hseen]; simp
      rw [hd h hmem] at h1
      have h1 : h.level = j + 1 := by simpa using h1
      refine ⟨h1, bs.reverse, as.reverse, hseen, fun k hk hc => ?_⟩
      have hk' := List.mem_reverse.1 hk
      have := h3 k hk'
      rw [hd k (by rw [hseen]; simp [hk'])] at this
      simp at this
      omega

/-- What is expected in the subtree of a file: links with the labels above them. -/
def inFile (head : Str → Option (Nat × Str)) (find : Finder) (kind : Kind) (lines : List Str) :
    List (List Props × Link) :=
  match kind with
  | .org => (expectedBy latest head find.org (fun _ => true) 1 [] lines).map fun e =>
      (e.1.map placeLabel, e.2)
  | .txt => (found find.txt (fun _ => true) 1 lines).map ([], ·)

theorem index_of {head : Str → Option (Nat × Str)} (find : Finder) (files : Files) (list : List Source)
    (hh : ∀ src ∈ list, src.kind = .org → ∀ l ∈ fileLines files src, orgHeading l = head l) {h : Heap}
    {g : Burl.Tree.Addr} (hi : initBackend find files list = .ok (h, some g, none)) :
    ∃ trees, RepT h (.node .fileGroup trees) g ∧
      All₂ (fun src t => ∃ cs, t = .node (.file src.name) cs ∧ FullAll cs ∧
        pathsAll [] cs = inFile head find src.kind (fileLines files src))
      (list.filter fun src =>
        decide (found (find.of src.kind) (fun _ => true) 1 (fileLines files src) ≠ [])) trees := by
  obtain ⟨h1, group, err, e, _, htree⟩ := c27_init find files list
  rw [hi] at e
  have e := Res.ok.inj e
  simp only [Prod.mk.injEq] at e
  obtain ⟨rfl, rfl, rfl⟩ := e
  obtain ⟨g', trees, hg, hrep, ha⟩ := htree rfl
  have := Option.some.inj hg
  subst this
  refine ⟨trees, hrep, ?_⟩
  have hw : withLinks find (fun _ => true) files list = list.filter fun src =>
      decide (found (find.of src.kind) (fun _ => true) 1 (fileLines files src) ≠ []) := by
    unfold withLinks
    apply List.filter_congr
    intro src _
    rw [← fileTrace_links find (fun _ => true) src.kind _ (fun _ _ => rfl)]
    cases fileTrace find (fun _ => true) src.kind (fileLines files src) <;> simp
  rw [hw] at ha
  have hsub : ∀ src ∈ list.filter (fun src =>
      decide (found (find.of src.kind) (fun _ => true) 1 (fileLines files src) ≠ [])), src ∈ list :=
    fun src h => (List.mem_filter.1 h).1
  generalize (list.filter fun src =>
      decide (found (find.of src.kind) (fun _ => true) 1 (fileLines files src) ≠ [])) = w at ha hsub
  clear hw hrep htree hi hg
  induction ha with
  | nil => exact .nil
  | @cons src t ws ts hr _ ih =>
    refine .cons ?_ (ih fun s h => hsub s (by simp [h]))
    obtain ⟨cs, rfl, _, hfull, hp, -⟩ := hr
    refine ⟨cs, rfl, hfull, ?_⟩
    rw [hp]
    cases hk : src.kind with
    | txt =>
      simp only [fileTrace, inFile]
      rw [txtTrace_links find.txt (fun _ => true) (fun _ _ => rfl)]
    | org =>
      simp only [fileTrace, inFile]
      have e0 : List.replicate 10 (none : Slot) = (allLatest []).map placeSlot := by decide
      rw [e0, trace_latest find.org (fun _ => true) _ 1 [] 0 (by simp) (by simp) (by simp),
        expectedBy_congr latest find.org (fun _ => true) _ 1 []
          (hh src (hsub src (by simp)) hk)]
      simp only [List.map_map, Function.comp_def]
      apply List.map_congr_left
      intro x _
      congr 1
      apply List.map_congr_left
      intro y _
      exact slotProps_place y

/-- C24 for the index of the backend, files with tidy lines: there is one subtree for every file with
links, and in it above each link there are the headlines of an Org file as in `c24_above_partial`, and
nothing in a text file. -/
theorem c24_index_partial (find : Finder) (files : Files) (list : List Source)
    (ht : ∀ src ∈ list, src.kind = .org → ∀ l ∈ fileLines files src, Tidy l) {h : Heap}
    {g : Burl.Tree.Addr} (hi : initBackend find files list = .ok (h, some g, none)) :
    ∃ trees, RepT h (.node .fileGroup trees) g ∧
      All₂ (fun src t => ∃ cs, t = .node (.file src.name) cs ∧ FullAll cs ∧
        pathsAll [] cs = inFile headline find src.kind (fileLines files src))
      (list.filter fun src =>
        decide (found (find.of src.kind) (fun _ => true) 1 (fileLines files src) ≠ [])) trees :=
  index_of find files list (fun src h hk l hl => orgHeading_tidy (ht src h hk l hl)) hi

/-- C24 for the index of the backend, with headings as the code reads them: there is one subtree for every
file with links, and in it above each link there are the headings of an Org file as in `c24_above`, and
nothing in a text file. -/
theorem c24_index {head : Str → Option (Nat × Str)} (hh : Reads head) (find : Finder) (files : Files) (list : List Source)
    {h : Heap} {g : Burl.Tree.Addr} (hi : initBackend find files list = .ok (h, some g, none)) :
    ∃ trees, RepT h (.node .fileGroup trees) g ∧
      All₂ (fun src t => ∃ cs, t = .node (.file src.name) cs ∧ FullAll cs ∧
        pathsAll [] cs = inFile head find src.kind (fileLines files src))
      (list.filter fun src =>
        decide (found (find.of src.kind) (fun _ => true) 1 (fileLines files src) ≠ [])) trees :=
  index_of find files list (fun _ _ _ _ _ => by rw [reads_unique hh]) hi

/-- A link below a headline that skips a level, in an outline with another headline of that level. -/
example : ∃ h' root cs, orgExtract exFind (fun _ => true) [] ["* A".toList, "*** B".toList,
      "http://b".toList, "** C".toList, "http://c".toList] = .ok (h', root) ∧
    RepT h' (.node .unset cs) root ∧
    (pathsAll [] cs).map (·.1) = [[.heading 1 "A".toList, .missingHeading, .heading 2 "B".toList],
      [.heading 1 "A".toList, .heading 4 "C".toList]] := by
  obtain ⟨h', root, cs, h1, h2, h3⟩ := c24_above_partial exFind (fun _ => true) [] ["* A".toList,
    "*** B".toList, "http://b".toList, "** C".toList, "http://c".toList] (by
      intro l hl
      simp only [List.mem_cons, List.not_mem_nil, or_false] at hl
      rcases hl with rfl | rfl | rfl | rfl | rfl <;>
        exact ⟨by intro c h; revert h; simp; rintro rfl; rfl,
          by intro c r h hb; revert hb; simp [List.dropWhile] at h; obtain ⟨rfl, _⟩ := h; decide,
          by decide⟩)
  refine ⟨h', root, cs, h1, h2, ?_⟩
  rw [h3]
  decide

end Burl.Extract
