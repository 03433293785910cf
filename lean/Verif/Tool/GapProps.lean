import Verif.Tool.OutputProps
import Verif.Backend.CrashProps
/-! C71: files for which `burl_tool` crashes, said by their lines. -/
namespace Burl.Tool.Line
open Burl Burl.Extract Burl.Extract.Spec Burl.Tree.Spec Burl.Tool.Line.Spec
open Burl.Tree (Heap Addr IsReply)
open Burl.Backend.Spec (BelowGap)
open Burl.Rpc.Spec (Padded)
open Burl.JsonText.Spec

namespace Spec

/-- A link that is found in an Org file of the list is below a gap in levels of headlines. -/
def LinkBelowGap (head : Str → Option (Nat × Str)) (find : Finder) (files : Files) (list : List Source) : Prop :=
  ∃ src ∈ list, src.kind = .org ∧ ∃ (i : Nat) (line : Str) (k : Link),
    (fileLines files src)[i]? = some line ∧ k ∈ find.org line ∧
    BelowGap (((fileLines files src).take (i + 1)).filterMap head)

/-- Links of the files in the order they are read. -/
def linksOf (find : Finder) (files : Files) (list : List Source) : List Link :=
  list.flatMap fun src => found (find.of src.kind) (fun _ => true) 1 (fileLines files src)

end Spec

theorem trees_links {find : Finder} {files : Files} {list : List Source} {trees : List Tree}
    (ht : FileTrees find files list trees) :
    linksAll trees = linksOf find files (untilFailure (fileErr files) list).1 := by
  unfold FileTrees at ht
  unfold linksOf
  generalize (untilFailure (fileErr files) list).1 = l at ht
  induction l generalizing trees with
  | nil => cases ht; rfl
  | cons src l ih =>
    rw [List.flatMap_cons]
    by_cases h : found (find.of src.kind) (fun _ => true) 1 (fileLines files src) = []
    · rw [List.filter_cons_of_neg (by simp [h])] at ht
      rw [h, List.nil_append]
      exact ih ht
    · rw [List.filter_cons_of_pos (by simp [h])] at ht
      cases ht with
      | cons h1 h2 =>
        obtain ⟨-, cs, rfl, h3⟩ := h1
        rw [linksAll, links, h3, ih h2]

theorem trees_gap {head : Str → Option (Nat × Str)} (hh : Reads head) {find : Finder} {files : Files}
    {list : List Source} {trees : List Tree} (ht : FileTrees find files list trees) :
    (∃ x ∈ paths [] (.node .fileGroup trees), ∃ p ∈ x.1, ¬Named p) ↔
      LinkBelowGap head find files (untilFailure (fileErr files) list).1 := by
  have h := Backend.index_gap (e := { Backend.exTwo with find := find, files := files })
    (ht.imp fun _ _ h => h.1) (head := head) (fun _ _ _ l _ => by rw [← reads_unique hh])
    (fun _ => true) (fun _ _ => rfl) [.fileGroup] (by simp [Named])
  rw [paths, List.nil_append]
  constructor
  · rintro ⟨x, hx, p, hp, hn⟩
    obtain ⟨src, hs, hk, i, line, k, h1, h2, -, h3⟩ := h.1 ⟨x, hx, rfl, p, hp, hn⟩
    exact ⟨src, (List.mem_filter.1 hs).1, hk, i, line, k, h1, h2, h3⟩
  · rintro ⟨src, hs, hk, i, line, k, h1, h2, h3⟩
    obtain ⟨x, hx, -, h4⟩ := h.2 ⟨src, List.mem_filter.2 ⟨hs, by
      simp only [decide_eq_true_eq]
      intro hnil
      have hmem : k ∈ find.of src.kind line := by rw [hk]; exact h2
      have := (Extract.c25_lineNo _ (fun _ => true) _ _).mpr ⟨i, line, k, h1, hmem, rfl, rfl⟩
      rw [hnil] at this
      cases this⟩, hk, i, line, k, h1, h2, rfl, h3⟩
    exact ⟨x, hx, h4⟩

section
variable {order : Str → List (Str × Str)} {find : Finder} {letter : Char → Bool} {files : Files}
  {args : List Str} {out : Out} {os : List Opt} {rest : List Str}

/-- **C71.** The tool crashes only if a link in the files read is below a gap in the levels of headings.
It does crash in this case if there are at most eight links. -/
theorem c71_crash (short : Bool) {head : Str → Option (Nat × Str)} (hh : Reads head) {url : Str}
    {list : List Source} (hl : Written os (url :: rest) args) (hp : prefixes os = []) (hread : Read os rest list)
    (hlt : (linksOf find files (untilFailure (fileErr files) list).1).length < 2 ^ 59)
    (hm : Main order find letter files args out) {r : Res Empty Bytes} (ho : Output short out r) :
    (r = .panic → LinkBelowGap head find files (untilFailure (fileErr files) list).1) ∧
    ((linksOf find files (untilFailure (fileErr files) list).1).length ≤ 8 →
      LinkBelowGap head find files (untilFailure (fileErr files) list).1 → r = .panic) := by
  obtain ⟨trees, ht, hc⟩ := tree_limited hl hp hread (fun trees ht => by rw [trees_links ht]; exact hlt) hm
  rw [← trees_gap hh ht]
  rcases hc with ⟨rfl, rfl⟩ | ⟨h1, h, a, y, rfl, ⟨fp, hr⟩, k⟩
  · rw [show r = .ok [] from ho]
    refine ⟨fun h => (by cases h), ?_⟩
    rintro - ⟨x, hx, -⟩
    simp [paths, pathsAll] at hx
  · obtain ⟨j, hj, rfl⟩ := ho
    rw [Json.marshal_tree y a fp hr j] at hj
    subst hj
    by_cases hly : Labelled Named y.erase
    · rw [Json.renderR_named y hly]
      refine ⟨fun h => (by cases h), fun h8 ⟨x, hx, p, hpx, hn⟩ => absurd ?_ hn⟩
      obtain ⟨l, hl⟩ := Backend.shared_paths_full k.shared
        (by rw [(limited_part k).2.2 (by rw [trees_links ht]; exact h8)]) [] x hx rfl
      exact paths_of_labelled Named _ [] hly (by simp) _ hl p hpx
    · rw [Json.renderR_unnamed y hly]
      refine ⟨fun _ => Classical.byContradiction fun hn => hly ?_, fun _ _ => rfl⟩
      refine labelled_part Named (limited_part k).1 ⟨trivial, labelledAll_of_paths Named _ [.fileGroup] ?_ ?_⟩
      · clear hn k hly h1 hr
        unfold FileTrees at ht
        generalize List.filter _ _ = ws at ht
        induction ht with
        | nil => trivial
        | cons h1 _ ih =>
          obtain ⟨⟨cs, rfl, hne, hfull, -⟩, -⟩ := h1
          exact ⟨⟨hne, hfull⟩, ih⟩
      · intro x hx p hpx
        refine Classical.byContradiction fun hnn => hn ⟨x, ?_, p, hpx, hnn⟩
        rw [paths]
        exact hx

/-- **C71.** If no link in the files read is below a gap in the levels of headings, then the tool prints a text
that says what the tree of C64 is, with the same links; nothing if there are no links. -/
theorem c71_printed (short : Bool) {head : Str → Option (Nat × Str)} (hh : Reads head) {url : Str}
    {list : List Source} (hl : Written os (url :: rest) args) (hp : prefixes os = []) (hread : Read os rest list)
    (hlt : (linksOf find files (untilFailure (fileErr files) list).1).length < 2 ^ 59)
    (hn : ¬LinkBelowGap head find files (untilFailure (fileErr files) list).1)
    (hm : Main order find letter files args out) {r : Res Empty Bytes} (ho : Output short out r) :
    ∃ trees, FileTrees find files list trees ∧
      ((trees = [] ∧ r = .ok []) ∨
       (trees ≠ [] ∧ ∃ d y x, r = .ok x ∧ Padded (TextFor d (Json.Spec.render y)) x ∧
          Part y.erase (.node .fileGroup trees) ∧ (links y.erase).length ≤ 8 ∧
          ((linksAll trees).length ≤ 8 →
            links y.erase = matching (fun _ => true) (.node .fileGroup trees)))) := by
  obtain ⟨trees, ht, hc⟩ := c71_tool_exact short hl hp hread
    (fun trees ht => by rw [trees_links ht]; exact hlt) hm ho
  refine ⟨trees, ht, ?_⟩
  rcases hc with h1 | ⟨h1, y, h3, h4, h5, ⟨-, d, x, h6, h7⟩ | ⟨-, h6⟩⟩
  · exact .inl h1
  · exact .inr ⟨h1, d, y, x, h6, h7, h3, h4, h5⟩
  · exact absurd ((c71_crash short hh hl hp hread hlt hm ho).1 h6) hn

end

/-- A file with a link below a heading of the second level. -/
def exSkip : Files := fun name =>
  if name = "a.org".toList then some (["** A".toList, "http:b".toList], none) else none

/-- Hypotheses of `c71_crash` are met by the file with a link below a heading of the second level. -/
example (short : Bool) {order : Str → List (Str × Str)} {letter : Char → Bool} {out : Out}
    (hm : Main order exFinder letter exSkip ["http://a".toList, "a.org".toList] out)
    {r : Res Empty Bytes} (ho : Output short out r) : r = .panic := by
  have hl : Written [] ["http://a".toList, "a.org".toList] ["http://a".toList, "a.org".toList] :=
    .plain (ws := []) .nil (by
      intro a ha
      obtain rfl := Option.some.inj ha
      exact Burl.Tool.Client.classify_plain.mp rfl)
  have hread : Read [] ["a.org".toList] [⟨.org, "a.org".toList⟩] :=
    ⟨_, .cons ⟨rfl, by decide⟩ .nil, .inr ⟨by simp [typed], rfl⟩⟩
  refine (c71_crash short orgHeading_reads hl rfl hread (by decide) hm ho).2 (by decide) ?_
  exact ⟨⟨.org, "a.org".toList⟩, by decide, rfl, 1, "http:b".toList, ⟨"http:b".toList, [], 0⟩, by decide, by decide,
    (2, "A".toList), by decide, 1, by decide, by decide, by decide⟩

/-- The same link in a text file is not below a gap. -/
example : ¬LinkBelowGap orgHeading exFinder exFiles [⟨.txt, "c.txt".toList⟩] := by
  rintro ⟨src, hs, hk, -⟩
  rw [List.mem_singleton.1 hs] at hk
  cases hk

end Burl.Tool.Line
