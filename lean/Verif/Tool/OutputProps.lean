import Verif.Tool.Output
import Verif.Tool.LineProps
import Verif.JsonText.IndentProps
import Verif.JsonText.SessionProps
import Verif.Scan.Spec
/-! C71: what `burl_tool` prints. -/
namespace Burl.Tool.Line
open Burl Burl.Extract Burl.Extract.Spec Burl.Tree.Spec Burl.Tool.Line.Spec
open Burl.Tree (Heap Addr IsReply)
open Burl.Json (Json)
open Burl.Rpc.Spec (Padded)
open Burl.JsonText.Spec

theorem labelled_trees {find : Finder} {files : Files} {list : List Source}
    (hs : StepwiseFiles files list) {trees : List Tree} (ht : FileTrees find files list trees) :
    Labelled Named (.node .fileGroup trees) := by
  have hw : withLinks find (fun _ => true) files (untilFailure (fileErr files) list).1 =
      (untilFailure (fileErr files) list).1.filter fun src =>
          decide (found (find.of src.kind) (fun _ => true) 1 (fileLines files src) ≠ []) := by
    unfold withLinks
    apply List.filter_congr
    intro src _
    rw [← fileTrace_links find (fun _ => true) src.kind _ (fun _ _ => rfl)]
    cases fileTrace find (fun _ => true) src.kind (fileLines files src) <;> simp
  unfold FileTrees at ht
  rw [← hw] at ht
  refine labelled_index (files := files) (find := find)
    (list := (untilFailure (fileErr files) list).1) ?_ (ht.imp fun _ _ h => h.1)
  intro head hh src h
  exact hs head hh src ((c27_untilFailure (fileErr files) list).1.subset h)

theorem newline_utf8 {u : Str} (h : '\n' ∉ u) : (10 : UInt8) ∉ JsonText.utf8 u := by
  intro hm
  obtain ⟨c, hc, hb⟩ := List.mem_flatMap.1 hm
  by_cases hlo : c.toNat < 128
  · rw [JsonText.putRune_ascii hlo, List.mem_singleton] at hb
    have := congrArg UInt8.toNat hb
    rw [JsonText.toNat_ofNat_lt (by omega)] at this
    have e : c = '\n' := by
      apply Char.ext
      apply UInt32.toNat_inj.1
      exact this.symm
    exact h (e ▸ hc)
  · have := JsonText.putRune_high (by omega) 10 hb
    simp at this

section
variable {order : Str → List (Str × Str)} {find : Finder} {letter : Char → Bool} {files : Files}
  {args : List Str} {out : Out} {os : List Opt} {rest : List Str}

/-- **C71.** For a URL either nothing is printed, if there are no links, or a text that says what the
tree of C64 is.  The tool crashes instead just if a link in this tree is below a gap in the levels of
headings. -/
theorem c71_tool_exact (short : Bool) {url : Str} {list : List Source}
    (hl : Written os (url :: rest) args) (hp : prefixes os = []) (hread : Read os rest list)
    (hlt : ∀ trees, FileTrees find files list trees → (linksAll trees).length < 2 ^ 59)
    (hm : Main order find letter files args out) {r : Res Empty Bytes} (ho : Output short out r) :
    ∃ trees, FileTrees find files list trees ∧
      ((trees = [] ∧ r = .ok []) ∨
       (trees ≠ [] ∧ ∃ y, Part y.erase (.node .fileGroup trees) ∧ (links y.erase).length ≤ 8 ∧
          ((linksAll trees).length ≤ 8 →
            links y.erase = matching (fun _ => true) (.node .fileGroup trees)) ∧
          ((Labelled Named y.erase ∧
              ∃ d x, r = .ok x ∧ Padded (TextFor d (Json.Spec.render y)) x) ∨
            (¬Labelled Named y.erase ∧ r = .panic)))) := by
  obtain ⟨trees, ht, hc⟩ := c64_tree_partial hl hp hread hlt hm
  refine ⟨trees, ht, ?_⟩
  rcases hc with ⟨h1, rfl⟩ | ⟨h1, h, a, y, rfl, ⟨fp, hr⟩, h3, h4, h5⟩
  · exact .inl ⟨h1, ho⟩
  · right
    refine ⟨h1, y, h3, h4, h5, ?_⟩
    obtain ⟨j, hj, rfl⟩ := ho
    rw [Json.marshal_tree y a fp hr j] at hj
    subst hj
    by_cases hly : Labelled Named y.erase
    · rw [Json.renderR_named y hly]
      obtain ⟨d, hd⟩ := JsonText.whole_render y
      exact .inl ⟨hly, d, _, rfl, JsonText.c71_text short hd⟩
    · rw [Json.renderR_unnamed y hly]
      exact .inr ⟨hly, rfl⟩

/-- **C71 (part).** For a URL the tool prints a text that says what the tree of C64 is, with the same
links; nothing if there are no links.  Missing: outlines that skip a level, see
`c71_violation_skipped_level`. -/
theorem c71_tool_partial (short : Bool) {url : Str} {list : List Source}
    (hl : Written os (url :: rest) args) (hp : prefixes os = []) (hread : Read os rest list)
    (hlt : ∀ trees, FileTrees find files list trees → (linksAll trees).length < 2 ^ 59)
    (hs : StepwiseFiles files list)
    (hm : Main order find letter files args out) {r : Res Empty Bytes} (ho : Output short out r) :
    ∃ trees, FileTrees find files list trees ∧
      ((trees = [] ∧ r = .ok []) ∨
       (trees ≠ [] ∧ ∃ d y x, r = .ok x ∧ Padded (TextFor d (Json.Spec.render y)) x ∧
          Part y.erase (.node .fileGroup trees) ∧ (links y.erase).length ≤ 8 ∧
          ((linksAll trees).length ≤ 8 →
            links y.erase = matching (fun _ => true) (.node .fileGroup trees)))) := by
  obtain ⟨trees, ht, hc⟩ := c71_tool_exact short hl hp hread hlt hm ho
  refine ⟨trees, ht, ?_⟩
  rcases hc with h1 | ⟨h1, y, h3, h4, h5, ⟨-, d, x, h6, h7⟩ | ⟨h6, -⟩⟩
  · exact .inl h1
  · exact .inr ⟨h1, d, y, x, h6, h7, h3, h4, h5⟩
  · exact absurd (labelled_part Named h3 (labelled_trees hs ht)) h6

/-- **C71.** With valid prefixes and readable files links are printed, each one on a line of its own:
the lines of the output are the links of C64. -/
theorem c71_set (short : Bool) (hl : Written os rest args) (hr : rest ≠ []) (hp : prefixes os ≠ [])
    {ss : List Source} (hs : Args rest ss) (hv : ∀ p ∈ prefixes os, Links.Spec.ValidPrefix p)
    (hf : ∀ src ∈ typed os ++ ss, fileErr files src = none)
    (hn : ∀ src ∈ typed os ++ ss, ∀ line ∈ fileLines files src, '\n' ∉ line)
    (hm : Main order find letter files args out) {r : Res Empty Bytes} (ho : Output short out r) :
    ∃ l x, out = .urls l ∧ r = .ok x ∧ Scan.Spec.Lines x (l.map JsonText.utf8) := by
  rcases c64_set hl hr hp hs hm with ⟨_, ⟨src, h1, h2⟩ | ⟨p, h1, h2⟩⟩ | ⟨l, rfl, -, -, -, h⟩
  · exact absurd (hf src h1) h2
  · exact absurd (hv p h1) h2
  refine ⟨l, _, rfl, ho, ?_⟩
  have hw : ∀ u ∈ l, '\n' ∉ u := by
    intro u hu
    obtain ⟨-, src, hsrc, line, hline, a, b, e⟩ := h u hu
    have := hn src hsrc line hline
    rw [e] at this
    intro hc
    exact this (by simp [hc])
  clear h ho hm
  induction l with
  | nil => exact .nil
  | cons u l ih =>
    rw [List.flatMap_cons, List.append_assoc]
    exact .cons (newline_utf8 (hw u (by simp))) (ih fun v hv => hw v (by simp [hv]))

/-- **C71.** Nothing else is printed to the standard output: without arguments, with wrong options and
when files can not be read or prefixes are not valid. -/
theorem c71_silent (short : Bool) {r : Res Empty Bytes} (ho : Output short out r)
    (h : out = .usage ∨ out = .badFlags ∨ out = .help ∨ ∃ e, out = .setErr e) : r = .ok [] := by
  rcases h with rfl | rfl | rfl | ⟨e, rfl⟩ <;> exact ho

end

mutual
theorem matching_ne : ∀ t : Tree, links t ≠ [] → matching (fun _ => true) t ≠ []
  | .body ls, h => by
    simp only [links] at h
    cases ls with
    | nil => exact absurd rfl h
    | cons l ls => simp [matching, firstByUrl]
  | .node p cs, h => by
    simp only [links] at h
    simp only [matching]
    exact matchingAll_ne cs h
theorem matchingAll_ne : ∀ ts : List Tree, linksAll ts ≠ [] → matchingAll (fun _ => true) ts ≠ []
  | [], h => absurd rfl h
  | t :: ts, h => by
    simp only [linksAll, ne_eq, List.append_eq_nil_iff, not_and_or] at h
    simp only [matchingAll, ne_eq, List.append_eq_nil_iff, not_and_or]
    rcases h with h | h
    · exact .inl (matching_ne t h)
    · exact .inr (matchingAll_ne ts h)
end

/-- **C71 fails**: the tool crashes, and prints nothing, for a file that begins with a heading of the
second level and has a link below it. -/
theorem c71_violation_skipped_level (short : Bool) {order : Str → List (Str × Str)} {find : Finder}
    {letter : Char → Bool} {files : Files} {out : Out} {line : Str} {l : Link}
    (hfile : files "a.org".toList = some (["** A".toList, line], none))
    (h0 : find.org "** A".toList = []) (h1 : find.org line = [l]) (h2 : orgHeading line = none)
    (hm : Main order find letter files ["http://a".toList, "a.org".toList] out)
    {r : Res Empty Bytes} (ho : Output short out r) : r = .panic := by
  have hl : Written [] ["http://a".toList, "a.org".toList] ["http://a".toList, "a.org".toList] :=
    .plain (ws := []) .nil (by
      intro a ha
      obtain rfl := Option.some.inj ha
      exact Burl.Tool.Client.classify_plain.mp rfl)
  have hread : Read [] ["a.org".toList] [⟨.org, "a.org".toList⟩] :=
    ⟨_, .cons ⟨rfl, by decide⟩ .nil, .inr ⟨by simp [typed], rfl⟩⟩
  have hfl : fileLines files ⟨.org, "a.org".toList⟩ = ["** A".toList, line] := by
    unfold fileLines
    rw [hfile]
  have hfound : found (find.of Kind.org) (fun _ => true) 1 ["** A".toList, line] =
      [{ l with lineNo := 2 }] := by
    show ((find.org "** A".toList).filter _).map _ ++ (((find.org line).filter _).map _ ++ []) = _
    rw [h0, h1]
    rfl
  have hu : untilFailure (fileErr files) [(⟨.org, "a.org".toList⟩ : Source)] =
      ([⟨.org, "a.org".toList⟩], none) := by
    have : fileErr files ⟨.org, "a.org".toList⟩ = none := by
      unfold fileErr
      rw [hfile]
    simp only [untilFailure, this]
  have htree : ∀ trees, FileTrees find files [⟨.org, "a.org".toList⟩] trees →
      linksAll trees = [{ l with lineNo := 2 }] ∧
        ∀ e ∈ pathsAll [.fileGroup] trees, Props.missingHeading ∈ e.1 := by
    intro trees ht
    unfold FileTrees at ht
    rw [hu] at ht
    simp only [List.filter_cons, List.filter_nil] at ht
    rw [hfl, hfound, if_pos (by simp)] at ht
    cases ht with
    | cons g1 g2 =>
      cases g2
      obtain ⟨⟨cs, rfl, -, -, hp, -⟩, cs', he, h3⟩ := g1
      injection he with _ he
      subst he
      rw [hfl] at h3 hp
      refine ⟨?_, ?_⟩
      · rw [linksAll, links, h3]
        exact (List.append_nil _).trans hfound
      · intro e he
        simp only [pathsAll, paths, List.append_nil] at he
        have hsh := pathsAll_shift ([.fileGroup] ++ [.file "a.org".toList]) [] cs
        rw [List.append_nil] at hsh
        rw [hsh, hp] at he
        have hhead : orgHeading "** A".toList = some (2, "A".toList) := by decide
        simp only [fileTrace, trace, h0, h1, slotStep, hhead, h2, List.filter_nil, List.map_nil,
          List.nil_append, List.filter_cons, if_true, List.map_cons, List.append_nil,
          List.mem_singleton] at he
        subst he
        simp [levelOf, slotProps]
  obtain ⟨trees, ht, hc⟩ := c71_tool_exact short hl rfl hread
    (fun trees ht => by rw [(htree trees ht).1]; simp) hm ho
  obtain ⟨t1, t2⟩ := htree trees ht
  rcases hc with ⟨rfl, -⟩ | ⟨-, y, g1, -, g3, ⟨g4, -⟩ | ⟨-, g5⟩⟩
  · cases t1
  · exfalso
    have hne : links y.erase ≠ [] := by
      rw [g3 (by rw [t1]; simp)]
      apply matching_ne
      rw [links, t1]
      simp
    rw [← paths_links []] at hne
    cases hp : paths [] y.erase with
    | nil => rw [hp] at hne; exact hne rfl
    | cons e es =>
      have h5 := paths_of_labelled Named _ [] g4 (by simp) e (by rw [hp]; simp)
      have h6 : e ∈ paths [] (.node .fileGroup trees) :=
        (paths_part g1 []).subset (by rw [hp]; simp)
      exact h5 _ (t2 e h6)
  · exact g5

/-- Such a file. -/
example : exFinder.org "** A".toList = [] ∧ exFinder.org "http:b".toList = [⟨"http:b".toList, [], 0⟩] ∧
    orgHeading "http:b".toList = none := by decide

/-- Links that are printed, with prefixes. -/
example (short : Bool) : Output short (.urls ["mid:x".toList, "http:y".toList])
    (.ok ((JsonText.utf8 "mid:x\nhttp:y\n".toList))) := by
  show _ = _
  decide +kernel

end Burl.Tool.Line
