import Verif.Extract.OrgLemmas
/-! Extraction from files and groups of files. -/
namespace Burl.Extract
open Burl.Tree (Heap Addr Obj load load_ok RepT RepTs)
open Burl.Tree.Spec (Link Props Tree links linksAll)
open Spec (paths pathsAll Full FullAll found untilFailure)

mutual
theorem paths_links (above : List Props) : ∀ t : Tree,
    (paths above t).map (·.2) = links t
  | .body ls => by simp [paths, links, Function.comp_def]
  | .node p cs => by rw [paths, links]; exact pathsAll_links _ cs
theorem pathsAll_links (above : List Props) : ∀ ts : List Tree,
    (pathsAll above ts).map (·.2) = linksAll ts
  | [] => by simp [pathsAll, linksAll]
  | t :: ts => by
    rw [pathsAll, linksAll, List.map_append, paths_links above t, pathsAll_links above ts]
end

mutual
theorem Full.links_ne : ∀ t : Tree, Full t → links t ≠ []
  | .body ls, h => by simpa [links, Full] using h
  | .node p cs, h => by
    rw [links]
    exact FullAll.links_ne cs h.2 h.1
theorem FullAll.links_ne : ∀ ts : List Tree, FullAll ts → ts ≠ [] → linksAll ts ≠ []
  | [], _, h => absurd rfl h
  | t :: ts, h, _ => by
    rw [linksAll]
    intro e
    exact Full.links_ne t h.1 (List.append_eq_nil_iff.1 e).1
end

theorem trace_links (find : Str → List Link) (filter : Link → Bool) : ∀ (lines : List Str) (n : Int)
    (slots : List Slot) (len : Nat),
    (trace find filter n slots len lines).map (·.2) = found find filter n lines
  | [], _, _, _ => rfl
  | l :: ls, n, slots, len => by
    rw [trace, found, List.map_append, trace_links find filter ls]
    simp [Function.comp_def]

theorem txtTrace_links (find : Str → List Link) (filter : Link → Bool)
    (hf : ∀ k n, filter { k with lineNo := n } = filter k) : ∀ (lines : List Str) (n : Int),
    txtTrace find filter n lines = found find filter n lines
  | [], _ => rfl
  | l :: ls, n => by
    rw [txtTrace, found, txtTrace_links find filter hf ls]
    simp [List.filter_map, Function.comp_def, hf]

/-- Function used for a kind of files. -/
def Finder.of (find : Finder) : Kind → Str → List Link
  | .org => find.org
  | .txt => find.txt

/-- Links with labels found in a file. -/
def fileTrace (find : Finder) (filter : Link → Bool) (k : Kind) (lines : List Str) :
    List (List Props × Link) :=
  match k with
  | .org => (trace find.org filter 1 (List.replicate 10 none) 0 lines).map fun e =>
      (e.1.map slotProps, e.2)
  | .txt => (txtTrace find.txt filter 1 lines).map ([], ·)

theorem extract_spec (find : Finder) (filter : Link → Bool) (k : Kind) (h0 : Heap)
    (lines : List Str) : ∃ h' root cs, extract find filter k h0 lines = .ok (h', root) ∧
      Built h0 h' .unset root cs ∧ pathsAll [] cs = fileTrace find filter k lines ∧
      (k = .txt → cs.length ≤ 1) := by
  cases k
  · obtain ⟨h', root, cs, h1, h2, h3⟩ := orgExtract_spec find.org filter h0 lines
    exact ⟨h', root, cs, h1, h2, h3, by simp⟩
  · obtain ⟨h', root, cs, h1, h2, h3, h4⟩ := txtExtract_shape find.txt filter h0 lines
    exact ⟨h', root, cs, h1, h2, h3, fun _ => h4⟩

theorem fileTrace_links (find : Finder) (filter : Link → Bool) (k : Kind) (lines : List Str)
    (hf : ∀ k n, filter { k with lineNo := n } = filter k) :
    (fileTrace find filter k lines).map (·.2) = found (find.of k) filter 1 lines := by
  cases k
  · simp only [fileTrace, List.map_map, Function.comp_def, Finder.of]
    exact trace_links find.org filter lines 1 _ _
  · simp only [fileTrace, List.map_map, Function.comp_def, Finder.of, List.map_id']
    exact txtTrace_links find.txt filter hf lines 1

/-- Status of a file. -/
def fileErr (files : Files) (src : Source) : Option FileErr :=
  match files src.name with
  | none => some .open_
  | some (_, err) => err

def fileLines (files : Files) (src : Source) : List Str :=
  match files src.name with
  | none => []
  | some (lines, _) => lines

theorem fileTrace_nil (find : Finder) (filter : Link → Bool) (k : Kind) :
    fileTrace find filter k [] = [] := by cases k <;> rfl

/-- `ExtractLinksFromFile`. -/
theorem extractFile_spec (find : Finder) (filter : Link → Bool) (files : Files) (h0 : Heap)
    (src : Source) :
    ∃ h' tree cs, extractFile find filter files h0 src = .ok (h', tree, fileErr files src) ∧
      pathsAll [] cs = fileTrace find filter src.kind (fileLines files src) ∧ FullAll cs ∧
      (src.kind = .txt → cs.length ≤ 1) ∧ h0.length ≤ h'.length ∧ (∀ x, x < h0.length → h'[x]? = h0[x]?) ∧
      ((cs = [] ∧ tree = none) ∨ (cs ≠ [] ∧ ∃ a, tree = some a ∧
        RepF h' (fun x => h0.length ≤ x ∧ x < h'.length) (.node (.file src.name) cs) a)) := by
  unfold extractFile fileErr fileLines
  cases hf : files src.name with
  | none =>
    exact ⟨h0, none, [], rfl, by simp [pathsAll, fileTrace_nil], trivial, by simp, Nat.le_refl _,
      fun _ _ => rfl, .inl ⟨rfl, rfl⟩⟩
  | some le =>
    obtain ⟨lines, err⟩ := le
    obtain ⟨h', root, cs, e, b, hp, hone⟩ := extract_spec find filter src.kind h0 lines
    obtain ⟨as, ha, hr⟩ := b.kids
    simp only [e, Res.bind_ok, load_ok ha]
    cases as with
    | nil =>
      have : cs = [] := by
        have := hr.length; simpa using this.symm
      exact ⟨h', none, cs, rfl, hp, b.full, hone, Nat.le_of_lt (Nat.lt_of_le_of_lt b.range.1 b.range.2),
        b.frame, .inl ⟨this, rfl⟩⟩
    | cons a as =>
      refine ⟨h'.set root (.node (.file src.name) (a :: as)), some root, cs, rfl, hp, b.full, hone,
        ?_, ?_, .inr ⟨?_, root, rfl, ?_⟩⟩
      · rw [List.length_set]; exact Nat.le_of_lt (Nat.lt_of_le_of_lt b.range.1 b.range.2)
      · intro x hx
        rw [getElem?_set_ne' (Nat.ne_of_lt (Nat.lt_of_lt_of_le hx b.range.1))]
        exact b.frame x hx
      · rintro rfl
        have := hr.length; simp at this
      · simp only [RepF, List.length_set]
        refine ⟨b.range, a :: as, List.getElem?_set_self b.range.2, ?_⟩
        exact RepFs.mono (fun x hx => ⟨getElem?_set_ne' hx.2.2, hx.1, hx.2.1⟩) _ _ hr

/-- Subtree for a file. -/
def IsFileTree (find : Finder) (filter : Link → Bool) (files : Files) (src : Source)
    (t : Tree) : Prop :=
  ∃ cs, t = .node (.file src.name) cs ∧ cs ≠ [] ∧ FullAll cs ∧
    pathsAll [] cs = fileTrace find filter src.kind (fileLines files src) ∧
    (src.kind = .txt → cs.length ≤ 1)

inductive All₂ {α β : Type} (R : α → β → Prop) : List α → List β → Prop where
  | nil : All₂ R [] []
  | cons {a b as bs} : R a b → All₂ R as bs → All₂ R (a :: as) (b :: bs)

/-- Files that have something. -/
def withLinks (find : Finder) (filter : Link → Bool) (files : Files) (l : List Source) :
    List Source :=
  l.filter fun src => !(fileTrace find filter src.kind (fileLines files src)).isEmpty

theorem groupLoop_spec (find : Finder) (filter : Link → Bool) (files : Files) (group : Addr) :
    ∀ (list : List Source) (h : Heap) (ts : List Tree) (as : List Addr),
    h[group]? = some (.node .fileGroup as) →
    RepFs h (fun x => x < h.length ∧ x ≠ group) ts as →
    ∃ h' us bs, groupLoop find filter files group list h =
        .ok (h', (untilFailure (fileErr files) list).2, (untilFailure (fileErr files) list).1) ∧
      h'[group]? = some (.node .fileGroup (as ++ bs)) ∧
      RepFs h' (fun x => x < h'.length ∧ x ≠ group) (ts ++ us) (as ++ bs) ∧
      All₂ (IsFileTree find filter files)
        (withLinks find filter files (untilFailure (fileErr files) list).1) us
  | [], h, ts, as, hg, hr => by
    refine ⟨h, [], [], rfl, by simpa using hg, by simpa using hr, ?_⟩
    simp [untilFailure, withLinks]; exact .nil
  | src :: rest, h, ts, as, hg, hr => by
    obtain ⟨h1, tree, cs, e1, hp, hu, hlen, hle, hfr, hcase⟩ := extractFile_spec find filter files h src
    have hgl : group < h.length := by
      rcases Nat.lt_or_ge group h.length with h' | h'
      · exact h'
      · rw [List.getElem?_eq_none h'] at hg; cases hg
    -- one file
    have hone : ∃ h2 u b, appendTree h1 group tree = .ok h2 ∧ h2[group]? = some (.node .fileGroup (as ++ b)) ∧
        RepFs h2 (fun x => x < h2.length ∧ x ≠ group) (ts ++ u) (as ++ b) ∧
        All₂ (IsFileTree find filter files) (withLinks find filter files [src]) u := by
      have hg1 : h1[group]? = some (.node .fileGroup as) := by rw [hfr group hgl]; exact hg
      have hr1 : RepFs h1 (fun x => x < h1.length ∧ x ≠ group) ts as :=
        RepFs.mono (fun x hx => ⟨hfr x hx.1, Nat.lt_of_lt_of_le hx.1 hle, hx.2⟩) _ _ hr
      rcases hcase with ⟨rfl, rfl⟩ | ⟨hne, a, rfl, hrep⟩
      · refine ⟨h1, [], [], rfl, by simpa using hg1, by simpa using hr1, ?_⟩
        have : fileTrace find filter src.kind (fileLines files src) = [] := by
          rw [← hp]; rfl
        simp [withLinks, this]; exact .nil
      · refine ⟨h1.set group (.node .fileGroup (as ++ [a])), [.node (.file src.name) cs], [a],
          ?_, ?_, ?_, ?_⟩
        · simp only [appendTree, addChild, load_ok hg1, Res.bind_ok]
        · exact List.getElem?_set_self (Nat.lt_of_lt_of_le hgl hle)
        · simp only [List.length_set]
          refine RepFs.append (RepFs.mono (fun x hx => ⟨getElem?_set_ne' hx.2, hx⟩) _ _ hr1)
            (RepFs.one (RepF.mono (fun x hx => ?_) _ _ hrep))
          have hxg : x ≠ group := Nat.ne_of_gt (Nat.lt_of_lt_of_le hgl hx.1)
          exact ⟨getElem?_set_ne' hxg, hx.2, hxg⟩
        · have : fileTrace find filter src.kind (fileLines files src) ≠ [] := by
            rw [← hp]
            intro he
            have h2 := congrArg (List.map (·.2)) he
            rw [pathsAll_links] at h2
            exact FullAll.links_ne cs hu hne h2
          simp only [withLinks, List.filter_cons, List.filter_nil]
          rw [if_pos (by simpa using this)]
          exact .cons ⟨cs, rfl, hne, hu, hp, hlen⟩ .nil
    obtain ⟨h2, u, b, e2, hg2, hr2, ha2⟩ := hone
    rw [groupLoop, e1]
    simp only [Res.bind_ok]
    rw [e2, Res.bind_ok]
    cases herr : fileErr files src with
    | some e =>
      refine ⟨h2, u, b, ?_, hg2, hr2, ?_⟩
      · simp [untilFailure, herr]
      · simpa [untilFailure, herr] using ha2
    | none =>
      obtain ⟨h3, us, bs, e3, hg3, hr3, ha3⟩ := groupLoop_spec find filter files group rest h2
        (ts ++ u) (as ++ b) hg2 hr2
      refine ⟨h3, u ++ us, b ++ bs, ?_, by simpa using hg3, by simpa using hr3, ?_⟩
      · simp only [e3, Res.bind_ok, untilFailure, herr]
      · simp only [untilFailure, herr]
        have hw : withLinks find filter files (src :: (untilFailure (fileErr files) rest).1) =
            withLinks find filter files [src] ++
            withLinks find filter files (untilFailure (fileErr files) rest).1 := by
          simp [withLinks, List.filter_cons]
          split <;> simp
        rw [hw]
        clear e3 hg3 hr3 e1 hp hcase e2 hr2 hg2
        generalize withLinks find filter files [src] = l1 at ha2 ⊢
        induction ha2 with
        | nil => exact ha3
        | cons hab _ ih => exact .cons hab (ih)

theorem extractGroup_spec (find : Finder) (filter : Link → Bool) (files : Files) (h : Heap)
    (list : List Source) :
    ∃ h' group us, extractGroup find filter files h list =
        .ok (h', group, (untilFailure (fileErr files) list).2,
          (untilFailure (fileErr files) list).1) ∧
      All₂ (IsFileTree find filter files)
        (withLinks find filter files (untilFailure (fileErr files) list).1) us ∧
      ((us = [] ∧ group = none) ∨
        (us ≠ [] ∧ ∃ g, group = some g ∧ RepT h' (.node .fileGroup us) g)) := by
  unfold extractGroup
  cases list with
  | nil =>
    refine ⟨h, none, [], rfl, ?_, .inl ⟨rfl, rfl⟩⟩
    simp [untilFailure, withLinks]; exact .nil
  | cons src rest =>
    simp only [List.isEmpty_cons, newNode]
    obtain ⟨h', us, bs, e, hg, hr, ha⟩ := groupLoop_spec find filter files h.length (src :: rest)
      (h ++ [.node .fileGroup []]) [] [] (by simp) (by simp [RepFs])
    rw [if_neg (by simp), e]
    simp only [Res.bind_ok, load_ok hg, List.nil_append] at hr hg ⊢
    cases bs with
    | nil =>
      have hus : us = [] := by have := hr.length; simpa using this.symm
      exact ⟨h', none, us, rfl, ha, .inl ⟨hus, rfl⟩⟩
    | cons b bs =>
      refine ⟨h', some h.length, us, rfl, ha, .inr ⟨?_, h.length, rfl, ?_⟩⟩
      · rintro rfl; have := hr.length; simp at this
      · simp only [RepT]
        exact ⟨b :: bs, hg, RepFs.rep _ _ hr⟩

end Burl.Extract
