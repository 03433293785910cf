import Verif.Backend.Serve
import Verif.Backend.DecodeProps
import Verif.Backend.Props
import Verif.Extract.Props
import Verif.Rpc.ServerProps
import Verif.Emacs.Props
import Verif.Links.SetProps
/-! A session from JSON requests to JSON replies (C62). -/
namespace Burl.Backend
open Burl.Json (Json)
open Burl.Json.Spec (render renderAll renderLink nodeObj key)
open Burl.Tree.Spec (Link Props Tree Annot links linksAll)
open Burl.Extract.Spec (Named Labelled LabelledAll found)

namespace Spec

/-- The value of the first member with the name. -/
def member (name : String) : Json → Option Json
  | .obj ms => (ms.find? fun m => m.1 = name.toList).map (·.2)
  | _ => none

/-- Objects of a reply tell what they are by a member `_type`. -/
def isA (type : String) (v : Json) : Bool :=
  match member "_type" v with
  | some (.str s) => decide (s = type.toList)
  | _ => false

mutual
/-- Outermost objects of a type in a value, in order. -/
def inside (type : String) : Json → List Json
  | .obj ms => if isA type (.obj ms) then [.obj ms] else insideMembers type ms
  | .arr vs => insideAll type vs
  | _ => []
def insideAll (type : String) : List Json → List Json
  | [] => []
  | v :: vs => inside type v ++ insideAll type vs
def insideMembers (type : String) : List (Str × Json) → List Json
  | [] => []
  | m :: ms => insideMember type m ++ insideMembers type ms
def insideMember (type : String) : Str × Json → List Json
  | (_, v) => inside type v
end

/-- Text of a member. -/
def textOf (name : String) (v : Json) : Str :=
  match member name v with
  | some (.str s) => s
  | _ => []

/-- Number of a member. -/
def numberOf (name : String) (v : Json) : Int :=
  match member name v with
  | some (.num n) => n
  | _ => 0

/-- What a user of a reply to `urlMentions` sees: files, addresses and line numbers. -/
def seen (v : Json) : List (Str × Str × Int) :=
  (inside "File" v).flatMap fun f => (inside "Link" f).map fun l =>
    (textOf "path" f, textOf "url" l, numberOf "lineNo" l)

end Spec
open Spec

/-! ### Objects of a rendered tree -/

theorem isA_link (l : Link) : isA "Link" (renderLink l) = true ∧ isA "File" (renderLink l) = false := by
  unfold renderLink isA member
  by_cases h : l.descr = []
  · rw [if_pos h]; constructor <;> rfl
  · rw [if_neg h]; constructor <;> rfl

theorem inside_link (l : Link) : inside "Link" (renderLink l) = [renderLink l] := by
  have := (isA_link l).1
  unfold renderLink at this ⊢
  rw [inside, if_pos this]

theorem file_link (l : Link) : inside "File" (renderLink l) = [] := by
  have := (isA_link l).2
  unfold renderLink at this ⊢
  rw [inside, if_neg (by rw [this]; simp)]
  by_cases h : l.descr = []
  · rw [if_pos h]; rfl
  · rw [if_neg h]; rfl

theorem text_link (l : Link) : textOf "url" (renderLink l) = l.url ∧
    numberOf "lineNo" (renderLink l) = l.lineNo := by
  unfold renderLink textOf numberOf member
  by_cases h : l.descr = []
  · rw [if_pos h]; constructor <;> rfl
  · rw [if_neg h]; constructor <;> rfl

theorem inside_links (ls : List Link) : insideAll "Link" (ls.map renderLink) = ls.map renderLink := by
  induction ls with
  | nil => rfl
  | cons l ls ih => rw [List.map_cons, insideAll, inside_link, ih]; rfl

theorem file_links (ls : List Link) : insideAll "File" (ls.map renderLink) = [] := by
  induction ls with
  | nil => rfl
  | cons l ls ih => rw [List.map_cons, insideAll, file_link, ih]; rfl

theorem insideMembers_append (type : String) (a b : List (Str × Json)) :
    insideMembers type (a ++ b) = insideMembers type a ++ insideMembers type b := by
  induction a with
  | nil => rfl
  | cons m a ih => rw [List.cons_append, insideMembers, insideMembers, ih, List.append_assoc]

theorem inside_node {type t : String} {own : List (Str × Json)} {cs : List Json} {n k : Int}
    (ht : t ≠ type) (ho : insideMembers type own = []) :
    inside type (nodeObj t own cs n k) = insideAll type cs := by
  unfold nodeObj
  have : isA type (.obj ([(key "_type", .str (key t)), (key "children", .arr cs),
      (key "filtered", .num k)] ++ own ++ [(key "total", .num n)])) = false := by
    show decide (key t = type.toList) = false
    rw [decide_eq_false_iff_not]
    intro h
    exact ht (String.ext (by simpa [key] using h))
  rw [inside, if_neg (by rw [this]; simp), insideMembers_append, insideMembers_append, ho]
  simp [insideMembers, insideMember, inside]

/-- A label inside of a file. -/
def Inner : Props → Prop
  | .heading .. => True
  | .missingHeading => True
  | _ => False

mutual
theorem inside_render (y : Annot) (h : Labelled Named y.erase) :
    inside "Link" (render y) = (links y.erase).map renderLink := by
  match y with
  | .body n k ls =>
    rw [render, inside, if_neg (by rw [show isA "Link" _ = false from rfl]; simp)]
    simp [insideMembers, insideMember, inside, inside_links, Annot.erase, links]
  | .node n k p cs =>
    simp only [Annot.erase, Labelled] at h
    have ih := inside_renderAll cs h.2
    cases p with
    | unset => exact h.1.elim
    | missingHeading => exact h.1.elim
    | file path =>
      rw [render, inside_node (by decide) rfl, ih]; rfl
    | heading ln t =>
      rw [render, inside_node (by decide) rfl, ih]; rfl
    | fileGroup =>
      match cs with
      | [] => rw [render, inside_node (by decide) rfl, ih]; · rfl
              · intro c hc; cases hc
      | [c] =>
        rw [render]
        have := inside_render c h.2.1
        rw [this]
        simp [Annot.erase, Annot.eraseAll, links, linksAll]
      | a :: b :: cs =>
        rw [render, inside_node (by decide) rfl, ih]; · rfl
        · intro c hc; cases hc
theorem inside_renderAll (ys : List Annot) (h : LabelledAll Named (Annot.eraseAll ys)) :
    insideAll "Link" (renderAll ys) = (linksAll (Annot.eraseAll ys)).map renderLink := by
  match ys with
  | [] => rfl
  | y :: ys =>
    simp only [Annot.eraseAll, LabelledAll] at h
    rw [renderAll, insideAll, inside_render y h.1, inside_renderAll ys h.2, Annot.eraseAll,
      linksAll, List.map_append]
end

mutual
theorem file_render (y : Annot) (h : Labelled Inner y.erase) : inside "File" (render y) = [] := by
  match y with
  | .body n k ls =>
    rw [render, inside, if_neg (by rw [show isA "File" _ = false from rfl]; simp)]
    simp [insideMembers, insideMember, inside, file_links]
  | .node n k p cs =>
    simp only [Annot.erase, Labelled] at h
    have ih := file_renderAll cs h.2
    cases p with
    | unset => exact h.1.elim
    | missingHeading => rw [render]; rfl
    | file path => exact h.1.elim
    | heading ln t => rw [render, inside_node (by decide) rfl, ih]
    | fileGroup => exact h.1.elim
theorem file_renderAll (ys : List Annot) (h : LabelledAll Inner (Annot.eraseAll ys)) :
    insideAll "File" (renderAll ys) = [] := by
  match ys with
  | [] => rfl
  | y :: ys =>
    simp only [Annot.eraseAll, LabelledAll] at h
    rw [renderAll, insideAll, file_render y h.1, file_renderAll ys h.2]; rfl
end

/-- A reply: a group of files without files inside of files. -/
inductive Files : List Annot → Prop where
  | nil : Files []
  | cons {n k path cs ys} : LabelledAll Inner (Annot.eraseAll cs) → Files ys →
      Files (.node n k (.file path) cs :: ys)

/-- Files with their links. -/
def byFile : List Annot → List (Str × Str × Int)
  | [] => []
  | .node _ _ (.file path) cs :: ys =>
    (linksAll (Annot.eraseAll cs)).map (fun l => (path, l.url, l.lineNo)) ++ byFile ys
  | _ :: ys => byFile ys

theorem seen_file {n k : Int} {path : Str} {cs : List Annot}
    (hl : LabelledAll Named (Annot.eraseAll cs)) :
    ((inside "File" (render (.node n k (.file path) cs))).flatMap fun f =>
      (inside "Link" f).map fun l => (textOf "path" f, textOf "url" l, numberOf "lineNo" l)) =
    (linksAll (Annot.eraseAll cs)).map fun l => (path, l.url, l.lineNo) := by
  have h1 : inside "File" (render (.node n k (.file path) cs)) = [render (.node n k (.file path) cs)] := by
    rw [render]; unfold nodeObj
    rw [inside, if_pos (show isA "File" _ = true from rfl)]
  have h2 : textOf "path" (render (.node n k (.file path) cs)) = path := by rw [render]; rfl
  rw [h1, List.flatMap_cons, List.flatMap_nil, List.append_nil, h2,
    inside_render _ (by simp only [Annot.erase, Labelled]; exact ⟨trivial, hl⟩), List.map_map]
  simp only [Annot.erase, links]
  apply List.map_congr_left
  intro l _
  simp only [Function.comp_apply, (text_link l).1, (text_link l).2]

theorem seen_files {ys : List Annot} (h : Files ys) (hl : LabelledAll Named (Annot.eraseAll ys)) :
    ((insideAll "File" (renderAll ys)).flatMap fun f =>
      (inside "Link" f).map fun l => (textOf "path" f, textOf "url" l, numberOf "lineNo" l)) =
    byFile ys := by
  induction h with
  | nil => rfl
  | @cons n k path cs ys hc _ ih =>
    simp only [Annot.eraseAll, Annot.erase, LabelledAll, Labelled] at hl
    rw [renderAll, insideAll, List.flatMap_append, ih hl.2, seen_file hl.1.2]
    rfl

theorem seen_render {n k : Int} {ys : List Annot} (h : Files ys)
    (hl : LabelledAll Named (Annot.eraseAll ys)) :
    seen (render (.node n k .fileGroup ys)) = byFile ys := by
  rw [← seen_files h hl]
  unfold seen
  match ys with
  | [] => rw [render]; · rw [inside_node (by decide) rfl]
          · intro c hc; cases hc
  | [c] => rw [render]; simp [renderAll, insideAll]
  | a :: b :: cs =>
    rw [render]; · rw [inside_node (by decide) rfl]
    · intro c hc; cases hc

/-! ### What has been serialised has labels -/

mutual
theorem renderR_ok (y : Annot) {v : Json} (h : Json.renderR y = .ok v) : Labelled Named y.erase := by
  match y with
  | .body _ _ _ => simp only [Annot.erase]; trivial
  | .node n k p cs =>
    simp only [Annot.erase, Labelled]
    by_cases hs : Json.isGroup p = true ∧ ∃ c, cs = [c]
    · obtain ⟨hg, c, rfl⟩ := hs
      rw [Json.renderR_single n k p c hg] at h
      have := renderR_ok c h
      rw [Json.isGroup_iff] at hg
      subst hg
      exact ⟨trivial, this, trivial⟩
    · rw [Json.renderR_node n k p cs hs] at h
      have hp : Named p := by
        cases p <;> simp [Json.nodeJson, Named] at h ⊢
      refine ⟨hp, ?_⟩
      cases h1 : Json.nodeJson p [] n k with
      | err e => exact e.elim
      | panic => rw [h1] at h; cases h
      | ok j =>
        rw [h1, Res.bind_ok] at h
        cases h2 : Json.renderAllR cs with
        | err e => exact e.elim
        | panic => rw [h2] at h; cases h
        | ok js => exact renderAllR_ok cs h2
theorem renderAllR_ok (ys : List Annot) {vs : List Json} (h : Json.renderAllR ys = .ok vs) :
    LabelledAll Named (Annot.eraseAll ys) := by
  match ys with
  | [] => trivial
  | y :: ys =>
    rw [Json.renderAllR] at h
    simp only [Annot.eraseAll, LabelledAll]
    cases h1 : Json.renderR y with
    | err e => exact e.elim
    | panic => rw [h1] at h; cases h
    | ok j =>
      rw [h1, Res.bind_ok] at h
      cases h2 : Json.renderAllR ys with
      | err e => exact e.elim
      | panic => rw [h2] at h; cases h
      | ok js => exact ⟨renderR_ok y h1, renderAllR_ok ys h2⟩
end

/-! ### Files of the index -/

open Extract (Finder Source IsFileTree All₂ withLinks fileLines fileTrace)

theorem fileTree_links {find : Finder} {files : Extract.Files} {src : Source} {cs : List Tree}
    (hp : Extract.Spec.pathsAll [] cs =
      fileTrace find (fun _ => true) src.kind (fileLines files src)) :
    linksAll cs = found (find.of src.kind) (fun _ => true) 1 (fileLines files src) := by
  rw [← Extract.fileTrace_links find (fun _ => true) src.kind _ (fun _ _ => rfl), ← hp]
  exact (Extract.pathsAll_links [] cs).symm

theorem fileTree_inner {find : Finder} {files : Extract.Files} {src : Source} {cs : List Tree}
    (hf : Extract.Spec.FullAll cs) (hp : Extract.Spec.pathsAll [] cs =
      fileTrace find (fun _ => true) src.kind (fileLines files src)) : LabelledAll Inner cs := by
  refine Extract.labelledAll_of_paths Inner cs [] hf ?_
  rw [hp]
  intro e he p hpm
  cases hk : src.kind with
  | txt =>
    rw [hk] at he
    simp only [fileTrace, List.mem_map] at he
    obtain ⟨_, _, rfl⟩ := he
    simp at hpm
  | org =>
    rw [hk] at he
    simp only [fileTrace, List.mem_map] at he
    obtain ⟨x, _, rfl⟩ := he
    obtain ⟨s, _, rfl⟩ := List.mem_map.1 hpm
    cases s <;> trivial

theorem part_links {t t' : Tree} (h : Tree.Spec.Part t t') : (links t).Sublist (links t') := by
  refine Tree.Spec.Part.rec (motive_1 := fun t t' _ => (links t).Sublist (links t'))
    (motive_2 := fun ts ts' _ => (linksAll ts).Sublist (linksAll ts')) ?_ ?_ ?_ ?_ ?_ h
  · intro _ _ h; exact h
  · intro _ _ _ _ h; exact h
  · exact .slnil
  · intro _ _ _ _ _ _ h1 h2; exact h1.append h2
  · intro _ _ _ _ h; exact h.trans (List.sublist_append_right _ _)

theorem counted_files {find : Finder} {files : Extract.Files} {f : Link → Bool} {ws : List Source}
    {trees : List Tree} (ha : All₂ (IsFileTree find (fun _ => true) files) ws trees)
    {ys : List Annot} (hc : Tree.Spec.CountedAll f ys trees) :
    Files ys ∧ ∀ x ∈ byFile ys, ∃ src ∈ ws, ∃ l ∈ found (find.of src.kind) (fun _ => true) 1
      (fileLines files src), f l = true ∧ x = (src.name, l.url, l.lineNo) := by
  induction ha generalizing ys with
  | nil => cases hc; exact ⟨.nil, fun x hx => by cases hx⟩
  | @cons src t ws ts hr _ ih =>
    cases hc with
    | drop hc =>
      obtain ⟨h1, h2⟩ := ih hc
      refine ⟨h1, fun x hx => ?_⟩
      obtain ⟨s, hs, g⟩ := h2 x hx
      exact ⟨s, List.mem_cons_of_mem _ hs, g⟩
    | keep ht _ hc =>
      obtain ⟨h1, h2⟩ := ih hc
      obtain ⟨cs, rfl, _, hfull, hp, -⟩ := hr
      obtain ⟨hpart, hall⟩ := Tree.c18_counted_part _ _ _ ht
      cases ht with
      | @node n k p ys' cs' hn hcs =>
      simp only [Annot.erase] at hpart hall
      have hin : LabelledAll Inner (Annot.eraseAll ys') := by
        cases hpart with
        | node hpa =>
        exact (Extract.labelled_part Inner (t := .node (.heading 0 []) (Annot.eraseAll ys'))
          (t' := .node (.heading 0 []) cs) (.node hpa) ⟨trivial, fileTree_inner hfull hp⟩).2
      refine ⟨.cons hin h1, ?_⟩
      intro x hx
      rw [byFile, List.mem_append] at hx
      rcases hx with hx | hx
      · obtain ⟨l, hl, rfl⟩ := List.mem_map.mp hx
        have hsub : l ∈ linksAll cs := (part_links hpart).subset hl
        rw [fileTree_links hp] at hsub
        exact ⟨src, List.mem_cons_self, l, hsub, hall l hl, rfl⟩
      · obtain ⟨s, hs, g⟩ := h2 x hx
        exact ⟨s, List.mem_cons_of_mem _ hs, g⟩

/-! ### Complete replies -/

open Tree.Spec (Shared SharedAll matching matchingAll firstByUrl)

theorem shared_links {f : Link → Bool} {s : Int} {t : Tree} {y : Annot} (h : Shared f s t y) :
    (links y.erase).Sublist (matching f t) := by
  refine Shared.rec (f := f) (motive_1 := fun s t y _ => (links y.erase).Sublist (matching f t))
    (motive_2 := fun sh ts ys _ => (linksAll (Annot.eraseAll ys)).Sublist (matchingAll f ts))
    ?_ ?_ ?_ ?_ ?_ h
  · intro _ _ _ _; exact List.take_sublist _ _
  · intro _ _ _ _ _ _ _ _ _ _ h; exact h
  · exact .slnil
  · intro _ _ _ _ _ _ _ _ h1 h2; exact h1.append h2
  · intro _ _ _ _ _ h; exact h.trans (List.sublist_append_right _ _)

/-- Matching links with names of their files. -/
def byTree (f : Link → Bool) : List Tree → List (Str × Str × Int)
  | [] => []
  | .node (.file path) cs :: ts =>
    (matchingAll f cs).map (fun l => (path, l.url, l.lineNo)) ++ byTree f ts
  | _ :: ts => byTree f ts

theorem shared_files {find : Finder} {files : Extract.Files} {f : Link → Bool} {ws : List Source}
    {trees : List Tree} (ha : All₂ (IsFileTree find (fun _ => true) files) ws trees)
    {sh : List (Option Int)} {ys : List Annot} (hs : SharedAll f sh trees ys) :
    (byFile ys).Sublist (byTree f trees) ∧
      (byFile ys).length = (linksAll (Annot.eraseAll ys)).length ∧
      (byTree f trees).length = (matchingAll f trees).length := by
  induction ha generalizing ys sh with
  | nil => cases hs; exact ⟨.slnil, rfl, rfl⟩
  | @cons src t ws ts hr _ ih =>
    obtain ⟨cs, rfl, _⟩ := hr
    cases hs with
    | drop hs =>
      obtain ⟨h1, h2, h3⟩ := ih hs
      refine ⟨h1.trans (by rw [byTree]; exact List.sublist_append_right _ _), h2, ?_⟩
      rw [byTree, matchingAll, List.length_append, List.length_map, List.length_append, h3,
        matching]
    | keep ht hs =>
      obtain ⟨h1, h2, h3⟩ := ih hs
      have hsub := shared_links ht
      cases ht with
      | node _ _ _ =>
      simp only [Annot.erase, links, matching] at hsub
      refine ⟨?_, ?_, ?_⟩
      · rw [byTree, byFile]; exact (hsub.map _).append h1
      · rw [byFile, Annot.eraseAll, Annot.erase, linksAll, links, List.length_append,
          List.length_map, List.length_append, h2]
      · rw [byTree, matchingAll, List.length_append, List.length_map, List.length_append, h3,
          matching]

mutual
theorem matching_complete (f : Link → Bool) (t : Tree) {l : Link} (hl : l ∈ links t)
    (hf : f l = true) : ∃ l' ∈ matching f t, l'.url = l.url := by
  match t with
  | .body ls =>
    rw [matching]
    exact Tree.c20_firstByUrl_complete _ l (List.mem_filter.mpr ⟨hl, hf⟩)
  | .node p cs =>
    rw [links] at hl; rw [matching]
    exact matchingAll_complete f cs hl hf
theorem matchingAll_complete (f : Link → Bool) (ts : List Tree) {l : Link} (hl : l ∈ linksAll ts)
    (hf : f l = true) : ∃ l' ∈ matchingAll f ts, l'.url = l.url := by
  match ts with
  | [] => cases hl
  | t :: ts =>
    rw [linksAll, List.mem_append] at hl
    rw [matchingAll]
    rcases hl with hl | hl
    · obtain ⟨l', h1, h2⟩ := matching_complete f t hl hf
      exact ⟨l', List.mem_append_left _ h1, h2⟩
    · obtain ⟨l', h1, h2⟩ := matchingAll_complete f ts hl hf
      exact ⟨l', List.mem_append_right _ h1, h2⟩
end

theorem byTree_complete {find : Finder} {files : Extract.Files} {f : Link → Bool} {ws : List Source}
    {trees : List Tree} (ha : All₂ (IsFileTree find (fun _ => true) files) ws trees) {src : Source}
    (hs : src ∈ ws) {l : Link}
    (hl : l ∈ found (find.of src.kind) (fun _ => true) 1 (fileLines files src))
    (hf : f l = true) : ∃ n, (src.name, l.url, n) ∈ byTree f trees := by
  induction ha with
  | nil => cases hs
  | @cons s t ws ts hr _ ih =>
    obtain ⟨cs, rfl, _, _, hp, -⟩ := hr
    rw [byTree]
    rcases List.mem_cons.mp hs with rfl | hs
    · rw [← fileTree_links hp] at hl
      obtain ⟨l', h1, h2⟩ := matchingAll_complete f cs hl hf
      exact ⟨l'.lineNo, List.mem_append_left _ (List.mem_map.mpr ⟨l', h1, by rw [h2]⟩)⟩
    · obtain ⟨n, hn⟩ := ih hs
      exact ⟨n, List.mem_append_right _ hn⟩

/-! ### Theorems -/

open Rpc.Server (Request Answers Matched reached)
open Rpc.Spec (Call)

namespace Spec

/-- The line `n` of a source file `path` has a link to `url`. -/
def Written (e : Env) (path url : Str) (n : Int) : Prop :=
  ∃ src ∈ e.sources, src.name = path ∧ ∃ (i : Nat) (line : Str) (k : Link),
    (fileLines e.files src)[i]? = some line ∧ k ∈ e.find.of src.kind line ∧ k.url = url ∧
    n = (i : Int) + 1

/-- An address that the query asks for: a variant of a non-empty address of the query. -/
def Asked (q : Tree.MentionsQuery) (url : Str) : Prop :=
  ∃ u ∈ q.variants, u ≠ [] ∧ ∃ u', Url.Spec.SchemeAlt u u' ∧ Url.Spec.Truncation u' url

/-- Links of all files. -/
def allLinks (e : Env) : List Link :=
  e.sources.flatMap fun src => found (e.find.of src.kind) (fun _ => true) 1 (fileLines e.files src)

/-- The number of links the query asks for, for a function that decides `Asked`. -/
def demand (e : Env) (f : Str → Bool) : Int := ((allLinks e).filter fun l => f l.url).length

end Spec

theorem written_found {e : Env} {src : Source} (hs : src ∈ e.sources) {l : Link}
    (hl : l ∈ found (e.find.of src.kind) (fun _ => true) 1 (fileLines e.files src)) :
    Written e src.name l.url l.lineNo := by
  obtain ⟨i, line, k, h1, h2, _, rfl⟩ := (Extract.c25_lineNo _ _ _ _).mp hl
  exact ⟨src, hs, rfl, i, line, k, h1, h2, rfl, rfl⟩

/-- What is known about a reply of `urlMentions`. -/
structure Served (e : Env) (q : Tree.MentionsQuery) (v : Json) (order : Str → List (Str × Str))
    (h : Tree.Heap) (g : Tree.Addr) (trees : List Tree) (h' : Tree.Heap) (a : Tree.Addr) : Prop where
  orders : Tree.Orders order
  asks : ∃ u ∈ q.variants, u ≠ []
  rep : Tree.RepT h (.node .fileGroup trees) g
  files : All₂ (IsFileTree e.find (fun _ => true) e.files)
    (withLinks e.find (fun _ => true) e.files e.sources) trees
  reply : Tree.UrlMentions order h (some g) q (.ok (h', a))
  json : Json.Marshal h' a (.ok v)

theorem Returns.served {e : Env} {q : Tree.MentionsQuery} {v : Json}
    (h : Returns e .urlMentions (.urlMentions q) v none) :
    ∃ order h g trees h' a, Served e q v order h g trees h' a := by
  cases h with
  | @mentions order hp group err _ h' a _ ho hi hr hj =>
  obtain ⟨hp', group', err', hi', _, hgood⟩ := Extract.c27_init e.find e.files e.sources
  rw [hi] at hi'
  injection hi' with hi'
  simp only [Prod.mk.injEq] at hi'
  obtain ⟨rfl, rfl, rfl⟩ := hi'
  have hasks : ∃ u ∈ q.variants, u ≠ [] := by
    unfold Tree.UrlMentions at hr
    by_cases hall : q.variants.all (·.isEmpty) = true
    · rw [if_pos hall] at hr; cases hr
    · rw [List.all_eq_true] at hall
      simp only [not_forall] at hall
      obtain ⟨u, hu, hne⟩ := hall
      exact ⟨u, hu, fun h => hne (by rw [h]; rfl)⟩
  cases err with
  | some x =>
    simp only [rootOf] at hr
    unfold Tree.UrlMentions at hr
    split at hr <;> cases hr
  | none =>
    obtain ⟨g, trees, rfl, hrep, ha⟩ := hgood rfl
    exact ⟨order, hp, g, trees, h', a, ho, hasks, hrep, ha, hr, hj⟩

theorem decides {q : Tree.MentionsQuery} {f : Str → Bool} (hf : ∀ u, f u = true ↔ Asked q u) :
    Tree.Decides q fun l => f l.url := fun l => hf l.url

/-- The JSON of a reply shows its links. -/
theorem Served.seen {e : Env} {q : Tree.MentionsQuery} {v : Json} {order h g trees h' a}
    (hs : Served e q v order h g trees h' a) {f : Link → Bool} {y : Annot}
    (hy : Tree.IsReply h' a y) (hc : Tree.Spec.Counted f y (.node .fileGroup trees)) :
    ∃ n k ys, y = .node n k .fileGroup ys ∧ Tree.Spec.CountedAll f ys trees ∧ seen v = byFile ys ∧
      inside "Link" v = (links y.erase).map renderLink ∧ v = render y := by
  obtain ⟨fp, hrep⟩ := hy
  have hr := (Json.marshal_tree y a fp hrep _).mp hs.json
  have hn := renderR_ok y hr.symm
  rw [Json.renderR_named y hn] at hr
  injection hr with hr
  subst hr
  cases hc with
  | @node n k _ ys _ _ hca =>
  refine ⟨n, k, ys, rfl, hca, ?_, inside_render _ hn, rfl⟩
  simp only [Annot.erase, Labelled] at hn
  exact seen_render (counted_files hs.files hca).1 hn.2

theorem returns_text {e : Env} {m : Rpc.Method} {a : Arg} {v : Json} {t : Str}
    (h : Returns e m a v (some t)) : t ≠ [] := by
  cases h with
  | tooOld => decide
  | captureErr _ h => exact h
  | noUrls => decide
  | @mentionsErr _ _ err _ _ _ _ h =>
    cases err with
    | noFiles => cases h; decide
    | noLinks => cases h; decide
    | file => exact h
  | visitErr _ h => exact h
  | linkSetErr _ _ h => exact h

theorem name_unique {c c' : Call} {name : Str} (h : c.Name name) (h' : c'.Name name) :
    reached c = reached c' := by
  have h1 := (Rpc.c09_exact name _).mpr ⟨c, h, rfl⟩
  have h2 := (Rpc.c09_exact name _).mpr ⟨c', h', rfl⟩
  rw [h1] at h2
  injection h2 with h2

/-- A result is that of the method called with the argument in the request. -/
theorem answered {Id : Type} {e : Env} {r : Request Id Json} {v : Json} {c : Call}
    (hc : c.Name r.method) (h : Answers (world e) r (.result v)) :
    ∃ p arg, r.params = some p ∧ argument (reached c) p = some arg ∧
      Returns e (reached c) arg v none := by
  have hu : ∀ {m p} {x : Arg}, (world e).unmarshal m p = .ok x → argument m p = some x := by
    intro m p x h
    simp only [world] at h
    split at h
    · rename_i a ha; injection h with h; rw [ha, h]
    · cases h
  cases h with
  | badParamsSilent _ _ h =>
    simp only [world] at h
    split at h <;> cases h
  | result hc' hp hun hret =>
    have heq : Rpc.Server.Calls.method _ = reached c := name_unique hc' hc
    rw [heq] at hun hret
    exact ⟨_, _, hp, hu hun, hret⟩
  | failedSilent _ _ _ hret => exact absurd rfl (returns_text hret)

theorem linksAll_index {e : Env} {ws : List Source} {trees : List Tree}
    (ha : All₂ (IsFileTree e.find (fun _ => true) e.files) ws trees) :
    linksAll trees = ws.flatMap fun src =>
      found (e.find.of src.kind) (fun _ => true) 1 (fileLines e.files src) := by
  induction ha with
  | nil => rfl
  | cons hr _ ih =>
    obtain ⟨cs, rfl, _, _, hp, -⟩ := hr
    rw [linksAll, links, List.flatMap_cons, ih, fileTree_links hp]

theorem withLinks_iff {e : Env} {src : Source} :
    src ∈ withLinks e.find (fun _ => true) e.files e.sources ↔ src ∈ e.sources ∧
      found (e.find.of src.kind) (fun _ => true) 1 (fileLines e.files src) ≠ [] := by
  unfold withLinks
  rw [List.mem_filter, ← Extract.fileTrace_links e.find (fun _ => true) src.kind _ (fun _ _ => rfl)]
  simp

theorem flatMap_withLinks (e : Env) (l : List Source) :
    (withLinks e.find (fun _ => true) e.files l).flatMap (fun src =>
      found (e.find.of src.kind) (fun _ => true) 1 (fileLines e.files src)) = l.flatMap (fun src =>
      found (e.find.of src.kind) (fun _ => true) 1 (fileLines e.files src)) := by
  induction l with
  | nil => rfl
  | cons s l ih =>
    unfold withLinks at ih ⊢
    rw [List.filter_cons]
    split
    · rw [List.flatMap_cons, List.flatMap_cons, ih]
    · rename_i hne
      rw [List.flatMap_cons, ih,
        ← Extract.fileTrace_links e.find (fun _ => true) s.kind _ (fun _ _ => rfl)]
      simp only [Bool.not_eq_true', Bool.not_eq_false, List.isEmpty_iff] at hne
      rw [hne]; rfl

theorem Served.asked {e : Env} {q : Tree.MentionsQuery} {v : Json} {order h g trees h' a}
    (hs : Served e q v order h g trees h' a) (f : Str → Bool) :
    Tree.Spec.matches_ (fun l => f l.url) (.node .fileGroup trees) = demand e f := by
  unfold Tree.Spec.matches_ demand allLinks
  rw [links, linksAll_index hs.files, flatMap_withLinks]

/-- C62: everything in a reply to `urlMentions` is written in the files: an object of a link is
inside of an object of a file, the file is one of the source files, its line has this link, and the
address is asked for by the query in the request. -/
theorem c62_sound {Id : Type} {e : Env} {r : Request Id Json} {v : Json}
    (hc : Call.urlMentions.Name r.method) (h : Answers (world e) r (.result v)) :
    ∃ p q, r.params = some p ∧ argument .urlMentions p = some (.urlMentions q) ∧
      (∀ path url n, (path, url, n) ∈ seen v → Written e path url n ∧ Asked q url) ∧
      (inside "Link" v).length = (seen v).length := by
  obtain ⟨p, arg, hp, ha, hret⟩ := answered hc h
  have hq : ∃ q, arg = .urlMentions q := by
    simp only [argument, reached, Option.map_eq_some_iff] at ha
    obtain ⟨q, _, rfl⟩ := ha
    exact ⟨q.query, rfl⟩
  obtain ⟨q, rfl⟩ := hq
  refine ⟨p, q, hp, ha, ?_⟩
  obtain ⟨order, hp, g, trees, h', a, hs⟩ := Returns.served hret
  have hf : Tree.Decides q fun l => decide (l.url ∈ Tree.mentionVariants order q) := fun l => by
    rw [decide_eq_true_iff, Tree.mentionVariants_mem hs.orders]
  obtain ⟨y, hy, hcount⟩ := Tree.c18_counts hs.orders hs.rep q hs.asks hf hs.reply
  obtain ⟨n, k, ys, rfl, hca, hseen, hin, hv⟩ := hs.seen hy hcount
  clear hv
  obtain ⟨hfiles, hwr⟩ := counted_files hs.files hca
  constructor
  · intro path url n hx
    rw [hseen] at hx
    obtain ⟨src, hsrc, l, hl, hfl, he⟩ := hwr _ hx
    injection he with h1 h2
    injection h2 with h2 h3
    subst h1 h2 h3
    exact ⟨written_found (withLinks_iff.mp hsrc).1 hl, (hf l).mp hfl⟩
  · rw [hin, hseen, List.length_map]
    simp only [Annot.erase, links]
    clear hin hseen hca hy hcount hwr
    induction hfiles with
    | nil => rfl
    | cons _ _ ih =>
      rw [byFile, Annot.eraseAll, Annot.erase, linksAll, links, List.length_append,
        List.length_append, List.length_map, ih]

theorem Served.json_tree {e : Env} {q : Tree.MentionsQuery} {v : Json} {order h g trees h' a}
    (hs : Served e q v order h g trees h' a) {y : Annot} (hy : Tree.IsReply h' a y) :
    inside "Link" v = (links y.erase).map renderLink := by
  obtain ⟨fp, hrep⟩ := hy
  have hr := (Json.marshal_tree y a fp hrep _).mp hs.json
  have hn := renderR_ok y hr.symm
  rw [Json.renderR_named y hn] at hr
  injection hr with hr
  subst hr
  exact inside_render _ hn

/-- C62: there are no more links in the result than the query allows. -/
theorem c62_limit {Id : Type} {e : Env} {r : Request Id Json} {v : Json} {p : Json}
    {q : Tree.MentionsQuery} {f : Str → Bool} (hf : ∀ u, f u = true ↔ Asked q u)
    (hc : Call.urlMentions.Name r.method) (h : Answers (world e) r (.result v))
    (hp : r.params = some p) (hq : argument .urlMentions p = some (.urlMentions q))
    (hL : 0 ≤ q.limit) (hm : demand e f < 2 ^ 31) :
    ((inside "Link" v).length : Int) ≤ q.limit := by
  obtain ⟨p', arg, hp', ha, hret⟩ := answered hc h
  obtain rfl := Option.some.inj (hp.symm.trans hp')
  obtain rfl := Option.some.inj (hq.symm.trans ha)
  obtain ⟨order, hp, g, trees, h', a, hs⟩ := Returns.served hret
  have hm' : Tree.Spec.matches_ (fun l => f l.url) (.node .fileGroup trees) < 2 ^ 31 := by
    rw [hs.asked]; exact hm
  obtain ⟨y, hy, _, hle⟩ := Tree.c19_limit hs.orders hs.rep q hs.asks (decides hf) hL hm' hs.reply
  rw [hs.json_tree hy, List.length_map]
  exact hle

/-- C62: if the query allows as many links as there are, then every file with an address that is
asked for is shown with this address. -/
theorem c62_complete {Id : Type} {e : Env} {r : Request Id Json} {v : Json} {p : Json}
    {q : Tree.MentionsQuery} {f : Str → Bool} (hf : ∀ u, f u = true ↔ Asked q u)
    (hc : Call.urlMentions.Name r.method) (h : Answers (world e) r (.result v))
    (hp : r.params = some p) (hq : argument .urlMentions p = some (.urlMentions q))
    (hm : demand e f ≤ q.limit) (hlt : demand e f * q.limit < 2 ^ 63) {path url : Str} {n : Int}
    (hw : Written e path url n) (hasked : Asked q url) : ∃ n', (path, url, n') ∈ seen v := by
  obtain ⟨p', arg, hp', ha, hret⟩ := answered hc h
  obtain rfl := Option.some.inj (hp.symm.trans hp')
  obtain rfl := Option.some.inj (hq.symm.trans ha)
  obtain ⟨order, hp, g, trees, h', a, hs⟩ := Returns.served hret
  have hL : 0 ≤ q.limit := by
    have : 0 ≤ demand e f := by unfold demand; omega
    omega
  obtain ⟨h2, a2, y, he, hy, hlim⟩ := Tree.limited_reply hs.orders hs.rep q hs.asks (decides hf) hL
    (by rw [hs.asked]; exact hlt) hs.reply
  injection he with he
  injection he with he1 he2
  subst he1 he2
  obtain ⟨n0, k0, ys, rfl, hca, hseen, _, _⟩ := hs.seen hy hlim.counted
  have hfull := hlim.full (by rw [hs.asked]; exact hm)
  have hsh := hlim.shared
  cases hsh with
  | node h1 h2 h3 =>
  obtain ⟨g1, g2, g3⟩ := shared_files hs.files h3
  rw [Annot.erase, links, matching] at hfull
  have heq := g1.eq_of_length (by rw [g2, g3, hfull])
  obtain ⟨src, hsrc, rfl, i, line, k, hline, hk, rfl, _⟩ := hw
  have hl : (⟨k.url, k.descr, (i : Int) + 1⟩ : Link) ∈
      found (e.find.of src.kind) (fun _ => true) 1 (fileLines e.files src) :=
    (Extract.c25_lineNo _ _ _ _).mpr ⟨i, line, k, hline, hk, rfl, rfl⟩
  have hsrc' : src ∈ withLinks e.find (fun _ => true) e.files e.sources :=
    withLinks_iff.mpr ⟨hsrc, fun h => by rw [h] at hl; cases hl⟩
  obtain ⟨n', hn'⟩ := byTree_complete hs.files hsrc' hl (f := fun l => f l.url)
    ((hf k.url).mpr hasked)
  exact ⟨n', by rw [hseen, heq]; exact hn'⟩

/-! ### Numbers of links -/

theorem matching_none {f : Link → Bool} {t : Tree} (h : matching f t = []) :
    Tree.Spec.matches_ f t = 0 := by
  unfold Tree.Spec.matches_
  cases hl : (links t).filter f with
  | nil => rfl
  | cons l ls =>
    have hm : l ∈ (links t).filter f := by rw [hl]; simp
    rw [List.mem_filter] at hm
    obtain ⟨l', h1, _⟩ := matching_complete f t hm.1 hm.2
    rw [h] at h1
    cases h1

theorem matchingAll_none {f : Link → Bool} {ts : List Tree} (h : matchingAll f ts = []) :
    ∀ t ∈ ts, Tree.Spec.matches_ f t = 0 := by
  induction ts with
  | nil => intro t ht; cases ht
  | cons t ts ih =>
    rw [matchingAll, List.append_eq_nil_iff] at h
    intro x hx
    rcases List.mem_cons.mp hx with rfl | hx
    · exact matching_none h.1
    · exact ih h.2 x hx

theorem matches_zero {f : Link → Bool} {ts : List Tree}
    (h : ∀ t ∈ ts, Tree.Spec.matches_ f t = 0) : ((linksAll ts).filter f).length = 0 := by
  induction ts with
  | nil => rfl
  | cons t ts ih =>
    have h1 := h t (by simp)
    have h2 := ih fun x hx => h x (by simp [hx])
    unfold Tree.Spec.matches_ at h1
    rw [linksAll, List.filter_append, List.length_append]
    omega

/-- The only file that is shown is the only one with matches if nothing has been left out. -/
theorem shared_one {f : Link → Bool} {sh : List (Option Int)} {ts : List Tree} {c : Annot}
    (h : SharedAll f sh ts [c]) (hl : (matchingAll f ts).length ≤ (links c.erase).length) :
    ∃ pre t post, ts = pre ++ t :: post ∧ ∀ x ∈ pre ++ post, Tree.Spec.matches_ f x = 0 := by
  generalize hy : [c] = ys at h
  induction ts generalizing sh with
  | nil => cases h; cases hy
  | cons t ts ih =>
    subst hy
    cases h with
    | keep hs hr =>
      have h1 := (shared_links hs).length_le
      rw [matchingAll, List.length_append] at hl
      have h2 : matchingAll f ts = [] := List.length_eq_zero_iff.mp (by omega)
      exact ⟨[], t, ts, rfl, matchingAll_none h2⟩
    | drop hr =>
      have h3 : ∀ {sh : List (Option Int)} {ts : List Tree} {ys : List Annot}, SharedAll f sh ts ys →
          (linksAll (Annot.eraseAll ys)).length ≤ (matchingAll f ts).length := by
        intro sh ts ys h
        induction ts generalizing sh ys with
        | nil => cases h; exact Nat.le_refl _
        | cons t ts ih =>
          cases h with
          | keep hs hr =>
            have := ih hr
            have h1 := (shared_links hs).length_le
            rw [Annot.eraseAll, linksAll, matchingAll, List.length_append, List.length_append]
            omega
          | drop hr =>
            have := ih hr
            rw [matchingAll, List.length_append]
            omega
      have h4 := h3 hr
      rw [matchingAll, List.length_append] at hl
      simp only [Annot.eraseAll, linksAll, List.append_nil] at h4
      have h5 : matching f t = [] := List.length_eq_zero_iff.mp (by omega)
      obtain ⟨pre, t', post, rfl, h6⟩ := ih (by omega) hr
      refine ⟨t :: pre, t', post, rfl, ?_⟩
      intro x hx
      rcases List.mem_cons.mp hx with rfl | hx
      · exact matching_none h5
      · exact h6 x hx

theorem counted_one {f : Link → Bool} {ts : List Tree} {c : Annot}
    (h : Tree.Spec.CountedAll f [c] ts) : ∃ t ∈ ts, Tree.Spec.Counted f c t ∧ 0 < c.total := by
  generalize hy : [c] = ys at h
  induction ts with
  | nil => cases h; cases hy
  | cons t ts ih =>
    subst hy
    cases h with
    | keep h1 h2 _ => exact ⟨t, by simp, h1, h2⟩
    | drop h =>
      obtain ⟨t', h1, h2⟩ := ih h
      exact ⟨t', by simp [h1], h2⟩

theorem counted_total {f : Link → Bool} {c : Annot} {t : Tree} (h : Tree.Spec.Counted f c t) :
    c.total = Tree.Spec.matches_ f t := by
  cases h with
  | body h _ => exact h
  | node h _ => exact h

/-- C62, for a query that allows as many links as there are: the number `total` of a reply is the
number of links of all files that are asked for.  Missing: other limits, see
`c62_violation_total`. -/
theorem c62_total_partial {Id : Type} {e : Env} {r : Request Id Json} {v : Json} {p : Json}
    {q : Tree.MentionsQuery} {f : Str → Bool} (hf : ∀ u, f u = true ↔ Asked q u)
    (hc : Call.urlMentions.Name r.method) (h : Answers (world e) r (.result v))
    (hp : r.params = some p) (hq : argument .urlMentions p = some (.urlMentions q))
    (hm : demand e f ≤ q.limit) (hlt : demand e f * q.limit < 2 ^ 63) :
    numberOf "total" v = demand e f := by
  obtain ⟨p', arg, hp', ha, hret⟩ := answered hc h
  obtain rfl := Option.some.inj (hp.symm.trans hp')
  obtain rfl := Option.some.inj (hq.symm.trans ha)
  obtain ⟨order, hp, g, trees, h', a, hs⟩ := Returns.served hret
  have hL : 0 ≤ q.limit := by
    have : 0 ≤ demand e f := by unfold demand; omega
    omega
  obtain ⟨h2, a2, y, he, hy, hlim⟩ := Tree.limited_reply hs.orders hs.rep q hs.asks (decides hf) hL
    (by rw [hs.asked]; exact hlt) hs.reply
  injection he with he
  injection he with he1 he2
  subst he1 he2
  obtain ⟨n0, k0, ys, rfl, hca, -, -, hv⟩ := hs.seen hy hlim.counted
  have hfull := hlim.full (by rw [hs.asked]; exact hm)
  have htot := hlim.total
  rw [hs.asked] at htot
  have hsh := hlim.shared
  have hfiles := (counted_files hs.files hca).1
  cases hsh with
  | node _ _ h3 =>
  rw [Annot.erase, links, matching] at hfull
  match ys, hfiles, hca, h3, hfull, hv with
  | [], _, _, _, _, hv =>
    rw [hv, render]
    exact htot
    intro c hc; cases hc
  | _ :: _ :: _, _, _, _, _, hv =>
    rw [hv, render]
    exact htot
    intro c hc; cases hc
  | [c], hfiles, hca, h3, hfull, hv =>
    cases hfiles with
    | @cons n k path cs _ hin _ =>
    rw [hv, render, render]
    show n = demand e f
    obtain ⟨pre, t, post, ht, hz⟩ := shared_one h3 (by
      rw [← hfull]; simp [Annot.eraseAll, linksAll])
    obtain ⟨t', hmem, hct, hpos⟩ := counted_one hca
    have htt := counted_total hct
    have heq : t' = t := by
      rw [ht] at hmem
      simp only [List.mem_append, List.mem_cons] at hmem
      rcases hmem with hm | rfl | hm
      · have := hz t' (by simp [hm]); omega
      · rfl
      · have := hz t' (by simp [hm]); omega
    subst heq
    have h1 := matches_zero (f := fun l => f l.url) (ts := pre) fun x hx => hz x (by simp [hx])
    have h2 := matches_zero (f := fun l => f l.url) (ts := post) fun x hx => hz x (by simp [hx])
    rw [← hs.asked f]
    show n = _
    rw [show n = (Annot.node n k (.file path) cs).total from rfl, htt]
    unfold Tree.Spec.matches_
    rw [links, ht]
    have happ : ∀ a b : List Tree, linksAll (a ++ b) = linksAll a ++ linksAll b := by
      intro a b
      induction a with
      | nil => rfl
      | cons x a ih => rw [List.cons_append, linksAll, linksAll, ih, List.append_assoc]
    rw [happ, linksAll, List.filter_append, List.filter_append, List.length_append,
      List.length_append]
    omega

/-! ### Other methods, sessions -/

namespace Spec

/-- A reply to `hello` with these offers. -/
structure Greeting (e : Env) (fs : List HelloFormat) (v : Json) : Prop where
  format : member "format" v = some (.str "org-protocol".toList)
  version : ∃ f, FirstOffered fs f ∧ member "version" v = some (.str f.version)
  options : member "options" v = some (.obj [("clipboardForBody".toList, .bool false)])
  capabilities : member "capabilities" v = some (
    if e.sources = [] then .null
    else if e.disableLinkSet then .arr [.str "visit".toList, .str "urlMentions".toList]
    else .arr [.str "visit".toList, .str "urlMentions".toList, .str "linkSet".toList])

/-- A reply to a request to capture: something is wrong with the query and a preview is needed, or
the link has been passed to the editor. -/
def Captured (q : Emacs.CaptureQuery) (v : Json) : Prop :=
  q.format = "org-protocol".toList ∧
  ((q.hasError = true ∧ member "preview" v = some (.bool true) ∧
      member "status" v = some (.str "preview".toList)) ∨
    (q.hasError = false ∧ "org-protocol:".toList <+: q.url ∧
      member "preview" v = some (.bool false) ∧
      member "status" v = some (.str "success".toList)))

end Spec

/-- C62: a result of `visit` means that the file named in the request is a source file. -/
theorem c62_visit {Id : Type} {e : Env} {r : Request Id Json} {v : Json}
    (hc : Call.visit.Name r.method) (h : Answers (world e) r (.result v)) :
    ∃ p q, r.params = some p ∧ argument .visit p = some (.visit q) ∧ v = .bool true ∧
      ∃ src ∈ e.sources, src.name = q.filePath := by
  obtain ⟨p, arg, hp, ha, hret⟩ := answered hc h
  cases hret with
  | visit hrun =>
    obtain ⟨rfl, hmem, _⟩ := Emacs.c34_success _ _ _ _ _ _ _ hrun
    obtain ⟨src, hs, hn⟩ := List.mem_map.mp hmem
    exact ⟨p, _, hp, ha, rfl, src, hs, hn⟩

/-- C62: a result of `hello` answers the first offer of the format and tells what is configured.  If
there are no files, then the list of capabilities is `null`. -/
theorem c62_hello {Id : Type} {e : Env} {r : Request Id Json} {v : Json}
    (hc : Call.hello.Name r.method) (h : Answers (world e) r (.result v)) :
    ∃ p fs, r.params = some p ∧ argument .hello p = some (.hello fs) ∧ Greeting e fs v := by
  obtain ⟨p, arg, hp, ha, hret⟩ := answered hc h
  cases hret with
  | @hello fs r hr =>
    obtain ⟨h1, h2, ⟨f, hf, h3⟩, _⟩ := c39_reply _ _ _ _ hr
    have hcap : r.capabilities = capabilities e.backend := by
      unfold hello at hr
      split at hr
      · cases hr
      · cases hr; rfl
    refine ⟨p, fs, hp, ha, ⟨?_, ⟨f, hf, ?_⟩, ?_, ?_⟩⟩
    · rw [← h1]; rfl
    · rw [← h3]; rfl
    · rw [← h2]; rfl
    · show some (strings r.capabilities) = _
      rw [hcap]
      unfold capabilities Env.backend newBackend
      cases hs : e.sources with
      | nil => rfl
      | cons s ss => cases e.disableLinkSet <;> rfl

/-- C62: a result of `capture` tells that a preview is needed, exactly if the query has an error, or
that the capture has been done; then `Emacs.c36_success` tells what the editor has been asked for. -/
theorem c62_capture {Id : Type} {e : Env} {r : Request Id Json} {v : Json}
    (hc : Call.capture.Name r.method) (h : Answers (world e) r (.result v)) :
    ∃ p q, r.params = some p ∧ argument .capture p = some (.capture q) ∧ Captured q v := by
  obtain ⟨p, arg, hp, ha, hret⟩ := answered hc h
  cases hret with
  | @capture q ed cfg w r w' hrun =>
    refine ⟨p, q, hp, ha, ?_⟩
    have hfmt : q.format = "org-protocol".toList := by
      refine Classical.byContradiction fun hne => ?_
      unfold Emacs.capture at hrun
      rw [if_pos hne] at hrun
      cases hrun
    cases hq : q.hasError with
    | true =>
      rw [Emacs.c36_preview ed cfg q w hfmt hq] at hrun
      cases hrun
      exact ⟨hfmt, .inl ⟨hq, rfl, rfl⟩⟩
    | false =>
      rcases Emacs.c36_answers ed cfg q w with ⟨x, hx⟩ | hx | ⟨hx, _⟩
      · rw [hrun] at hx; cases hx
      · rw [hrun] at hx
        cases hx
        obtain ⟨_, _, hu, _⟩ := (Emacs.c36_success ed cfg q w w').mp hrun
        exact ⟨hfmt, .inr ⟨hq, hu, rfl, rfl⟩⟩
      · rw [hq] at hx; cases hx

/-- A list of links: each one occurs once, begins with one of the prefixes and is written in a line
of a source file as it is at some moment. -/
def Spec.Listed (e : Env) (ps : List Str) (us : List Json) : Prop :=
  us.Nodup ∧ ∃ files, e.now files ∧ ∀ u ∈ us, ∃ s, u = .str s ∧
    (∃ pre ∈ ps, Links.Spec.wanted pre <+: s) ∧
    ∃ src ∈ e.sources, ∃ line ∈ Extract.fileLines files src, Links.Spec.Within s line

/-- C62: addresses in a result of `linkSet` begin with prefixes in the request and are written in
the files, there are at most 16 prefixes, and the method has not been disabled. -/
theorem c62_linkSet {Id : Type} {e : Env} {r : Request Id Json} {v : Json}
    (hc : Call.linkSet.Name r.method) (h : Answers (world e) r (.result v)) :
    ∃ p ps us, r.params = some p ∧ argument .linkSet p = some (.linkSet ps) ∧
      member "urls" v = some (.arr us) ∧ e.disableLinkSet = false ∧ ps.length ≤ 16 ∧
      Listed e ps us := by
  obtain ⟨p, arg, hp, ha, hret⟩ := answered hc h
  cases hret with
  | @linkSet files ps urls opened hnow hls =>
    obtain ⟨_, hpre⟩ := Links.c29_prefix hls
    obtain ⟨hnd, hwr⟩ := Links.c29_written hls
    have hen : e.disableLinkSet = false ∧ ps.length ≤ 16 := by
      refine ⟨?_, ?_⟩
      · cases hd : e.disableLinkSet with
        | false => rfl
        | true =>
          obtain ⟨⟨x, hx⟩, _⟩ := Links.c31_refused (.inl (by
            show (if e.disableLinkSet = true then false else true) = false
            rw [hd]; rfl)) hls
          cases hx
      · refine Nat.le_of_not_lt fun hlt => ?_
        obtain ⟨⟨x, hx⟩, _⟩ := Links.c31_refused (.inr hlt) hls
        cases hx
    refine ⟨p, ps, urls.map .str, hp, ha, rfl, hen.1, hen.2,
      List.Pairwise.map _ (fun a b hab hx => hab (by injection hx)) hnd, files, hnow, ?_⟩
    intro u hu
    obtain ⟨s, hs, rfl⟩ := List.mem_map.mp hu
    exact ⟨s, rfl, hpre urls rfl s hs, hwr s hs⟩

namespace Spec

/-- A result is right for a request. -/
structure Right {Id : Type} (e : Env) (r : Request Id Json) (v : Json) : Prop where
  mentions : Call.urlMentions.Name r.method → ∃ p q, r.params = some p ∧
    argument .urlMentions p = some (.urlMentions q) ∧
    ∀ path url n, (path, url, n) ∈ seen v → Written e path url n ∧ Asked q url
  visit : Call.visit.Name r.method → ∃ p q, r.params = some p ∧
    argument .visit p = some (.visit q) ∧ v = .bool true ∧ ∃ src ∈ e.sources, src.name = q.filePath
  linkSet : Call.linkSet.Name r.method → ∃ p ps us, r.params = some p ∧
    argument .linkSet p = some (.linkSet ps) ∧ member "urls" v = some (.arr us) ∧
    e.disableLinkSet = false ∧ ps.length ≤ 16 ∧ Listed e ps us
  hello : Call.hello.Name r.method → ∃ p fs, r.params = some p ∧
    argument .hello p = some (.hello fs) ∧ Greeting e fs v
  capture : Call.capture.Name r.method → ∃ p q, r.params = some p ∧
    argument .capture p = some (.capture q) ∧ Captured q v

end Spec

/-- Results are right. -/
theorem right_of {Id : Type} {e : Env} {r : Request Id Json} {v : Json}
    (h : Answers (world e) r (.result v)) : Right e r v := by
  refine ⟨fun hc => ?_, fun hc => c62_visit hc h, fun hc => c62_linkSet hc h,
    fun hc => c62_hello hc h, fun hc => c62_capture hc h⟩
  obtain ⟨p, q, a, b, c, _⟩ := c62_sound hc h
  exact ⟨p, q, a, b, c⟩

/-- C62: in any session, with requests served in any order and at the same time, every response
with a result is that of its own request: with the same identifier, and right for the parameters of
this request. -/
theorem c62_session {Id : Type} {e : Env} {reqs : List (Request Id Json)} {n : Nat}
    {s : Rpc.Server.State Id Json Arg Json} (h : Rpc.Server.Steps (world e) (Rpc.Server.start reqs) n s) :
    ∃ ks : List Nat, ks.length = s.out.length ∧ ks.Nodup ∧
      ∀ (i k : Nat) p, ks[i]? = some k → s.out[i]? = some p →
        ∃ r, reqs[k]? = some r ∧ p.id = r.id ∧ ∀ v, p.body = .result v → Right e r v := by
  obtain ⟨ks, hm⟩ := Rpc.Server.c59_replies h
  refine ⟨ks, hm.length, hm.once, ?_⟩
  intro i k p hi hp
  obtain ⟨r, h1, h2, h3⟩ := hm.answers i k p hi hp
  refine ⟨r, h1, h2, ?_⟩
  intro v hv
  rw [hv] at h3
  exact right_of h3

namespace Spec

/-- A query with a limit that is not negative and not astronomic. -/
def Modest (e : Env) (q : Tree.MentionsQuery) : Prop :=
  0 ≤ q.limit ∧ ((allLinks e).length : Int) * q.limit < 2 ^ 63

end Spec

theorem mentions_total {e : Env} (hst : Extract.StepwiseFiles e.files e.sources)
    {q : Tree.MentionsQuery} (hm : Modest e q) :
    ¬Panics e .urlMentions (.urlMentions q) ∧
    (∃ v t, Returns e .urlMentions (.urlMentions q) v t) ∧
    ((∃ u ∈ q.variants, u ≠ []) → e.sources ≠ [] →
      (∀ src ∈ e.sources, Extract.fileErr e.files src = none) → (∃ path url n, Written e path url n) →
      ∀ v t, Returns e .urlMentions (.urlMentions q) v t → t = none) := by
  obtain ⟨hp, group, err, hi, hiff, htree⟩ := Extract.c27_init e.find e.files e.sources
  have hinit : ∀ {x}, Extract.initBackend e.find e.files e.sources = .ok x → x = (hp, group, err) := by
    intro x h
    rw [hi] at h
    exact (Res.ok.inj h).symm
  by_cases hall : q.variants.all (·.isEmpty) = true
  · refine ⟨?_, ⟨_, _, .noUrls hall⟩, ?_⟩
    · intro h
      cases h with
      | scan h => rw [hi] at h; cases h
      | mentions _ _ h => unfold Tree.UrlMentions at h; rw [if_pos hall] at h; cases h
      | marshal _ _ h _ => unfold Tree.UrlMentions at h; rw [if_pos hall] at h; cases h
    · rintro ⟨u, hu, hne⟩
      rw [List.all_eq_true] at hall
      exact absurd (List.isEmpty_iff.mp (hall u hu)) hne
  have hasks : ∃ u ∈ q.variants, u ≠ [] := by
    have h := hall
    rw [List.all_eq_true] at h
    simp only [not_forall] at h
    obtain ⟨u, hu, hne⟩ := h
    exact ⟨u, hu, fun h => hne (by rw [h]; rfl)⟩
  cases err with
  | some x =>
    have hgood : ¬(e.sources ≠ [] ∧ (∀ src ∈ e.sources, Extract.fileErr e.files src = none) ∧
        ∃ src ∈ e.sources, found (e.find.of src.kind) (fun _ => true) 1 (fileLines e.files src) ≠ []) :=
      fun h => by cases hiff.mpr h
    refine ⟨?_, ?_, ?_⟩
    · intro h
      cases h with
      | scan h => rw [hi] at h; cases h
      | mentions _ h1 h =>
        have := hinit h1
        simp only [Prod.mk.injEq] at this
        obtain ⟨rfl, rfl, rfl⟩ := this
        unfold Tree.UrlMentions at h; rw [if_neg hall] at h; cases h
      | marshal _ h1 h _ =>
        have := hinit h1
        simp only [Prod.mk.injEq] at this
        obtain ⟨rfl, rfl, rfl⟩ := this
        unfold Tree.UrlMentions at h; rw [if_neg hall] at h; cases h
    · have ht : ∃ t, initText x t := by
        cases x with
        | noFiles => exact ⟨_, rfl⟩
        | noLinks => exact ⟨_, rfl⟩
        | file _ => exact ⟨"x".toList, show "x".toList ≠ [] by decide⟩
      obtain ⟨t, ht⟩ := ht
      exact ⟨_, _, .mentionsErr hall hi ht⟩
    · intro _ hne hfe ⟨path, url, n, src, hsrc, _, i, line, k, hline, hk, _⟩
      refine absurd ⟨hne, hfe, src, hsrc, ?_⟩ hgood
      intro hnil
      have := (Extract.c25_lineNo _ (fun _ => true) _ _).mpr ⟨i, line, k, hline, hk, rfl, rfl⟩
      rw [hnil] at this
      cases this
  | none =>
  obtain ⟨g, trees, rfl, hrep, ha⟩ := htree rfl
  have hd : ∀ order, Tree.Orders order → Tree.Decides q fun l =>
      decide (l.url ∈ Tree.mentionVariants order q) := fun order ho l => by
    rw [decide_eq_true_iff, Tree.mentionVariants_mem ho]
  have hmod : ∀ f : Link → Bool, Tree.Spec.matches_ f (.node .fileGroup trees) * q.limit < 2 ^ 63 := by
    intro f
    refine Int.lt_of_le_of_lt ?_ hm.2
    refine Int.mul_le_mul_of_nonneg_right ?_ hm.1
    unfold Tree.Spec.matches_ allLinks
    rw [links, linksAll_index ha, flatMap_withLinks]
    exact Int.ofNat_le.mpr (List.length_filter_le _ _)
  have hout : ∀ {order h' group' err' r}, Tree.Orders order →
      Extract.initBackend e.find e.files e.sources = .ok (h', group', err') →
      Tree.UrlMentions order h' (rootOf group' err') q r →
      ∃ h2 a y, r = .ok (h2, a) ∧ Tree.IsReply h2 a y ∧ ∀ r, Json.Marshal h2 a r ↔ r = .ok (render y) := by
    intro order h' group' err' r ho h1 h2
    have := hinit h1
    simp only [Prod.mk.injEq] at this
    obtain ⟨rfl, rfl, rfl⟩ := this
    obtain ⟨h3, a, y, rfl, _, _⟩ := Tree.limited_reply ho hrep q hasks (hd order ho) hm.1 (hmod _) h2
    obtain ⟨y, hy, hj⟩ := Extract.c26_serialised_partial e.find e.files e.sources hst hi ho q hasks h2
    exact ⟨h3, a, y, rfl, hy, hj⟩
  refine ⟨?_, ?_, ?_⟩
  · intro h
    cases h with
    | scan h => rw [hi] at h; cases h
    | mentions ho h1 h =>
      obtain ⟨_, _, _, h2, _⟩ := hout ho h1 h
      cases h2
    | marshal ho h1 h hj =>
      obtain ⟨_, _, _, h2, _, h3⟩ := hout ho h1 h
      obtain ⟨rfl, rfl⟩ := Prod.mk.inj (Res.ok.inj h2)
      cases (h3 _).mp hj
  · have ho : Tree.Orders fun _ => Url.replacements := fun _ => List.Perm.refl _
    obtain ⟨r, hr⟩ := (Tree.urlMentions_spec ho hrep q hasks (hd _ ho)).1
    obtain ⟨h2, a, y, rfl, _, hj⟩ := hout ho hi hr
    exact ⟨_, _, .mentions ho hi hr ((hj _).mpr rfl)⟩
  · intro _ _ _ _ v t hret
    cases hret with
    | mentions => rfl
    | noUrls h => exact absurd h hall
    | mentionsErr _ h1 _ =>
      have := hinit h1
      simp at this

/-- C62, for files with outlines that go deeper step by step: a query with an address, a limit that
is not negative and readable files some of which have links gets a result and does not end the
process.  Missing: outlines that skip a level, see `Extract.c26_violation_skipped_level`. -/
theorem c62_result_partial {Id : Type} {e : Env}
    (hst : Extract.StepwiseFiles e.files e.sources) {r : Request Id Json} {p : Json}
    {q : Tree.MentionsQuery} (hc : Call.urlMentions.Name r.method) (hp : r.params = some p)
    (hq : argument .urlMentions p = some (.urlMentions q)) (hm : Modest e q)
    (hasks : ∃ u ∈ q.variants, u ≠ [])
    (hread : ∀ src ∈ e.sources, Extract.fileErr e.files src = none)
    (hlinks : ∃ path url n, Written e path url n) :
    (∃ b, Answers (world e) r b) ∧ ∀ b, Answers (world e) r b → ∃ v, b = .result v := by
  obtain ⟨h1, ⟨v, t, h2⟩, h3⟩ := mentions_total hst hm
  have hne : e.sources ≠ [] := by
    obtain ⟨_, _, _, src, hs, _⟩ := hlinks
    exact fun h => by rw [h] at hs; cases hs
  have h4 := h3 hasks hne hread hlinks
  have hun : (world e).unmarshal .urlMentions p = .ok (.urlMentions q) := by
    simp only [world, hq]
  obtain rfl := h4 _ _ h2
  refine ⟨⟨_, .result hc hp hun h2⟩, ?_⟩
  intro b hb
  have huse : ∀ {c' : Call} {p'}, c'.Name r.method → r.params = some p' →
      Rpc.Server.Calls.method c' = Rpc.Method.urlMentions ∧ p' = p := by
    intro c' p' hc' hp'
    exact ⟨name_unique hc' hc, Option.some.inj (hp'.symm.trans hp)⟩
  cases hb with
  | unknown h => exact absurd hc (h _)
  | noParams h => rw [hp] at h; cases h
  | badParams hc' hp' h =>
    obtain ⟨e1, rfl⟩ := huse hc' hp'
    rw [e1, hun] at h; cases h
  | badParamsSilent hc' hp' h =>
    obtain ⟨e1, rfl⟩ := huse hc' hp'
    rw [e1, hun] at h; cases h
  | result => exact ⟨_, rfl⟩
  | failed hc' hp' h hret =>
    obtain ⟨e1, rfl⟩ := huse hc' hp'
    rw [e1] at h hret
    rw [hun] at h
    cases h
    cases h4 _ _ hret
  | failedSilent hc' hp' h hret => exact ⟨_, rfl⟩

theorem returns_of {e : Env} (hnow : ∃ files, e.now files) {c : Call} {p : Json} {a : Arg}
    (ha : argument (reached c) p = some a)
    (hm : ∀ q, a = .urlMentions q → (∃ v t, Returns e .urlMentions (.urlMentions q) v t) ∧
      ¬Panics e .urlMentions (.urlMentions q)) :
    (∃ v t, Returns e (reached c) a v t) ∧ ¬Panics e (reached c) a := by
  have hed : Emacs.Spec.Editor := fun _ _ => ⟨[], .success⟩
  have cfg : Emacs.Config := ⟨[], []⟩
  have hx : ("x".toList : Str) ≠ [] := by decide
  cases c with
  | hello =>
    simp only [argument, reached, Option.map_eq_some_iff] at ha
    obtain ⟨fs, _, rfl⟩ := ha
    refine ⟨?_, fun h => by cases h⟩
    cases hh : hello e.backend fs.shown with
    | ok r => exact ⟨_, _, .hello hh⟩
    | err x => exact ⟨_, _, .tooOld hh⟩
    | panic =>
      unfold hello at hh
      split at hh <;> cases hh
  | capture =>
    simp only [argument, reached, Option.map_eq_some_iff] at ha
    obtain ⟨q, _, rfl⟩ := ha
    refine ⟨?_, fun h => by cases h⟩
    cases hh : (Emacs.capture q).run hed cfg [] with
    | mk r w =>
      cases r with
      | ok r => exact ⟨_, _, .capture hh⟩
      | error x => exact ⟨_, _, .captureErr hh hx⟩
  | visit =>
    simp only [argument, reached, Option.map_eq_some_iff] at ha
    obtain ⟨q, _, rfl⟩ := ha
    refine ⟨?_, fun h => by cases h⟩
    cases hh : (Emacs.visit (e.sources.map (·.name)) q).run hed cfg [] with
    | mk r w =>
      cases r with
      | ok r => exact ⟨_, _, .visit hh⟩
      | error x => exact ⟨_, _, .visitErr hh hx⟩
  | urlMentions =>
    simp only [argument, reached, Option.map_eq_some_iff] at ha
    obtain ⟨q, _, rfl⟩ := ha
    exact hm q.query rfl
  | linkSet =>
    simp only [argument, reached, Option.map_eq_some_iff] at ha
    obtain ⟨⟨ps, _⟩, _, rfl⟩ := ha
    have hnp : ¬Panics e .linkSet (.linkSet ps) := by
      intro h
      cases h with
      | linkSet _ h => exact (Links.c29_prefix h).1 rfl
    refine ⟨?_, hnp⟩
    obtain ⟨files, hfiles⟩ := hnow
    cases hen : e.backend.linkSetImpl with
    | false => exact ⟨_, _, .linkSetErr hfiles (.disabled hen) hx⟩
    | true =>
      by_cases hl : ps.length > Links.prefixLimit
      · exact ⟨_, _, .linkSetErr hfiles (.tooMany hen hl) hx⟩
      · have hl : ps.length ≤ Links.prefixLimit := Nat.le_of_not_lt hl
        cases hg : Links.setGroup e.letter files ps e.sources [] with
        | panic => exact absurd (.linkSet hfiles (.panic hen hl hg)) hnp
        | err x => exact x.elim
        | ok x =>
          obtain ⟨res, err, opened⟩ := x
          cases err with
          | none => exact ⟨_, _, .linkSet hfiles (.ok hen hl hg (List.Perm.refl _))⟩
          | some x => exact ⟨_, _, .linkSetErr hfiles (.err hen hl hg) hx⟩

theorem returns_exists {e : Env} (hst : Extract.StepwiseFiles e.files e.sources)
    (hnow : ∃ files, e.now files) {c : Call} {p : Json} {a : Arg}
    (ha : argument (reached c) p = some a)
    (hm : ∀ q, a = .urlMentions q → Modest e q) :
    (∃ v t, Returns e (reached c) a v t) ∧ ¬Panics e (reached c) a :=
  returns_of hnow ha fun _ hq =>
    have h := mentions_total hst (hm _ hq)
    ⟨h.2.1, h.1⟩

/-- C62, for files with outlines that go deeper step by step and limits that are not negative: the
process is not ended by any requests, and each of them gets a response unless the output is closed.
Missing: outlines that skip a level, see `Extract.c26_violation_skipped_level`. -/
theorem c62_every_request_partial {Id : Type} {e : Env}
    (hst : Extract.StepwiseFiles e.files e.sources) (hnow : ∃ files, e.now files)
    {reqs : List (Request Id Json)}
    (hmod : ∀ r ∈ reqs, ∀ p q, r.params = some p →
      argument .urlMentions p = some (.urlMentions q) → Modest e q)
    {n : Nat} {s : Rpc.Server.State Id Json Arg Json}
    (h : Rpc.Server.Steps (world e) (Rpc.Server.start reqs) n s) :
    s.crashed = false ∧
    ((∀ s', Rpc.Server.Step (world e) s s' → s'.broken ≠ s.broken) → s.loop = .closed ∧
      ∃ ks, Matched (world e) reqs s.out ks ∧
        ∀ k r, reqs[k]? = some r → k ∈ ks ∨ s.broken = true) := by
  have hfine : ∀ r ∈ reqs, ∀ (c : Call) (p : Json) (a : Arg), c.Name r.method → r.params = some p →
      (world e).unmarshal (reached c) p = .ok a →
      (∃ v t, Returns e (reached c) a v t) ∧ ¬Panics e (reached c) a := by
    intro r hr c p a hc hp hu
    have ha : argument (reached c) p = some a := by
      simp only [world] at hu
      split at hu
      · rename_i x hx; injection hu with hu; rw [hx, hu]
      · cases hu
    refine returns_exists hst hnow ha ?_
    rintro q rfl
    refine hmod r hr p q hp ?_
    cases c <;> simp only [argument, reached, Option.map_eq_some_iff] at ha <;>
      obtain ⟨_, h1, h2⟩ := ha <;> cases h2
    simp only [argument, h1, Option.map_some]
  have hcr : s.crashed = false := by
    cases hc : s.crashed with
    | false => rfl
    | true =>
      obtain ⟨r, hr, c, p, a, h1, h2, h3, h4⟩ := Rpc.Server.c59_crash h hc
      exact absurd h4 (hfine r hr c p a h1 h2 h3).2
  refine ⟨hcr, fun hstuck => ?_⟩
  have hends : ∀ r ∈ reqs, ¬Rpc.Server.NeverEnds (world e) r := by
    rintro r hr ⟨c, p, a, h1, h2, h3, h4, _⟩
    obtain ⟨⟨v, t, h5⟩, _⟩ := hfine r hr c p a h1 h2 h3
    exact h4 v t h5
  obtain ⟨⟨ks, hm, hall⟩, hclosed⟩ := Rpc.Server.c59_progress h hcr hstuck
  refine ⟨hclosed hends, ks, hm, ?_⟩
  intro k r hr
  rcases hall k r hr with h1 | h1 | ⟨v, _, h1⟩ | h1
  · exact .inl h1
  · exact .inr h1
  · cases h1
  · exact absurd h1 (hends r (List.mem_of_getElem? hr))

/-! ### Concrete files and requests -/

/-- Two text files with one line each. -/
def exTwo : Env where
  find := Extract.exFinder
  letter := fun _ => false
  sources := [⟨.txt, "a.txt".toList⟩, ⟨.txt, "b.txt".toList⟩]
  disableLinkSet := false
  files := fun _ => some (["http://a".toList], none)
  now := fun files => files = fun _ => some (["http://a".toList], none)

def exTwoTrees : List Tree :=
  [.node (.file "a.txt".toList) [.body [Tree.exLink "http://a" 1]],
   .node (.file "b.txt".toList) [.body [Tree.exLink "http://a" 1]]]

def exTwoHeap : Tree.Heap := [.node .fileGroup [1, 3], .node (.file "a.txt".toList) [2],
  .leaf [Tree.exLink "http://a" 1], .node (.file "b.txt".toList) [4],
  .leaf [Tree.exLink "http://a" 1]]

/-- A request for mentions of `http://a/` with a limit. -/
def exMentions (limit : Int) : Request Nat Json where
  id := some 7
  method := "burl.urlMentions".toList
  params := some (.arr [.obj [("variants".toList, .arr [.str "http://a/".toList]),
    ("options".toList, .obj [("countLimit".toList, .num limit)])]])

theorem exTwo_init : Extract.initBackend exTwo.find exTwo.files exTwo.sources =
    .ok (exTwoHeap, some 0, none) := rfl

theorem exTwo_rep : Tree.RepT exTwoHeap (.node .fileGroup exTwoTrees) 0 := by
  simp [exTwoTrees, exTwoHeap, Tree.RepT, Tree.RepTs]

theorem exTwo_stepwise : Extract.StepwiseFiles exTwo.files exTwo.sources := by
  intro head _ src hs hk
  simp only [exTwo, List.mem_cons, List.not_mem_nil, or_false] at hs
  rcases hs with rfl | rfl <;> cases hk

theorem exMentions_name (limit : Int) : Call.urlMentions.Name (exMentions limit).method :=
  .inl (by show "burl.urlMentions".toList = _; decide +kernel)

theorem exMentions_argument (limit : Int) (h1 : -2 ^ 63 ≤ limit) (h2 : limit < 2 ^ 63) :
    argument .urlMentions (.arr [.obj [("variants".toList, .arr [.str "http://a/".toList]),
      ("options".toList, .obj [("countLimit".toList, .num limit)])]]) =
      some (.urlMentions (Tree.exQuery (some limit))) := by
  have hp : Plain (.arr [.obj [("variants".toList, .arr (["http://a/".toList].map .str)),
      ("options".toList, .obj [("countLimit".toList, .num limit)])]]) :=
    .arr fun v hv => by
      obtain rfl := List.mem_singleton.mp hv
      refine .obj (fun m hm => ?_) (List.pairwise_pair.mpr ?_)
      rotate_left
      · show ¬Alike "variants".toList "options".toList
        decide +kernel
      simp only [List.mem_cons, List.not_mem_nil, or_false] at hm
      rcases hm with rfl | rfl
      · exact .arr fun v hv => by obtain rfl := List.mem_singleton.mp hv; exact .str
      · exact .obj (fun m hm => by obtain rfl := List.mem_singleton.mp hm; exact .num)
          (List.pairwise_singleton _ _)
  exact c61_mentions (us := ["http://a/".toList]) h1 h2 hp

/-- The reply to the query with the limit. -/
def exTwoReply (limit : Int) : Res Empty Annot :=
  Tree.filterA limit (.node (Tree.sumTotals (Tree.countAs Tree.exAccept exTwoTrees)) 0 .fileGroup
    (Tree.countAs Tree.exAccept exTwoTrees))

theorem exTwo_returns (limit : Option Int) {y : Annot} {v : Json}
    (hy : exTwoReply (Tree.exQuery limit).limit = .ok y) (hv : Json.renderR y = .ok v) :
    Returns exTwo .urlMentions (.urlMentions (Tree.exQuery limit)) v none := by
  obtain ⟨r, hr⟩ := (Tree.urlMentions_spec Tree.exOrders exTwo_rep (Tree.exQuery limit)
    (Tree.exNonempty _) (Tree.exDecides _)).1
  rcases (Tree.urlMentions_spec Tree.exOrders exTwo_rep _ (Tree.exNonempty _)
    (Tree.exDecides _)).2 _ hr with ⟨e, _⟩ | ⟨y', h3, a, e1, rfl, ⟨fp, e3⟩, _⟩
  · unfold exTwoReply at hy
    rw [e] at hy; cases hy
  · unfold exTwoReply at hy
    rw [e1] at hy
    obtain rfl := Res.ok.inj hy
    exact .mentions Tree.exOrders exTwo_init hr ((Json.marshal_tree y' a fp e3 _).mpr hv.symm)

theorem exTwo_answers (limit : Int) (h1 : -2 ^ 63 ≤ limit) (h2 : limit < 2 ^ 63) {y : Annot}
    {v : Json} (hy : exTwoReply limit = .ok y) (hv : Json.renderR y = .ok v) :
    Answers (world exTwo) (exMentions limit) (.result v) := by
  have hr : (world exTwo).returns (reached .urlMentions) (.urlMentions (Tree.exQuery (some limit))) v none :=
    exTwo_returns (some limit) hy hv
  refine .result (c := Call.urlMentions) (exMentions_name limit) rfl ?_ hr
  show (match argument .urlMentions _ with | some a => Except.ok a | none => _) = _
  rw [exMentions_argument limit h1 h2]

/-- C62 is violated by a limit that leaves one file of several: the number of matches in other files
is not in the reply.  Two files have one link each; the limit is 1; the reply has the first file
only with `"total": 1`, as if there were nothing more. -/
theorem c62_violation_total : ∃ (e : Env) (r : Request Nat Json) (p v : Json)
    (q : Tree.MentionsQuery) (f : Str → Bool), (∀ u, f u = true ↔ Asked q u) ∧
      Call.urlMentions.Name r.method ∧ r.params = some p ∧
      argument .urlMentions p = some (.urlMentions q) ∧ q.limit = 1 ∧
      Answers (world e) r (.result v) ∧ demand e f = 2 ∧ numberOf "total" v = 1 ∧
      numberOf "filtered" v = 1 := by
  have hy : ∃ y v, exTwoReply 1 = .ok y ∧ Json.renderR y = .ok v ∧ numberOf "total" v = 1 ∧
      numberOf "filtered" v = 1 := ⟨_, _, rfl, rfl, rfl, rfl⟩
  obtain ⟨y, v, hy, hv, h3, h4⟩ := hy
  refine ⟨exTwo, exMentions 1, _, v, Tree.exQuery (some 1),
    fun u => decide (u ∈ Tree.mentionVariants (fun _ => Url.replacements) (Tree.exQuery none)), ?_,
    exMentions_name 1, rfl, exMentions_argument 1 (by decide) (by decide), rfl,
    exTwo_answers 1 (by decide) (by decide) hy hv, by decide +kernel, h3, h4⟩
  intro u
  exact Tree.exDecides (some 1) ⟨u, [], 0⟩

theorem exTwo_decides (limit : Option Int) : ∀ u, decide (u ∈ Tree.mentionVariants
    (fun _ => Url.replacements) (Tree.exQuery none)) = true ↔ Asked (Tree.exQuery limit) u :=
  fun u => Tree.exDecides limit ⟨u, [], 0⟩

/-- Hypotheses of `c62_sound`, `c62_limit`, `c62_complete` and `c62_total_partial` are met: both files
are in the reply. -/
example : ∃ v, Answers (world exTwo) (exMentions 8) (.result v) ∧
    seen v = [("a.txt".toList, "http://a".toList, 1), ("b.txt".toList, "http://a".toList, 1)] ∧
    numberOf "total" v = 2 ∧ demand exTwo (fun u => decide (u ∈ Tree.mentionVariants
      (fun _ => Url.replacements) (Tree.exQuery none))) = 2 := by
  have hy : ∃ y v, exTwoReply 8 = .ok y ∧ Json.renderR y = .ok v ∧ seen v =
      [("a.txt".toList, "http://a".toList, 1), ("b.txt".toList, "http://a".toList, 1)] ∧
      numberOf "total" v = 2 := ⟨_, _, rfl, rfl, by decide +kernel, rfl⟩
  obtain ⟨y, v, hy, hv, h3, h4⟩ := hy
  exact ⟨v, exTwo_answers 8 (by decide) (by decide) hy hv, h3, h4, by decide +kernel⟩

/-- Hypotheses of `c62_result_partial` are met. -/
example : Modest exTwo (Tree.exQuery (some 8)) ∧
    (∀ src ∈ exTwo.sources, Extract.fileErr exTwo.files src = none) ∧
    Written exTwo "b.txt".toList "http://a".toList 1 :=
  ⟨⟨by decide, by decide +kernel⟩, fun _ _ => rfl, ⟨.txt, "b.txt".toList⟩, by simp [exTwo], rfl, 0,
    "http://a".toList, ⟨"http://a".toList, [], 0⟩, rfl, by decide +kernel, rfl, rfl⟩

/-- Hypotheses of `c62_visit` are met: the editor opens the second file. -/
theorem exVisit : Returns exTwo .visit (.visit ⟨"b.txt".toList, 1⟩) (.bool true) none :=
  .visit (ed := fun _ _ => ⟨[], .success⟩) (cfg := ⟨[], []⟩) (w := []) rfl

/-- Hypotheses of `c62_linkSet` are met. -/
example : ∃ v, Returns exTwo .linkSet (.linkSet ["http".toList]) v none ∧
    member "urls" v = some (.arr [.str "http://a".toList]) := by
  have hg : ∃ o, Links.setGroup exTwo.letter (fun _ => some (["http://a".toList], none))
      ["http".toList] exTwo.sources [] = .ok (["http://a".toList], none, o) :=
    ⟨["a.txt".toList, "b.txt".toList], by decide +kernel⟩
  obtain ⟨o, hg⟩ := hg
  exact ⟨_, .linkSet rfl (.ok rfl (by decide) hg (List.Perm.refl _)), rfl⟩

/-- Hypotheses of `c62_session` and `c62_every_request_partial` are met: the request for mentions
is answered last. -/
example : ∃ n s v, Rpc.Server.Steps (world exTwo) (Rpc.Server.start [exMentions 8,
      ⟨some 8, "burl.nothing".toList, none⟩,
      ⟨some 9, "burl.visit".toList, some (.arr [.obj [("file".toList, .str "b.txt".toList),
        ("lineNo".toList, .num 1)]])⟩]) n s ∧ s.loop = .closed ∧ s.broken = false ∧
    s.out = [⟨some 8, .error "rpc: can't find service unknown.burl.nothing".toList⟩,
      ⟨some 9, .result (.bool true)⟩, ⟨some 7, .result v⟩] ∧ (seen v).length = 2 := by
  have hy : ∃ y v, exTwoReply 8 = .ok y ∧ Json.renderR y = .ok v ∧ (seen v).length = 2 :=
    ⟨_, _, rfl, rfl, by decide +kernel⟩
  obtain ⟨y, v, hy, hv, h3⟩ := hy
  obtain ⟨p, arg, hp, ha, hret⟩ := answered (exMentions_name 8)
    (exTwo_answers 8 (by decide) (by decide) hy hv)
  obtain rfl := Option.some.inj hp
  have d1 : Rpc.dispatch "burl.urlMentions".toList = .ok .urlMentions := by rfl
  have d2 : Rpc.dispatch "burl.nothing".toList = .error .noService := by rfl
  have d3 : Rpc.dispatch "burl.visit".toList = .ok .visit := by rfl
  have d4 : Rpc.Server.dispatchText .noService "burl.nothing".toList =
      "rpc: can't find service unknown.burl.nothing".toList := by decide +kernel
  have d5 : argument .visit (.arr [.obj [("file".toList, .str "b.txt".toList),
        ("lineNo".toList, .num 1)]]) = some (.visit ⟨"b.txt".toList, 1⟩) := by rfl
  obtain ⟨n, s, h1, h2, h3', h4⟩ := Rpc.Server.example_session (w := world exTwo) (r1 := exMentions 8)
    (r2 := ⟨some 8, "burl.nothing".toList, none⟩)
    (r3 := ⟨some 9, "burl.visit".toList, some (.arr [.obj [("file".toList, .str "b.txt".toList),
        ("lineNo".toList, .num 1)]])⟩)
    (m1 := .urlMentions) (m3 := .visit) (a1 := arg) (a3 := .visit ⟨"b.txt".toList, 1⟩)
    (t := "rpc: can't find service unknown.burl.nothing".toList) (v1 := v) (v3 := .bool true)
    (by
      have ha : argument .urlMentions _ = _ := ha
      simp only [Rpc.Server.prepare, Rpc.Server.Methods.find, exMentions, d1, world, ha])
    (by simp only [Rpc.Server.prepare, Rpc.Server.Methods.find, d2, d4])
    (by simp only [Rpc.Server.prepare, Rpc.Server.Methods.find, d3, world, d5]) hret exVisit rfl
    (by unfold Rpc.Server.respond; split <;> rfl) rfl
  refine ⟨n, s, v, h1, h2, h3', ?_, h3⟩
  rw [h4, Rpc.Server.respond, if_pos (by simp)]
  rfl

end Burl.Backend
