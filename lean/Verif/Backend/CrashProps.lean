import Verif.Backend.ServeProps
import Verif.Extract.ChainProps
/-! Exactly which queries end the process while the reply is written (C26, C62). -/
namespace Burl.Backend
open Burl.Json (Json)
open Burl.Tree.Spec (Link Props Tree Annot links linksAll Shared SharedAll matching matchingAll
  firstByUrl Exact ExactAll)
open Burl.Extract.Spec (Named Labelled LabelledAll found paths pathsAll Full FullAll Headline
  headline depth latest expectedBy Tidy)
open Burl.Extract (All₂ IsFileTree withLinks fileLines Source placeLabel inFile)

namespace Spec

/-- The last of the headlines is deeper than the tree goes without a gap: there is no headline at
some depth above it, or at its own one when it is folded with others. -/
def BelowGap (above : List (Nat × Str)) : Prop :=
  ∃ last, above.getLast? = some last ∧
    ∃ d, 1 ≤ d ∧ d ≤ depth last.1 ∧ ∀ h ∈ above, depth h.1 ≠ d

/-- A source file in the Org format has a link that the query asks for below a gap in levels of
headlines. -/
def AsksBelowGap (head : Str → Option (Nat × Str)) (e : Env) (q : Tree.MentionsQuery) : Prop :=
  ∃ src ∈ e.sources, src.kind = .org ∧ ∃ (i : Nat) (line : Str) (k : Link),
    (fileLines e.files src)[i]? = some line ∧ k ∈ e.find.org line ∧ Asked q k.url ∧
    BelowGap (((fileLines e.files src).take (i + 1)).filterMap head)

end Spec
open Spec

/-! ### Chains of a reply -/

theorem shared_paths {f : Link → Bool} {s : Int} {t : Tree} {y : Annot} (h : Shared f s t y) :
    ∀ above, ∀ x ∈ paths above y.erase, x ∈ paths above t ∧ f x.2 = true := by
  refine Shared.rec (f := f)
    (motive_1 := fun s t y _ => ∀ above, ∀ x ∈ paths above y.erase,
      x ∈ paths above t ∧ f x.2 = true)
    (motive_2 := fun sh ts ys _ => ∀ above, ∀ x ∈ pathsAll above (Annot.eraseAll ys),
      x ∈ pathsAll above ts ∧ f x.2 = true) ?_ ?_ ?_ ?_ ?_ h
  · intro t n k ls above x hx
    simp only [Annot.erase, paths, List.mem_map] at hx
    obtain ⟨l, hl, rfl⟩ := hx
    have h1 := List.mem_of_mem_take hl
    have h2 := (Tree.firstByUrl_sublist [] (ls.filter f)).subset h1
    rw [List.mem_filter] at h2
    exact ⟨by simp only [paths, List.mem_map]; exact ⟨l, h2.1, rfl⟩, h2.2⟩
  · intro t n k p cs cs' sh _ _ _ ih above x hx
    simp only [Annot.erase, paths] at hx ⊢
    exact ih _ x hx
  · intro above x hx; simp [Annot.eraseAll, pathsAll] at hx
  · intro s sh t ts a as _ _ h1 h2 above x hx
    simp only [Annot.eraseAll, pathsAll, List.mem_append] at hx ⊢
    rcases hx with hx | hx
    · exact ⟨.inl (h1 above x hx).1, (h1 above x hx).2⟩
    · exact ⟨.inr (h2 above x hx).1, (h2 above x hx).2⟩
  · intro sh t ts as _ ih above x hx
    simp only [pathsAll, List.mem_append]
    exact ⟨.inr (ih above x hx).1, (ih above x hx).2⟩

theorem sharedAll_links {f : Link → Bool} {sh : List (Option Int)} {ts : List Tree}
    {ys : List Annot} (h : SharedAll f sh ts ys) :
    (linksAll (Annot.eraseAll ys)).Sublist (matchingAll f ts) := by
  induction ts generalizing sh ys with
  | nil => cases h; exact .slnil
  | cons t ts ih =>
    cases h with
    | keep h1 h2 =>
      simp only [Annot.eraseAll, linksAll, matchingAll]
      exact (shared_links h1).append (ih h2)
    | drop h2 =>
      rw [matchingAll]
      exact (ih h2).trans (List.sublist_append_right _ _)

theorem paths_mem {above : List Props} {t : Tree} {x : List Props × Link} (h : x ∈ paths above t) :
    x.2 ∈ links t := by
  rw [← Extract.paths_links above t]
  exact List.mem_map.mpr ⟨x, h, rfl⟩

/-- A reply with all matching links has a link below every chain with a matching link. -/
theorem shared_paths_full {f : Link → Bool} {s : Int} {t : Tree} {y : Annot} (h : Shared f s t y) :
    (matching f t).length ≤ (links y.erase).length → ∀ above, ∀ x ∈ paths above t, f x.2 = true →
      ∃ l, (x.1, l) ∈ paths above y.erase := by
  refine Shared.rec (f := f)
    (motive_1 := fun s t y _ => (matching f t).length ≤ (links y.erase).length →
      ∀ above, ∀ x ∈ paths above t, f x.2 = true → ∃ l, (x.1, l) ∈ paths above y.erase)
    (motive_2 := fun sh ts ys _ => (matchingAll f ts).length ≤ (linksAll (Annot.eraseAll ys)).length →
      ∀ above, ∀ x ∈ pathsAll above ts, f x.2 = true →
        ∃ l, (x.1, l) ∈ pathsAll above (Annot.eraseAll ys)) ?_ ?_ ?_ ?_ ?_ h
  · intro t n k ls hle above x hx hf
    simp only [paths, List.mem_map] at hx
    obtain ⟨l, hl, rfl⟩ := hx
    simp only [matching, Annot.erase, links] at hle
    have he : (firstByUrl [] (ls.filter f)).take t.toNat = firstByUrl [] (ls.filter f) := by
      apply List.take_of_length_le
      rw [List.length_take] at hle
      omega
    obtain ⟨l', h1, _⟩ := Tree.c20_firstByUrl_complete (ls.filter f) l (List.mem_filter.mpr ⟨hl, hf⟩)
    refine ⟨l', ?_⟩
    simp only [Annot.erase, paths, List.mem_map]
    exact ⟨l', by rw [he]; exact h1, rfl⟩
  · intro t n k p cs cs' sh _ _ _ ih hle above x hx hf
    simp only [Annot.erase, paths] at hx ⊢
    simp only [matching, Annot.erase, links] at hle
    exact ih hle _ x hx hf
  · intro _ above x hx; simp [pathsAll] at hx
  · intro s sh t ts a as g1 g2 h1 h2 hle above x hx hf
    simp only [Annot.eraseAll, linksAll, matchingAll, List.length_append] at hle
    have l1 := (shared_links g1).length_le
    have l2 := (sharedAll_links g2).length_le
    simp only [Annot.eraseAll, pathsAll, List.mem_append] at hx ⊢
    rcases hx with hx | hx
    · obtain ⟨l, hl⟩ := h1 (by omega) above x hx hf
      exact ⟨l, .inl hl⟩
    · obtain ⟨l, hl⟩ := h2 (by omega) above x hx hf
      exact ⟨l, .inr hl⟩
  · intro sh t ts as g ih hle above x hx hf
    simp only [matchingAll, List.length_append] at hle
    have l2 := (sharedAll_links g).length_le
    simp only [pathsAll, List.mem_append] at hx
    rcases hx with hx | hx
    · obtain ⟨l', h1, _⟩ := matching_complete f t (paths_mem hx) hf
      have := List.length_pos_of_mem h1
      omega
    · exact ih (by omega) above x hx hf

theorem exact_full {y : Annot} (h : Exact y) : 0 < y.filtered → Full y.erase := by
  refine Exact.rec (motive_1 := fun y _ => 0 < y.filtered → Full y.erase)
    (motive_2 := fun ys _ => FullAll (Annot.eraseAll ys)) ?_ ?_ ?_ ?_ h
  · intro n k ls hk hp
    simp only [Annot.filtered] at hp
    simp only [Annot.erase, Full]
    intro he
    rw [he] at hk
    simp at hk
    omega
  · intro n k p cs hk _ ih hp
    simp only [Annot.filtered] at hp
    simp only [Annot.erase, Full]
    refine ⟨fun he => ?_, ih⟩
    rw [he] at hk
    simp [linksAll] at hk
    omega
  · trivial
  · intro a as _ hp _ h1 h2
    exact ⟨h1 hp, h2⟩

theorem exactAll_full {ys : List Annot} (h : ExactAll ys) : FullAll (Annot.eraseAll ys) := by
  induction ys with
  | nil => trivial
  | cons y ys ih =>
    cases h with
    | cons h1 h2 h3 => exact ⟨exact_full h1 h2, ih h3⟩

/-! ### Chains of the index -/

theorem fileTrace_inFile {head : Str → Option (Nat × Str)} (find : Extract.Finder)
    (kind : Extract.Kind) (lines : List Str)
    (ht : kind = .org → ∀ l ∈ lines, Extract.orgHeading l = head l) :
    Extract.fileTrace find (fun _ => true) kind lines = inFile head find kind lines := by
  cases hk : kind with
  | txt =>
    simp only [Extract.fileTrace, inFile]
    rw [Extract.txtTrace_links find.txt (fun _ => true) (fun _ _ => rfl)]
  | org =>
    simp only [Extract.fileTrace, inFile]
    have e0 : List.replicate 10 (none : Extract.Slot) =
        (Extract.allLatest []).map Extract.placeSlot := by decide
    rw [e0, Extract.trace_latest find.org (fun _ => true) _ 1 [] 0 (by simp) (by simp) (by simp),
      Extract.expectedBy_congr latest find.org (fun _ => true) _ 1 []
        (ht hk)]
    simp only [List.map_map, Function.comp_def]
    apply List.map_congr_left
    intro x _
    congr 1
    apply List.map_congr_left
    intro y _
    exact Extract.slotProps_place y

/-- Headlines of lines with their numbers. -/
def headsFrom (head : Str → Option (Nat × Str)) : Int → List Str → List Headline
  | _, [] => []
  | n, l :: ls => match head l with
    | some (level, title) => ⟨level, n, title⟩ :: headsFrom head (n + 1) ls
    | none => headsFrom head (n + 1) ls

theorem headsFrom_map (head : Str → Option (Nat × Str)) (n : Int) (ls : List Str) :
    (headsFrom head n ls).map (fun h => (h.level, h.title)) = ls.filterMap head := by
  induction ls generalizing n with
  | nil => rfl
  | cons l ls ih =>
    rw [headsFrom, List.filterMap_cons]
    cases head l with
    | none => exact ih _
    | some x => simp [ih]

theorem mem_expectedBy {α : Type} {head : Str → Option (Nat × Str)} (above : List Headline → α) (find : Str → List Link) (n : Int)
    (seen : List Headline) (ls : List Str) (x : α × Link) :
    x ∈ expectedBy above head find (fun _ => true) n seen ls ↔
      ∃ (i : Nat) (line : Str) (k : Link), ls[i]? = some line ∧ k ∈ find line ∧
        x = (above (seen ++ headsFrom head n (ls.take (i + 1))), { k with lineNo := n + i }) := by
  induction ls generalizing n seen with
  | nil => simp [expectedBy]
  | cons l ls ih =>
    have key : ∀ s1 : List Headline, (∀ m : List Str, seen ++ headsFrom head n (l :: m) =
          s1 ++ headsFrom head (n + 1) m) →
        (x ∈ ((find l).filter fun _ => true).map (fun k => (above s1, { k with lineNo := n })) ++
          expectedBy above head find (fun _ => true) (n + 1) s1 ls ↔
        ∃ (i : Nat) (line : Str) (k : Link), (l :: ls)[i]? = some line ∧ k ∈ find line ∧
        x = (above (seen ++ headsFrom head n ((l :: ls).take (i + 1))), { k with lineNo := n + i })) := by
      intro s1 hs
      rw [List.mem_append, ih, List.mem_map]
      constructor
      · rintro (⟨k, hk, rfl⟩ | ⟨i, line, k, h1, h2, rfl⟩)
        · rw [List.mem_filter] at hk
          refine ⟨0, l, k, rfl, hk.1, ?_⟩
          rw [List.take_succ_cons, hs]
          simp [headsFrom]
        · refine ⟨i + 1, line, k, by simpa using h1, h2, ?_⟩
          rw [List.take_succ_cons, hs]
          congr 2
          push_cast
          omega
      · rintro ⟨i, line, k, h1, h2, rfl⟩
        cases i with
        | zero =>
          simp only [List.getElem?_cons_zero, Option.some.injEq] at h1
          subst h1
          refine .inl ⟨k, by simpa using h2, ?_⟩
          rw [List.take_succ_cons, hs]
          simp [headsFrom]
        | succ i =>
          refine .inr ⟨i, line, k, by simpa using h1, h2, ?_⟩
          rw [List.take_succ_cons, hs]
          congr 2
          push_cast
          omega
    rw [expectedBy]
    cases hh : head l with
    | none => exact key seen fun m => by rw [headsFrom, hh]
    | some x => exact key _ fun m => by rw [headsFrom, hh]; simp

theorem none_latest (seen : List Headline) :
    none ∈ latest seen ↔ BelowGap (seen.map fun h => (h.level, h.title)) := by
  unfold latest BelowGap
  rw [List.getLast?_map]
  cases seen.getLast? with
  | none => simp
  | some h =>
    simp only [List.mem_map, List.mem_range, Option.map_some, Option.some.injEq,
      List.find?_eq_none, List.mem_reverse]
    constructor
    · rintro ⟨i, hi, hn⟩
      refine ⟨_, rfl, i + 1, by omega, hi, ?_⟩
      rintro _ ⟨k, hk, rfl⟩
      have := hn k hk
      simpa using this
    · rintro ⟨_, rfl, d, h1, h2, h3⟩
      refine ⟨d - 1, by simp only at h2; omega, fun k hk => ?_⟩
      have := h3 _ ⟨k, hk, rfl⟩
      simp only at this
      simp only [beq_iff_eq]
      omega

/-- In the index a matching link below an unnamed node. -/
theorem index_gap {head : Str → Option (Nat × Str)} {e : Env} {ws : List Source} {trees : List Tree}
    (ha : All₂ (IsFileTree e.find (fun _ => true) e.files) ws trees)
    (ht : ∀ src ∈ ws, src.kind = .org → ∀ l ∈ fileLines e.files src,
      Extract.orgHeading l = head l) (f : Link → Bool)
    (hf : ∀ k n, f { k with lineNo := n } = f k) (above : List Props) (hab : ∀ p ∈ above, Named p) :
    (∃ x ∈ pathsAll above trees, f x.2 = true ∧ ∃ p ∈ x.1, ¬Named p) ↔
      ∃ src ∈ ws, src.kind = .org ∧ ∃ (i : Nat) (line : Str) (k : Link),
        (fileLines e.files src)[i]? = some line ∧ k ∈ e.find.org line ∧ f k = true ∧
        BelowGap (((fileLines e.files src).take (i + 1)).filterMap head) := by
  induction ha with
  | nil => simp [pathsAll]
  | @cons src t ws ts hr _ ih =>
    obtain ⟨cs, rfl, _, _, hp, -⟩ := hr
    rw [fileTrace_inFile _ _ _ (ht src (by simp))] at hp
    have hc : (∃ x ∈ paths above (.node (.file src.name) cs), f x.2 = true ∧ ∃ p ∈ x.1, ¬Named p) ↔
        src.kind = .org ∧ ∃ (i : Nat) (line : Str) (k : Link),
        (fileLines e.files src)[i]? = some line ∧ k ∈ e.find.org line ∧ f k = true ∧
        BelowGap (((fileLines e.files src).take (i + 1)).filterMap head) := by
      have hsh := Extract.pathsAll_shift (above ++ [.file src.name]) [] cs
      rw [List.append_nil, hp] at hsh
      rw [paths, hsh]
      have hab' : ∀ p ∈ above ++ [Props.file src.name], Named p := by
        intro p hp
        rcases List.mem_append.1 hp with h | h
        · exact hab p h
        · rw [List.mem_singleton.1 h]; trivial
      cases hk : src.kind with
      | txt =>
        simp only [inFile]
        constructor
        · rintro ⟨x, hx, _, p, hp, hn⟩
          simp only [List.mem_map] at hx
          obtain ⟨_, ⟨l, _, rfl⟩, rfl⟩ := hx
          simp only [List.append_nil] at hp
          exact absurd (hab' p hp) hn
        · rintro ⟨h, _⟩; cases h
      | org =>
        simp only [inFile, true_and]
        constructor
        · rintro ⟨x, hx, hfx, p, hp, hn⟩
          rw [List.mem_map] at hx
          obtain ⟨_, hx, rfl⟩ := hx
          rw [List.mem_map] at hx
          obtain ⟨z, hz, rfl⟩ := hx
          obtain ⟨i, line, k, h1, h2, rfl⟩ := (mem_expectedBy _ _ _ _ _ _).1 hz
          simp only at hp hfx
          rw [hf] at hfx
          refine ⟨i, line, k, h1, h2, hfx, ?_⟩
          rw [← headsFrom_map head 1, ← none_latest]
          rcases List.mem_append.1 hp with h | h
          · exact absurd (hab' p h) hn
          · obtain ⟨o, ho, rfl⟩ := List.mem_map.1 h
            cases o with
            | none => simpa using ho
            | some h => exact absurd trivial hn
        · rintro ⟨i, line, k, h1, h2, h3, h4⟩
          rw [← headsFrom_map head 1, ← none_latest] at h4
          refine ⟨_, List.mem_map.2 ⟨_, List.mem_map.2 ⟨_, (mem_expectedBy _ _ _ _ _ _).2
            ⟨i, line, k, h1, h2, rfl⟩, rfl⟩, rfl⟩, by simp only; rw [hf]; exact h3,
            .missingHeading, ?_, id⟩
          refine List.mem_append_right _ (List.mem_map.2 ⟨none, by simpa using h4, rfl⟩)
    rw [pathsAll]
    have ih := ih fun s hs => ht s (by simp [hs])
    constructor
    · rintro ⟨x, hx, h1, h2⟩
      rcases List.mem_append.1 hx with hx | hx
      · obtain ⟨h3, h4⟩ := hc.1 ⟨x, hx, h1, h2⟩
        exact ⟨src, by simp, h3, h4⟩
      · obtain ⟨s, h3, h4⟩ := ih.1 ⟨x, hx, h1, h2⟩
        exact ⟨s, by simp [h3], h4⟩
    · rintro ⟨s, hs, h⟩
      rcases List.mem_cons.1 hs with rfl | hs
      · obtain ⟨x, hx, h1⟩ := hc.2 h
        exact ⟨x, List.mem_append_left _ hx, h1⟩
      · obtain ⟨x, hx, h1⟩ := ih.2 ⟨s, hs, h⟩
        exact ⟨x, List.mem_append_right _ hx, h1⟩

/-! ### Theorems -/

theorem panics_iff {head : Str → Option (Nat × Str)} {e : Env}
    (ht : ∀ src ∈ e.sources, src.kind = .org → ∀ l ∈ fileLines e.files src,
      Extract.orgHeading l = head l)
    {q : Tree.MentionsQuery} {f : Str → Bool} (hf : ∀ u, f u = true ↔ Asked q u)
    (hL : 0 ≤ q.limit) (hlt : demand e f * q.limit < 2 ^ 63) :
    (Panics e .urlMentions (.urlMentions q) →
      (∀ src ∈ e.sources, Extract.fileErr e.files src = none) ∧ AsksBelowGap head e q) ∧
    (demand e f ≤ q.limit → (∀ src ∈ e.sources, Extract.fileErr e.files src = none) →
      AsksBelowGap head e q → Panics e .urlMentions (.urlMentions q)) := by
  obtain ⟨hp, group, err, hi, hiff, htree⟩ := Extract.c27_init e.find e.files e.sources
  have hinit : ∀ {x}, Extract.initBackend e.find e.files e.sources = .ok x → x = (hp, group, err) := by
    intro x h
    rw [hi] at h
    exact (Res.ok.inj h).symm
  have hask : ∀ k : Link, Asked q k.url → ∃ u ∈ q.variants, u ≠ [] := fun k ⟨u, h1, h2, _⟩ => ⟨u, h1, h2⟩
  by_cases hall : q.variants.all (·.isEmpty) = true
  · have hno : ∀ r h root order, Tree.UrlMentions order h root q r → r = .err .noUrls := by
      intro r h root order hr
      unfold Tree.UrlMentions at hr; rw [if_pos hall] at hr; exact hr
    refine ⟨fun h => ?_, ?_⟩
    · cases h with
      | scan h => rw [hi] at h; cases h
      | mentions _ _ h => cases hno _ _ _ _ h
      | marshal _ _ h _ => cases hno _ _ _ _ h
    · rintro _ _ ⟨src, _, _, i, line, k, _, _, hk, _⟩
      obtain ⟨u, h1, h2⟩ := hask k hk
      rw [List.all_eq_true] at hall
      exact absurd (List.isEmpty_iff.mp (hall u h1)) h2
  have hasks : ∃ u ∈ q.variants, u ≠ [] := by
    have h := hall
    rw [List.all_eq_true] at h
    simp only [not_forall] at h
    obtain ⟨u, hu, hne⟩ := h
    exact ⟨u, hu, fun h => hne (by rw [h]; rfl)⟩
  cases err with
  | some x =>
    refine ⟨fun h => ?_, ?_⟩
    · have hno : ∀ {h' group' err' r order}, Extract.initBackend e.find e.files e.sources =
          .ok (h', group', err') → Tree.UrlMentions order h' (rootOf group' err') q r →
          r ≠ .panic ∧ ∀ x, r ≠ .ok x := by
        intro h' group' err' r order h1 hr
        have := hinit h1
        simp only [Prod.mk.injEq] at this
        obtain ⟨rfl, rfl, rfl⟩ := this
        unfold Tree.UrlMentions at hr; rw [if_neg hall] at hr; rw [show r = _ from hr]; simp
      cases h with
      | scan h => rw [hi] at h; cases h
      | mentions _ h1 h => exact absurd rfl (hno h1 h).1
      | marshal _ h1 h _ => exact absurd rfl ((hno h1 h).2 _)
    · rintro _ hread ⟨src, hsrc, hk, i, line, k, h1, h2, _⟩
      have : (some x : Option _) = none := hiff.mpr ⟨List.ne_nil_of_mem hsrc, hread, src, hsrc, by
        intro hnil
        have hmem : k ∈ e.find.of src.kind line := by rw [hk]; exact h2
        have := (Extract.c25_lineNo _ (fun _ => true) _ _).mpr ⟨i, line, k, h1,
          hmem, rfl, rfl⟩
        rw [hnil] at this
        cases this⟩
      cases this
  | none =>
  obtain ⟨g, trees, rfl, hrep, ha⟩ := htree rfl
  have hread := (hiff.mp rfl).2.1
  have hdem : Tree.Spec.matches_ (fun l => f l.url) (.node .fileGroup trees) = demand e f := by
    unfold Tree.Spec.matches_ demand allLinks
    rw [links, linksAll_index ha, flatMap_withLinks]
  have hgap := index_gap ha (fun src hs => ht src (withLinks_iff.1 hs).1) (fun l => f l.url)
    (fun _ _ => rfl) [.fileGroup] (by simp [Named])
  have hgap' : (∃ x ∈ paths [] (.node .fileGroup trees), f x.2.url = true ∧ ∃ p ∈ x.1, ¬Named p) ↔
      AsksBelowGap head e q := by
    rw [paths, List.nil_append, hgap]
    unfold AsksBelowGap
    constructor
    · rintro ⟨src, hs, hk, i, line, k, h1, h2, h3, h4⟩
      exact ⟨src, (withLinks_iff.1 hs).1, hk, i, line, k, h1, h2, (hf _).1 h3, h4⟩
    · rintro ⟨src, hs, hk, i, line, k, h1, h2, h3, h4⟩
      refine ⟨src, withLinks_iff.2 ⟨hs, ?_⟩, hk, i, line, k, h1, h2, (hf _).2 h3, h4⟩
      intro hnil
      have hmem : k ∈ e.find.of src.kind line := by rw [hk]; exact h2
      have := (Extract.c25_lineNo _ (fun _ => true) _ _).mpr ⟨i, line, k, h1,
        hmem, rfl, rfl⟩
      rw [hnil] at this
      cases this
  have hout : ∀ {order r}, Tree.Orders order → Tree.UrlMentions order hp (some g) q r →
      ∃ h2 a y, r = .ok (h2, a) ∧ Tree.IsReply h2 a y ∧
        Tree.Limited (fun l => f l.url) q.limit (.node .fileGroup trees) y :=
    fun ho hr => Tree.limited_reply ho hrep q hasks (decides hf) hL (by rw [hdem]; exact hlt) hr
  refine ⟨fun h => ?_, fun hfit _ hg => ?_⟩
  · have hmar : ∀ {order h' group' err' h2 a}, Tree.Orders order →
        Extract.initBackend e.find e.files e.sources = .ok (h', group', err') →
        Tree.UrlMentions order h' (rootOf group' err') q (.ok (h2, a)) → Json.Marshal h2 a .panic →
        AsksBelowGap head e q := by
      intro order h' group' err' h2 a ho h1 hr hj
      have := hinit h1
      simp only [Prod.mk.injEq] at this
      obtain ⟨rfl, rfl, rfl⟩ := this
      obtain ⟨h3, a3, y, he, hy, hlim⟩ := hout ho hr
      obtain ⟨rfl, rfl⟩ := Prod.mk.inj (Res.ok.inj he)
      have hnl := (Extract.c26_serialised_or_crash hy).2.2.1.1 hj
      rw [← hgap']
      refine Classical.byContradiction fun hn => hnl ?_
      have hall' : ∀ x ∈ paths [] y.erase, ∀ p ∈ x.1, Named p := by
        intro x hx p hpx
        obtain ⟨h4, h5⟩ := shared_paths hlim.shared [] x hx
        exact Classical.byContradiction fun hnn => hn ⟨x, h4, h5, p, hpx, hnn⟩
      have hsh := hlim.shared
      have hex := hlim.exact
      cases hsh with
      | @node _ n k _ _ cs' _ _ _ _ =>
      cases hex with
      | node _ hca =>
      rw [Annot.erase, paths] at hall'
      exact ⟨trivial, Extract.labelledAll_of_paths Named _ _ (exactAll_full hca) hall'⟩
    refine ⟨hread, ?_⟩
    cases h with
    | scan h => rw [hi] at h; cases h
    | mentions ho h1 h =>
      have := hinit h1
      simp only [Prod.mk.injEq] at this
      obtain ⟨rfl, rfl, rfl⟩ := this
      obtain ⟨_, _, _, h2, _⟩ := hout ho h
      cases h2
    | marshal ho h1 h hj => exact hmar ho h1 h hj
  · have ho : Tree.Orders fun _ => Url.replacements := fun _ => List.Perm.refl _
    obtain ⟨r, hr⟩ := (Tree.urlMentions_spec ho hrep q hasks (decides hf)).1
    obtain ⟨h2, a, y, rfl, hy, hlim⟩ := hout ho hr
    refine .marshal ho hi hr ((Extract.c26_serialised_or_crash hy).2.2.1.2 fun hlab => ?_)
    obtain ⟨x, hx, hfx, p, hpx, hn⟩ := hgap'.2 hg
    obtain ⟨l, hl⟩ := shared_paths_full hlim.shared
      (by rw [hlim.full (by rw [hdem]; exact hfit)]) [] x hx hfx
    exact hn (Extract.paths_of_labelled Named _ [] hlab (by simp) _ hl p hpx)

/-- C26, C62, for tidy lines and limits that are not negative and not astronomic: a query of
`urlMentions` ends the process only if all files are readable and a link that the query asks for is
below a gap in levels of headlines.  Missing: lines that are not tidy (headings followed by blanks are
not headings for the code; for them see `c26_crash_gap`). -/
theorem c26_crash_partial {e : Env}
    (ht : ∀ src ∈ e.sources, src.kind = .org → ∀ l ∈ fileLines e.files src, Tidy l)
    {q : Tree.MentionsQuery} {f : Str → Bool} (hf : ∀ u, f u = true ↔ Asked q u)
    (hL : 0 ≤ q.limit) (hlt : demand e f * q.limit < 2 ^ 63)
    (h : Panics e .urlMentions (.urlMentions q)) :
    (∀ src ∈ e.sources, Extract.fileErr e.files src = none) ∧ AsksBelowGap headline e q :=
  (panics_iff (fun src h hk l hl => Extract.orgHeading_tidy (ht src h hk l hl)) hf hL hlt).1 h

/-- C26, C62, for limits that are not negative and not astronomic, with headings as the code reads them: a
query of `urlMentions` ends the process only if all files are readable and a link that the query asks for
is below a gap in levels of headings. -/
theorem c26_crash_gap {head : Str → Option (Nat × Str)} (hh : Extract.Spec.Reads head) {e : Env}
    {q : Tree.MentionsQuery} {f : Str → Bool} (hf : ∀ u, f u = true ↔ Asked q u)
    (hL : 0 ≤ q.limit) (hlt : demand e f * q.limit < 2 ^ 63)
    (h : Panics e .urlMentions (.urlMentions q)) :
    (∀ src ∈ e.sources, Extract.fileErr e.files src = none) ∧ AsksBelowGap head e q :=
  (panics_iff (fun _ _ _ _ _ => by rw [Extract.reads_unique hh]) hf hL hlt).1 h

/-- C26, C62, exactly, for a query that allows as many links as there are, with headings as the code reads
them: the query ends the process if and only if all files are readable and a link that the query asks for
is below a gap in levels of headings. -/
theorem c26_crash_exact {head : Str → Option (Nat × Str)} (hh : Extract.Spec.Reads head) {e : Env}
    {q : Tree.MentionsQuery} {f : Str → Bool} (hf : ∀ u, f u = true ↔ Asked q u)
    (hm : demand e f ≤ q.limit) (hlt : demand e f * q.limit < 2 ^ 63) :
    Panics e .urlMentions (.urlMentions q) ↔
      (∀ src ∈ e.sources, Extract.fileErr e.files src = none) ∧ AsksBelowGap head e q := by
  have hL : 0 ≤ q.limit := by
    have : 0 ≤ demand e f := by unfold demand; omega
    omega
  have ht : ∀ src ∈ e.sources, src.kind = .org → ∀ l ∈ fileLines e.files src,
      Extract.orgHeading l = head l := fun _ _ _ _ _ => by rw [Extract.reads_unique hh]
  exact ⟨(panics_iff ht hf hL hlt).1, fun h => (panics_iff ht hf hL hlt).2 hm h.1 h.2⟩

/-- Headlines `* A`, `*** B`: what is below the second one is below a gap, and after `** C` nothing is. -/
example : BelowGap [(1, "A".toList), (3, "B".toList)] ∧
    ¬BelowGap [(1, "A".toList), (3, "B".toList), (2, "C".toList)] := by
  constructor
  · exact ⟨_, rfl, 2, by decide⟩
  · rintro ⟨_, h, d, h1, h2, h3⟩
    obtain rfl := Option.some.inj h
    have h2 : d ≤ 2 := h2
    have a1 := h3 (1, "A".toList) (by simp)
    have a2 := h3 (2, "C".toList) (by simp)
    simp [depth] at a1 a2
    omega

/-- A file that begins with a heading of the second level. -/
def exGap : Env := { exTwo with sources := Extract.exSources, files := Extract.exSkipFiles }

/-- Hypotheses of `c26_crash_exact` are met, and the process ends. -/
example : Panics exGap .urlMentions (.urlMentions (Tree.exQuery (some 8))) := by
  refine (c26_crash_exact (e := exGap) Extract.orgHeading_reads (exTwo_decides (some 8))
    (by decide +kernel) (by decide +kernel)).2 ⟨?_, ?_⟩
  · intro src _; rfl
  · refine ⟨⟨.org, "a.org".toList⟩, by decide, rfl, 1, "http://a".toList, Tree.exLink "http://a" 0, rfl,
      by decide, (exTwo_decides (some 8) _).1 (by decide +kernel), (2, "A".toList), by decide, 1,
      by decide, by decide, by decide⟩

end Burl.Backend
