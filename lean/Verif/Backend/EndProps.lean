import Verif.Backend.CrashProps
import Verif.Backend.SaysProps
import Verif.Tree.CrashProps
/-! Which queries end the process, for all limits and all files (C22, C26, C62). -/
namespace Burl.Backend
open Burl.Json (Json)
open Burl.Tree.Spec (Link Props Tree Annot links linksAll)
open Burl.Extract.Spec (Named Labelled LabelledAll found)
open Burl.Extract (All₂ withLinks fileLines Source)
open Burl.Rpc.Spec (Call)
open Burl.Rpc.Server (Request reached)

namespace Spec

/-- There are links that the query asks for, all files can be read, and the limit is negative, or so large
that its product with the number of these links does not fit in a machine word, or one of these links is
below a gap in levels of headings. -/
def Deadly (head : Str → Option (Nat × Str)) (e : Env) (q : Tree.MentionsQuery) : Prop :=
  (∀ src ∈ e.sources, Extract.fileErr e.files src = none) ∧ (∃ path url n, Written e path url n ∧ Asked q url) ∧
    (q.limit < 0 ∨ (∃ f : Str → Bool, (∀ u, f u = true ↔ Asked q u) ∧ 2 ^ 63 ≤ demand e f * q.limit) ∨
      AsksBelowGap head e q)

end Spec
open Spec

theorem demand_pos {e : Env} {q : Tree.MentionsQuery} {f : Str → Bool} (hf : ∀ u, f u = true ↔ Asked q u) :
    (∃ path url n, Written e path url n ∧ Asked q url) ↔ 0 < demand e f := by
  unfold demand
  rw [Int.natCast_pos, List.length_pos_iff_exists_mem]
  constructor
  · rintro ⟨path, url, n, ⟨src, hs, -, i, line, k, h1, h2, h3, -⟩, hu⟩
    refine ⟨_, List.mem_filter.2 ⟨List.mem_flatMap.2 ⟨src, hs, (Extract.c25_lineNo _ (fun _ => true) _ _).mpr
      ⟨i, line, k, h1, h2, rfl, rfl⟩⟩, (hf _).2 ?_⟩⟩
    rw [h3]; exact hu
  · rintro ⟨l, hl⟩
    obtain ⟨h1, h2⟩ := List.mem_filter.1 hl
    obtain ⟨src, hs, h3⟩ := List.mem_flatMap.1 h1
    exact ⟨_, _, _, written_found hs h3, (hf _).1 h2⟩

/-- Replies of `urlMentions`: either initialisation has failed, or there is an index. -/
theorem outcomes (e : Env) (q : Tree.MentionsQuery) (f : Str → Bool) :
    (((∃ v t, Returns e .urlMentions (.urlMentions q) v t) ∧ ¬Panics e .urlMentions (.urlMentions q)) ∧
      ¬((∀ src ∈ e.sources, Extract.fileErr e.files src = none) ∧ ∃ path url n, Written e path url n ∧ Asked q url)) ∨
    ((∀ src ∈ e.sources, Extract.fileErr e.files src = none) ∧ (∃ u ∈ q.variants, u ≠ []) ∧
      ∃ hp g trees, Extract.initBackend e.find e.files e.sources = .ok (hp, some g, none) ∧
        Tree.RepT hp (.node .fileGroup trees) g ∧
        Tree.Spec.matches_ (fun l => f l.url) (.node .fileGroup trees) = demand e f) := by
  obtain ⟨hp, group, err, hi, hiff, htree⟩ := Extract.c27_init e.find e.files e.sources
  have hinit : ∀ {x}, Extract.initBackend e.find e.files e.sources = .ok x → x = (hp, group, err) := by
    intro x h
    rw [hi] at h
    exact (Res.ok.inj h).symm
  by_cases hall : q.variants.all (·.isEmpty) = true
  · refine .inl ⟨⟨⟨_, _, .noUrls hall⟩, ?_⟩, ?_⟩
    · intro h
      cases h with
      | scan h => rw [hi] at h; cases h
      | mentions _ _ h => unfold Tree.UrlMentions at h; rw [if_pos hall] at h; cases h
      | marshal _ _ h _ => unfold Tree.UrlMentions at h; rw [if_pos hall] at h; cases h
    · rintro ⟨-, _, _, _, -, u, h1, h2, -⟩
      rw [List.all_eq_true] at hall
      exact absurd (List.isEmpty_iff.mp (hall u h1)) h2
  have hasks : ∃ u ∈ q.variants, u ≠ [] := by
    have h := hall
    rw [List.all_eq_true] at h
    simp only [not_forall] at h
    obtain ⟨u, hu, hne⟩ := h
    exact ⟨u, hu, fun h => hne (by rw [h]; rfl)⟩
  cases err with
  | some x =>
    refine .inl ⟨⟨?_, ?_⟩, ?_⟩
    · have ht : ∃ t, initText x t := by
        cases x with
        | noFiles => exact ⟨_, rfl⟩
        | noLinks => exact ⟨_, rfl⟩
        | file _ => exact ⟨"x".toList, show "x".toList ≠ [] by decide⟩
      obtain ⟨t, ht⟩ := ht
      exact ⟨_, _, .mentionsErr hall hi ht⟩
    · intro h
      cases h with
      | scan h => rw [hi] at h; cases h
      | mentions _ h1 h =>
        have := hinit h1
        simp only [Prod.mk.injEq] at this
        obtain ⟨rfl, rfl, rfl⟩ := this
        unfold Tree.UrlMentions at h; rw [if_neg hall] at h; cases h
      | marshal _ h1 h _ =>
        have := hinit h1
        simp only [Prod.mk.injEq] at this
        obtain ⟨rfl, rfl, rfl⟩ := this
        unfold Tree.UrlMentions at h; rw [if_neg hall] at h; cases h
    · rintro ⟨hread, _, _, _, ⟨src, hs, -, i, line, k, h1, h2, -⟩, -⟩
      have : (some x : Option _) = none := hiff.mpr ⟨List.ne_nil_of_mem hs, hread, src, hs, by
        intro hnil
        have := (Extract.c25_lineNo _ (fun _ => true) _ _).mpr ⟨i, line, k, h1, h2, rfl, rfl⟩
        rw [hnil] at this
        cases this⟩
      cases this
  | none =>
    obtain ⟨g, trees, rfl, hrep, ha⟩ := htree rfl
    refine .inr ⟨(hiff.mp rfl).2.1, hasks, hp, g, trees, hi, hrep, ?_⟩
    unfold Tree.Spec.matches_ demand allLinks
    rw [links, linksAll_index ha, flatMap_withLinks]

/-- If all outcomes of a query are values that can be written, then it returns. -/
theorem returns_all {e : Env} {q : Tree.MentionsQuery} {f : Str → Bool} (hf : ∀ u, f u = true ↔ Asked q u)
    {hp : Tree.Heap} {g : Tree.Addr} {trees : List Tree} (hasks : ∃ u ∈ q.variants, u ≠ [])
    (hi : Extract.initBackend e.find e.files e.sources = .ok (hp, some g, none))
    (hrep : Tree.RepT hp (.node .fileGroup trees) g)
    (hout : ∀ {order r}, Tree.Orders order → Tree.UrlMentions order hp (some g) q r →
      ∃ h2 a y, r = .ok (h2, a) ∧ Tree.IsReply h2 a y)
    (hn : ¬Panics e .urlMentions (.urlMentions q)) : ∃ v t, Returns e .urlMentions (.urlMentions q) v t := by
  have ho : Tree.Orders fun _ => Url.replacements := fun _ => List.Perm.refl _
  obtain ⟨r, hr⟩ := (Tree.urlMentions_spec ho hrep q hasks (decides hf)).1
  obtain ⟨h2, a, y, rfl, hy⟩ := hout ho hr
  obtain ⟨-, -, h3, h4⟩ := Extract.c26_serialised_or_crash hy
  refine ⟨_, _, .mentions ho hi hr (h4.2 (Classical.byContradiction fun hl => hn ?_))⟩
  exact .marshal ho hi hr (h3.2 hl)

/-- C22, C26, C62, for all limits and files: a query of `urlMentions` that is not deadly returns, and it does
not end the process. -/
theorem c62_harmless {head : Str → Option (Nat × Str)} (hh : Extract.Spec.Reads head) {e : Env}
    {q : Tree.MentionsQuery} (hd : ¬Deadly head e q) :
    (∃ v t, Returns e .urlMentions (.urlMentions q) v t) ∧ ¬Panics e .urlMentions (.urlMentions q) := by
  classical
  have hf : ∀ u, (fun u => decide (Asked q u)) u = true ↔ Asked q u := fun u => by simp
  generalize (fun u => decide (Asked q u)) = f at hf
  rcases outcomes e q f with ⟨h, -⟩ | ⟨hread, hasks, hp, g, trees, hi, hrep, hdem⟩
  · exact h
  have hinit : ∀ {x}, Extract.initBackend e.find e.files e.sources = .ok x → x = (hp, some g, none) := by
    intro x h
    rw [hi] at h
    exact (Res.ok.inj h).symm
  by_cases hpos : 0 < demand e f
  · have hL : 0 ≤ q.limit := Int.le_of_not_gt fun h => hd ⟨hread, (demand_pos hf).2 hpos, .inl h⟩
    have hlt : demand e f * q.limit < 2 ^ 63 := Int.lt_of_not_ge fun h =>
      hd ⟨hread, (demand_pos hf).2 hpos, .inr (.inl ⟨f, hf, h⟩)⟩
    have hn : ¬Panics e .urlMentions (.urlMentions q) := fun h =>
      hd ⟨hread, (demand_pos hf).2 hpos, .inr (.inr (c26_crash_gap hh hf hL hlt h).2)⟩
    refine ⟨returns_all hf hasks hi hrep (fun ho hr => ?_) hn, hn⟩
    obtain ⟨h2, a, y, h3, h4, -⟩ := Tree.limited_reply ho hrep q hasks (decides hf) hL (by rw [hdem]; exact hlt) hr
    exact ⟨h2, a, y, h3, h4⟩
  · have h0 : Tree.Spec.matches_ (fun l => f l.url) (.node .fileGroup trees) = 0 := by
      have := Tree.matches_nonneg (fun l => f l.url) (.node .fileGroup trees)
      omega
    have hz := Tree.countAs_none _ _ _ h0
    have hout : ∀ {order r}, Tree.Orders order → Tree.UrlMentions order hp (some g) q r →
        ∃ h2 a y, r = .ok (h2, a) ∧ Tree.IsReply h2 a y ∧ Labelled Named y.erase := by
      intro order r ho hr
      rcases (Tree.urlMentions_spec ho hrep q hasks (decides hf)).2 _ hr with ⟨e, _⟩ | ⟨y, h2, a, e1, e2, e3, _⟩
      · rw [hz] at e
        simp [Tree.filterA] at e
      · refine ⟨h2, a, y, e2, e3, ?_⟩
        rw [hz] at e1
        simp [Tree.filterA] at e1
        subst e1
        simp [Annot.erase, Annot.eraseAll, Labelled, LabelledAll, Named]
    have hn : ¬Panics e .urlMentions (.urlMentions q) := by
      intro h
      cases h with
      | scan h => rw [hi] at h; cases h
      | mentions ho h1 h =>
        have := hinit h1
        simp only [Prod.mk.injEq] at this
        obtain ⟨rfl, rfl, rfl⟩ := this
        obtain ⟨_, _, _, h2, _⟩ := hout ho h
        cases h2
      | marshal ho h1 h hj =>
        have := hinit h1
        simp only [Prod.mk.injEq] at this
        obtain ⟨rfl, rfl, rfl⟩ := this
        obtain ⟨_, _, y, h2, h3, h4⟩ := hout ho h
        obtain ⟨rfl, rfl⟩ := Prod.mk.inj (Res.ok.inj h2)
        exact (Extract.c26_serialised_or_crash h3).2.2.1.1 hj h4
    refine ⟨returns_all hf hasks hi hrep (fun ho hr => ?_) hn, hn⟩
    obtain ⟨h2, a, y, h3, h4, -⟩ := hout ho hr
    exact ⟨h2, a, y, h3, h4⟩

/-- C22, C62: a query with a negative limit ends the process if and only if there are links it asks for and
all files can be read, and it gets no reply then. -/
theorem c62_negative {e : Env} {q : Tree.MentionsQuery} (hL : q.limit < 0) :
    (Panics e .urlMentions (.urlMentions q) ↔ (∀ src ∈ e.sources, Extract.fileErr e.files src = none) ∧
      ∃ path url n, Written e path url n ∧ Asked q url) ∧
    (Panics e .urlMentions (.urlMentions q) → ∀ v t, ¬Returns e .urlMentions (.urlMentions q) v t) := by
  classical
  have hf : ∀ u, (fun u => decide (Asked q u)) u = true ↔ Asked q u := fun u => by simp
  generalize (fun u => decide (Asked q u)) = f at hf
  rcases outcomes e q f with ⟨⟨-, h1⟩, h2⟩ | ⟨hread, hasks, hp, g, trees, hi, hrep, hdem⟩
  · exact ⟨⟨fun h => absurd h h1, fun h => absurd h h2⟩, fun h => absurd h h1⟩
  have key : Panics e .urlMentions (.urlMentions q) → ∃ path url n, Written e path url n ∧ Asked q url := by
    intro h
    have hd : Deadly Extract.orgHeading e q := Classical.byContradiction fun hn =>
      (c62_harmless Extract.orgHeading_reads hn).2 h
    exact hd.2.1
  have hinit : ∀ {x}, Extract.initBackend e.find e.files e.sources = .ok x → x = (hp, some g, none) := by
    intro x h
    rw [hi] at h
    exact (Res.ok.inj h).symm
  have hall : ∀ {order r}, (∃ path url n, Written e path url n ∧ Asked q url) → Tree.Orders order →
      Tree.UrlMentions order hp (some g) q r → r = .panic := fun hw ho hr =>
    Tree.c22_violation_negative ho hrep q hasks (decides hf) hL (by rw [hdem]; exact (demand_pos hf).1 hw) hr
  refine ⟨⟨fun h => ⟨hread, key h⟩, fun ⟨_, hw⟩ => ?_⟩, fun h v t hr => ?_⟩
  · have ho : Tree.Orders fun _ => Url.replacements := fun _ => List.Perm.refl _
    obtain ⟨r, hr⟩ := (Tree.urlMentions_spec ho hrep q hasks (decides hf)).1
    obtain rfl := hall hw ho hr
    exact .mentions ho hi hr
  · have hw := key h
    cases hr with
    | mentions ho h1 h2 _ =>
      have := hinit h1
      simp only [Prod.mk.injEq] at this
      obtain ⟨rfl, rfl, rfl⟩ := this
      cases hall hw ho h2
    | noUrls h1 =>
      obtain ⟨u, hu, hne⟩ := hasks
      rw [List.all_eq_true] at h1
      exact absurd (List.isEmpty_iff.mp (h1 u hu)) hne
    | mentionsErr _ h1 _ =>
      have := hinit h1
      simp at this

theorem no_error {e : Env} {q : Tree.MentionsQuery} (hasks : ∃ u ∈ q.variants, u ≠ [])
    (hread : ∀ src ∈ e.sources, Extract.fileErr e.files src = none) (hlinks : ∃ path url n, Written e path url n)
    {v : Json} {t : Option Str} (h : Returns e .urlMentions (.urlMentions q) v t) : t = none := by
  cases h with
  | mentions => rfl
  | noUrls h1 =>
    obtain ⟨u, hu, hne⟩ := hasks
    rw [List.all_eq_true] at h1
    exact absurd (List.isEmpty_iff.mp (h1 u hu)) hne
  | mentionsErr _ h1 _ =>
    obtain ⟨hp, group, err, hi, hiff, -⟩ := Extract.c27_init e.find e.files e.sources
    rw [hi] at h1
    have h1 := Res.ok.inj h1
    simp only [Prod.mk.injEq] at h1
    obtain ⟨_, _, _, src, hs, -, i, line, k, g1, g2, -⟩ := hlinks
    have : err = none := hiff.mpr ⟨List.ne_nil_of_mem hs, hread, src, hs, by
      intro hnil
      have := (Extract.c25_lineNo _ (fun _ => true) _ _).mpr ⟨i, line, k, g1, g2, rfl, rfl⟩
      rw [hnil] at this
      cases this⟩
    rw [this] at h1
    cases h1.2.2

/-- C62, for all files and limits: a query with an address that is not deadly gets a result if all files can
be read and there are links in them. -/
theorem c62_result {Id : Type} {head : Str → Option (Nat × Str)} (hh : Extract.Spec.Reads head) {e : Env}
    {r : Request Id Json} {q : Tree.MentionsQuery} (hc : Call.urlMentions.Name r.method)
    (hq : Says r .urlMentions (.urlMentions q)) (hd : ¬Deadly head e q) (hasks : ∃ u ∈ q.variants, u ≠ [])
    (hread : ∀ src ∈ e.sources, Extract.fileErr e.files src = none) (hlinks : ∃ path url n, Written e path url n) :
    (∃ b, Rpc.Server.Answers (world e) r b) ∧ ∀ b, Rpc.Server.Answers (world e) r b → ∃ v, b = .result v := by
  obtain ⟨p, hp, ha⟩ := argument_says hq
  obtain ⟨⟨v, t, hv⟩, -⟩ := c62_harmless hh hd
  have hun : (world e).unmarshal .urlMentions p = .ok (.urlMentions q) := by simp only [world, ha]
  obtain rfl := no_error hasks hread hlinks hv
  refine ⟨⟨_, .result hc hp hun hv⟩, ?_⟩
  intro b hb
  have huse : ∀ {c' : Call} {p'}, c'.Name r.method → r.params = some p' →
      Rpc.Server.Calls.method c' = Rpc.Method.urlMentions ∧ p' = p := by
    intro c' p' hc' hp'
    exact ⟨name_unique hc' hc, Option.some.inj (hp'.symm.trans hp)⟩
  cases hb with
  | unknown h => exact absurd hc (h _)
  | noParams h => rw [hp] at h; cases h
  | badParams hc' hp' h =>
    obtain ⟨e1, rfl⟩ := huse hc' hp'
    rw [e1, hun] at h; cases h
  | badParamsSilent hc' hp' h =>
    obtain ⟨e1, rfl⟩ := huse hc' hp'
    rw [e1, hun] at h; cases h
  | result => exact ⟨_, rfl⟩
  | failed hc' hp' h hret =>
    obtain ⟨e1, rfl⟩ := huse hc' hp'
    rw [e1] at h hret
    rw [hun] at h
    cases h
    cases no_error hasks hread hlinks hret
  | failedSilent hc' hp' h hret => exact ⟨_, rfl⟩

/-- C62: a query with a negative limit for links in readable files never gets a reply. -/
theorem c62_negative_silent {Id : Type} {e : Env} {r : Request Id Json} {q : Tree.MentionsQuery}
    (hc : Call.urlMentions.Name r.method) (hq : Says r .urlMentions (.urlMentions q)) (hL : q.limit < 0)
    (hread : ∀ src ∈ e.sources, Extract.fileErr e.files src = none)
    (hw : ∃ path url n, Written e path url n ∧ Asked q url) : ∀ b, ¬Rpc.Server.Answers (world e) r b := by
  obtain ⟨p, hp, ha⟩ := argument_says hq
  have hno := (c62_negative (e := e) hL).2 ((c62_negative hL).1.2 ⟨hread, hw⟩)
  have hun : (world e).unmarshal .urlMentions p = .ok (.urlMentions q) := by simp only [world, ha]
  intro b hb
  have huse : ∀ {c' : Call} {p'}, c'.Name r.method → r.params = some p' →
      Rpc.Server.Calls.method c' = Rpc.Method.urlMentions ∧ p' = p := by
    intro c' p' hc' hp'
    exact ⟨name_unique hc' hc, Option.some.inj (hp'.symm.trans hp)⟩
  cases hb with
  | unknown h => exact absurd hc (h _)
  | noParams h => rw [hp] at h; cases h
  | badParams hc' hp' h =>
    obtain ⟨e1, rfl⟩ := huse hc' hp'
    rw [e1, hun] at h; cases h
  | badParamsSilent hc' hp' h =>
    obtain ⟨e1, rfl⟩ := huse hc' hp'
    rw [e1, hun] at h; cases h
  | result hc' hp' h hret =>
    obtain ⟨e1, rfl⟩ := huse hc' hp'
    rw [e1] at h hret
    rw [hun] at h
    cases h
    exact hno _ _ hret
  | failed hc' hp' h hret =>
    obtain ⟨e1, rfl⟩ := huse hc' hp'
    rw [e1] at h hret
    rw [hun] at h
    cases h
    exact hno _ _ hret
  | failedSilent hc' hp' h hret =>
    obtain ⟨e1, rfl⟩ := huse hc' hp'
    rw [e1] at h hret
    rw [hun] at h
    cases h
    exact hno _ _ hret

/-- A query without addresses is not deadly, whatever its limit is. -/
example (head : Str → Option (Nat × Str)) (e : Env) : ¬Deadly head e ⟨[[]], none⟩ := by
  rintro ⟨-, ⟨_, _, _, -, u, hu, hne, -⟩, -⟩
  exact hne (by simpa using hu)

/-- A query for a link below a heading of the second level is deadly. -/
example : Deadly Extract.orgHeading exGap (Tree.exQuery (some 8)) := by
  refine Classical.byContradiction fun hn => (c62_harmless Extract.orgHeading_reads hn).2 ?_
  refine (c26_crash_exact (e := exGap) Extract.orgHeading_reads (exTwo_decides (some 8))
    (by decide +kernel) (by decide +kernel)).2 ⟨fun _ _ => rfl, ?_⟩
  exact ⟨⟨.org, "a.org".toList⟩, by decide, rfl, 1, "http://a".toList, Tree.exLink "http://a" 0, rfl,
    by decide, (exTwo_decides (some 8) _).1 (by decide +kernel), (2, "A".toList), by decide, 1,
    by decide, by decide, by decide⟩

/-- The same files and a negative limit. -/
example : Panics exGap .urlMentions (.urlMentions (Tree.exQuery (some (-1)))) := by
  refine (c62_negative (by decide)).1.2 ⟨fun _ _ => rfl, "a.org".toList, "http://a".toList, 2, ?_, ?_⟩
  · exact ⟨⟨.org, "a.org".toList⟩, by decide, rfl, 1, "http://a".toList, Tree.exLink "http://a" 0, rfl, by decide,
      rfl, rfl⟩
  · exact (exTwo_decides (some (-1)) _).1 (by decide +kernel)

theorem exTwo_written : Written exTwo "a.txt".toList "http://a".toList 1 :=
  ⟨⟨.txt, "a.txt".toList⟩, by decide, rfl, 0, "http://a".toList, Tree.exLink "http://a" 0, rfl, by decide, rfl, rfl⟩

/-- Hypotheses of `c62_result` are met by a query with the limit 8 for links in two text files. -/
theorem exTwo_harmless : ¬Deadly Extract.orgHeading exTwo (Tree.exQuery (some 8)) := by
  rintro ⟨-, -, h | ⟨f, hf, h⟩ | ⟨src, hs, hk, -⟩⟩
  · exact absurd h (by decide)
  · have he : f = fun u => decide (u ∈ Tree.mentionVariants (fun _ => Url.replacements) (Tree.exQuery none)) :=
      funext fun u => Bool.eq_iff_iff.2 ((hf u).trans (exTwo_decides (some 8) u).symm)
    rw [he] at h
    exact absurd h (by decide +kernel)
  · simp only [exTwo, List.mem_cons, List.not_mem_nil, or_false] at hs
    rcases hs with rfl | rfl <;> cases hk

example : ∃ v, Rpc.Server.Answers (world exTwo) (exMentions 8) (.result v) := by
  obtain ⟨⟨b, hb⟩, h⟩ := c62_result (e := exTwo) (r := exMentions 8) Extract.orgHeading_reads (exMentions_name 8)
    (says_of rfl (exMentions_argument 8 (by decide) (by decide))) exTwo_harmless
    ⟨"http://a/".toList, by decide, by decide⟩ (fun _ _ => rfl) ⟨_, _, _, exTwo_written⟩
  obtain ⟨v, rfl⟩ := h b hb
  exact ⟨v, hb⟩

/-- A query with a negative limit for the same files gets no reply. -/
example : ∀ b, ¬Rpc.Server.Answers (world exTwo) (exMentions (-1)) b :=
  c62_negative_silent (exMentions_name (-1)) (says_of rfl (exMentions_argument (-1) (by decide) (by decide)))
    (by decide) (fun _ _ => rfl) ⟨_, _, _, exTwo_written, (exTwo_decides (some (-1)) _).1 (by decide +kernel)⟩

end Burl.Backend
