import Verif.Backend.EndProps
import Verif.Tree.OverflowProps
/-! Exactly which queries end the process when links are taken from one text file (C22, C62). -/
namespace Burl.Backend
open Burl.Json (Json)
open Burl.Tree.Spec (Link Props Tree Annot links linksAll OneBody Negative)
open Burl.Extract.Spec (Named Labelled LabelledAll found paths pathsAll FullAll)
open Burl.Extract (All₂ IsFileTree withLinks fileLines Source)
open Burl.Rpc.Spec (Call)
open Burl.Rpc.Server (Request)
open Spec

/-- A file without headings has its links together. -/
theorem one_body {cs : List Tree} (hlen : cs.length ≤ 1) (hne : cs ≠ []) (hfull : FullAll cs)
    (hp : ∀ x ∈ pathsAll [] cs, x.1 = []) : ∃ ls, cs = [.body ls] := by
  match cs, hlen, hne with
  | [.body ls], _, _ => exact ⟨ls, rfl⟩
  | [.node p cs'], _, _ =>
    exfalso
    have hl := Extract.FullAll.links_ne _ hfull (by simp)
    rw [← Extract.pathsAll_links []] at hl
    obtain ⟨x, hx⟩ := List.exists_mem_of_ne_nil (pathsAll [] [.node p cs']) (fun h => hl (by rw [h]; rfl))
    have h1 := hp x hx
    simp only [pathsAll, paths, List.append_nil] at hx
    have hsh := Extract.pathsAll_shift [p] [] cs'
    simp only [List.nil_append] at hx
    rw [List.append_nil] at hsh
    rw [hsh] at hx
    obtain ⟨y, -, rfl⟩ := List.mem_map.1 hx
    simp at h1

/-- The index of a text file. -/
theorem index_text {e : Env} {name : Str} (hs : e.sources = [⟨.txt, name⟩]) {f : Str → Bool} {trees : List Tree}
    (ha : All₂ (IsFileTree e.find (fun _ => true) e.files) (withLinks e.find (fun _ => true) e.files e.sources) trees)
    (hpos : 0 < Tree.Spec.matches_ (fun l => f l.url) (.node .fileGroup trees)) :
    OneBody (fun l => f l.url) (.node .fileGroup trees) := by
  rw [hs] at ha
  have hw : withLinks e.find (fun _ => true) e.files [⟨.txt, name⟩] = [] ∨
      withLinks e.find (fun _ => true) e.files [⟨.txt, name⟩] = [⟨.txt, name⟩] := by
    simp only [withLinks, List.filter_cons, List.filter_nil]
    split
    · exact .inr rfl
    · exact .inl rfl
  rcases hw with hw | hw
  · rw [hw] at ha
    cases ha
    simp [Tree.Spec.matches_, links, linksAll] at hpos
  · rw [hw] at ha
    cases ha with
    | cons hr h0 =>
      cases h0
      obtain ⟨cs, rfl, hne, hfull, hp, hlen⟩ := hr
      obtain ⟨ls, rfl⟩ := one_body (hlen rfl) hne hfull (by
        rw [hp]
        intro x hx
        simp only [Extract.fileTrace, List.mem_map] at hx
        obtain ⟨_, _, rfl⟩ := hx
        rfl)
      refine .node (pre := []) (post := []) (by simp) (.node (pre := []) (post := []) (by simp) (.body ?_))
      simp only [Tree.Spec.matches_, links, linksAll, List.append_nil, Int.natCast_pos] at hpos
      obtain ⟨l, hl⟩ := List.length_pos_iff_exists_mem.1 hpos
      obtain ⟨h1, h2⟩ := List.mem_filter.1 hl
      exact ⟨l, h1, h2⟩

/-- C22, C62, for all limits: a query for links of one text file ends the process if and only if the file can be
read, the query asks for some of its links, and the limit is negative or its product with the number of these
links is negative in a machine word.  A query gets a reply just if it does not end the process. -/
theorem c62_text {e : Env} {name : Str} (hs : e.sources = [⟨.txt, name⟩]) {q : Tree.MentionsQuery}
    {f : Str → Bool} (hf : ∀ u, f u = true ↔ Asked q u) (hfit : demand e f < 2 ^ 63) :
    (Panics e .urlMentions (.urlMentions q) ↔ Extract.fileErr e.files ⟨.txt, name⟩ = none ∧ 0 < demand e f ∧
      (q.limit < 0 ∨ Negative (demand e f) q.limit)) ∧
    ((∃ v t, Returns e .urlMentions (.urlMentions q) v t) ↔ ¬Panics e .urlMentions (.urlMentions q)) := by
  have hrd : (∀ src ∈ e.sources, Extract.fileErr e.files src = none) ↔
      Extract.fileErr e.files ⟨.txt, name⟩ = none := by rw [hs]; simp
  rcases outcomes e q f with ⟨⟨h1, h2⟩, h3⟩ | ⟨hread, hasks, hp, g, _, hi, -, -⟩
  · refine ⟨⟨fun h => absurd h h2, fun ⟨h4, h5, _⟩ => absurd ⟨hrd.2 h4, (demand_pos hf).2 h5⟩ h3⟩, fun _ => h2, fun _ => h1⟩
  obtain ⟨hp', group, err, hi', -, htree⟩ := Extract.c27_init e.find e.files e.sources
  rw [hi] at hi'
  have hi' := Res.ok.inj hi'
  simp only [Prod.mk.injEq] at hi'
  obtain ⟨rfl, rfl, rfl⟩ := hi'
  obtain ⟨g', trees, hg, hrep, ha⟩ := htree rfl
  have hg := Option.some.inj hg
  subst hg
  have hdem : Tree.Spec.matches_ (fun l => f l.url) (.node .fileGroup trees) = demand e f := by
    unfold Tree.Spec.matches_ demand allLinks
    rw [links, linksAll_index ha, flatMap_withLinks]
  by_cases hpos : 0 < demand e f
  swap
  · have hn : ¬Deadly Extract.orgHeading e q := fun h => hpos ((demand_pos hf).1 h.2.1)
    obtain ⟨h1, h2⟩ := c62_harmless Extract.orgHeading_reads hn
    exact ⟨⟨fun h => absurd h h2, fun h => absurd h.2.1 hpos⟩, fun _ => h2, fun _ => h1⟩
  have hone := index_text hs (f := f) ha (by rw [hdem]; exact hpos)
  have key : ∀ {order r}, Tree.Orders order → Tree.UrlMentions order hp (some g) q r →
      (r = .panic ↔ q.limit < 0 ∨ Negative (demand e f) q.limit) := fun ho hr => by
    rw [← hdem]
    exact Tree.c22_one_body ho hrep q hasks (decides hf) hone (by rw [hdem]; exact hfit) hr
  have hinit : ∀ {x}, Extract.initBackend e.find e.files e.sources = .ok x → x = (hp, some g, none) := by
    intro x h
    rw [hi] at h
    exact (Res.ok.inj h).symm
  have hstep : Extract.StepwiseFiles e.files e.sources := by
    intro head _ src hsrc hk
    rw [hs, List.mem_singleton] at hsrc
    rw [hsrc] at hk
    cases hk
  have hser := fun {order} (ho : Tree.Orders order) {h' a} (hr : Tree.UrlMentions order hp (some g) q (.ok (h', a))) =>
    Extract.c26_serialised_partial e.find e.files e.sources hstep hi ho q hasks hr
  have ho : Tree.Orders fun _ => Url.replacements := fun _ => List.Perm.refl _
  obtain ⟨r, hr⟩ := (Tree.urlMentions_spec ho hrep q hasks (decides hf)).1
  have hiff : Panics e .urlMentions (.urlMentions q) ↔ q.limit < 0 ∨ Negative (demand e f) q.limit := by
    constructor
    · intro h
      cases h with
      | scan h => rw [hi] at h; cases h
      | mentions ho h1 h =>
        have := hinit h1
        simp only [Prod.mk.injEq] at this
        obtain ⟨rfl, rfl, rfl⟩ := this
        exact (key ho h).1 rfl
      | marshal ho h1 h hj =>
        have := hinit h1
        simp only [Prod.mk.injEq] at this
        obtain ⟨rfl, rfl, rfl⟩ := this
        obtain ⟨y, -, h2⟩ := hser ho h
        cases (h2 _).1 hj
    · intro h
      obtain rfl := (key ho hr).2 h
      exact .mentions ho hi hr
  refine ⟨⟨fun h => ⟨hrd.1 hread, hpos, hiff.1 h⟩, fun h => hiff.2 h.2.2⟩, fun ⟨v, t, hv⟩ h => ?_, fun h => ?_⟩
  · cases hv with
    | mentions ho h1 h2 _ =>
      have := hinit h1
      simp only [Prod.mk.injEq] at this
      obtain ⟨rfl, rfl, rfl⟩ := this
      cases (key ho h2).2 (hiff.1 h)
    | noUrls h1 =>
      obtain ⟨u, hu, hne⟩ := hasks
      rw [List.all_eq_true] at h1
      exact absurd (List.isEmpty_iff.mp (h1 u hu)) hne
    | mentionsErr _ h1 _ =>
      have := hinit h1
      simp at this
  · refine returns_all hf hasks hi hrep (fun ho hr => ?_) h
    rcases (Tree.urlMentions_spec ho hrep q hasks (decides hf)).2 _ hr with ⟨_, rfl⟩ | ⟨y, h2, a, _, e2, e3, _⟩
    · exact absurd (hiff.2 ((key ho hr).1 rfl)) h
    · exact ⟨h2, a, y, e2, e3⟩

/-- C62: a request for links of one text file has a reply if and only if it is not one of these. -/
theorem c62_text_answered {Id : Type} {e : Env} {name : Str} (hs : e.sources = [⟨.txt, name⟩])
    {r : Request Id Json} {q : Tree.MentionsQuery} (hc : Call.urlMentions.Name r.method)
    (hq : Says r .urlMentions (.urlMentions q)) {f : Str → Bool} (hf : ∀ u, f u = true ↔ Asked q u)
    (hfit : demand e f < 2 ^ 63) :
    (∃ b, Rpc.Server.Answers (world e) r b) ↔ ¬(Extract.fileErr e.files ⟨.txt, name⟩ = none ∧ 0 < demand e f ∧
      (q.limit < 0 ∨ Negative (demand e f) q.limit)) := by
  obtain ⟨h1, h2⟩ := c62_text hs hf hfit
  obtain ⟨p, hp, ha⟩ := argument_says hq
  have hun : (world e).unmarshal .urlMentions p = .ok (.urlMentions q) := by simp only [world, ha]
  rw [← h1, ← h2]
  have huse : ∀ {c' : Call} {p'}, c'.Name r.method → r.params = some p' →
      Rpc.Server.Calls.method c' = Rpc.Method.urlMentions ∧ p' = p := by
    intro c' p' hc' hp'
    exact ⟨name_unique hc' hc, Option.some.inj (hp'.symm.trans hp)⟩
  constructor
  · rintro ⟨b, hb⟩
    cases hb with
    | unknown h => exact absurd hc (h _)
    | noParams h => rw [hp] at h; cases h
    | badParams hc' hp' h =>
      obtain ⟨e1, rfl⟩ := huse hc' hp'
      rw [e1, hun] at h; cases h
    | badParamsSilent hc' hp' h =>
      obtain ⟨e1, rfl⟩ := huse hc' hp'
      rw [e1, hun] at h; cases h
    | result hc' hp' h hret =>
      obtain ⟨e1, rfl⟩ := huse hc' hp'
      rw [e1] at h hret
      rw [hun] at h
      cases h
      exact ⟨_, _, hret⟩
    | failed hc' hp' h hret =>
      obtain ⟨e1, rfl⟩ := huse hc' hp'
      rw [e1] at h hret
      rw [hun] at h
      cases h
      exact ⟨_, _, hret⟩
    | failedSilent hc' hp' h hret =>
      obtain ⟨e1, rfl⟩ := huse hc' hp'
      rw [e1] at h hret
      rw [hun] at h
      cases h
      exact ⟨_, _, hret⟩
  · rintro ⟨v, t, hv⟩
    cases t with
    | none => exact ⟨_, .result hc hp hun hv⟩
    | some t =>
      by_cases ht : t = []
      · subst ht
        exact ⟨_, .failedSilent hc hp hun hv⟩
      · exact ⟨_, .failed hc hp hun hv ht⟩

def exText : Env := { exTwo with
  files := fun _ => some (["http://a".toList, "http://a".toList], none)
  sources := [⟨.txt, "a.txt".toList⟩] }

/-- Two links in a text file: the limit 2⁶² ends the process, the limit 2⁶² - 1 does not. -/
example : Panics exText .urlMentions (.urlMentions (Tree.exQuery (some (2 ^ 62)))) ∧
    ¬Panics exText .urlMentions (.urlMentions (Tree.exQuery (some (2 ^ 62 - 1)))) := by
  have hd : demand exText (fun u => decide (u ∈ Tree.mentionVariants (fun _ => Url.replacements) (Tree.exQuery none))) = 2 := by
    decide +kernel
  constructor
  · refine (c62_text (name := "a.txt".toList) rfl (exTwo_decides (some (2 ^ 62))) (by rw [hd]; decide)).1.2 ⟨rfl, ?_, .inr ?_⟩
    · rw [hd]; decide
    · rw [hd]; exact ⟨1, by decide, by decide⟩
  · intro h
    obtain ⟨-, -, h1 | ⟨m, h1, h2⟩⟩ := (c62_text (name := "a.txt".toList) rfl (exTwo_decides (some (2 ^ 62 - 1)))
      (by rw [hd]; decide)).1.1 h
    · exact absurd h1 (by decide)
    · rw [hd] at h1 h2
      have hl : (Tree.exQuery (some (2 ^ 62 - 1))).limit = 2 ^ 62 - 1 := rfl
      rw [hl] at h1 h2
      omega

/-- A request with the limit 2⁶² for the same file has no reply. -/
example : ¬∃ b, Rpc.Server.Answers (world exText) (exMentions (2 ^ 62)) b := by
  have hd : demand exText (fun u => decide (u ∈ Tree.mentionVariants (fun _ => Url.replacements) (Tree.exQuery none))) = 2 := by
    decide +kernel
  rw [c62_text_answered (name := "a.txt".toList) rfl (exMentions_name (2 ^ 62))
    (says_of rfl (exMentions_argument (2 ^ 62) (by decide) (by decide))) (exTwo_decides (some (2 ^ 62))) (by rw [hd]; decide), hd]
  exact fun h => h ⟨rfl, by decide, .inr ⟨1, by decide, by decide⟩⟩

end Burl.Backend
