import Verif.Tree.PanicLemmas
import Verif.Url.Props
/-! Property theorems for the tree of links and `urlMentions` (C17–C23). -/
namespace Burl.Tree
open Burl.Tree.Spec

/-! ### C17 -/

/-- A callback that also records what it was called with. -/
def recording {σ : Type} (cb : σ → Link → σ × Bool) (s : σ × List Link) (l : Link) :
    (σ × List Link) × Bool := (((cb s.1 l).1, s.2 ++ [l]), (cb s.1 l).2)

theorem feed_recording {σ : Type} (cb : σ → Link → σ × Bool) (ls : List Link) :
    ∀ (s : σ) (log : List Link),
      (feed (recording cb) ls (s, log)).1.2 = log ++ seenBy cb s ls := by
  induction ls with
  | nil => intro s log; simp [feed, seenBy]
  | cons l ls ih =>
    intro s log
    obtain ⟨s', b, hf⟩ : ∃ s' b, cb s l = (s', b) := ⟨_, _, rfl⟩
    cases b
    · simp [feed, recording, hf, seenBy]
    · simp only [feed, recording, hf, seenBy]
      have := ih s' (log ++ [l])
      simp only [if_true]
      rw [this]
      simp

/-- C17: the callback is called on the links of the tree in document order, each once, up to and
including the first one for which it returns false; the traversal ends and does not panic. -/
theorem c17_forEachLink {σ : Type} (h : Heap) (t : Tree) (a : Addr) (ht : RepT h t a)
    (cb : σ → Link → σ × Bool) (s : σ) :
    (∃ r, ForEachLink h a (recording cb) (s, []) r) ∧
    ∀ r, ForEachLink h a (recording cb) (s, []) r → ∃ e, r = .ok e ∧
      e.cb.2 = seenBy cb s (links t) := by
  obtain ⟨e, h1, h2⟩ := forEachLink_spec h t a ht (recording cb) (s, [])
  refine ⟨⟨_, h1⟩, ?_⟩
  intro r hr
  refine ⟨e, hr.unique h1, ?_⟩
  rw [h2, feed_recording]
  simp

/-- C17: a callback that never returns false is called on every link. -/
theorem c17_all_links {σ : Type} (cb : σ → Link → σ × Bool) (hcb : ∀ s l, (cb s l).2 = true)
    (s : σ) (ls : List Link) : seenBy cb s ls = ls := by
  induction ls generalizing s with
  | nil => rfl
  | cons l ls ih => simp [seenBy, hcb, ih]

/-! ### urlMentions -/

/-- Links accepted by a query: the URL is a variant of a non-empty URL of the query (C10 says
which URLs are variants). -/
def Accepts (q : MentionsQuery) (l : Link) : Prop :=
  ∃ u ∈ q.variants, u ≠ [] ∧ ∃ u', Url.Spec.SchemeAlt u u' ∧ Url.Spec.Truncation u' l.url

/-- The result found in memory is the annotated tree `y`. -/
def IsReply (h : Heap) (a : Addr) (y : Annot) : Prop := ∃ fp, RepA h y a fp

/-- `f` decides `Accepts q`. -/
def Decides (q : MentionsQuery) (f : Link → Bool) : Prop := ∀ l, f l = true ↔ Accepts q l

/-- A map iteration order for every call. -/
def Orders (order : Str → List (Str × Str)) : Prop := ∀ u, (order u).Perm Url.replacements

theorem mentionVariants_mem {order : Str → List (Str × Str)} (ho : Orders order)
    (q : MentionsQuery) (l : Link) :
    l.url ∈ mentionVariants order q ↔ Accepts q l := by
  unfold mentionVariants Accepts
  simp only [List.mem_flatMap, List.mem_filter]
  constructor
  · rintro ⟨u, ⟨h1, _⟩, h2⟩
    obtain ⟨h3, h4⟩ := (Url.c10_urlVariants_mem _ (ho u) _ _).mp h2
    exact ⟨u, h1, h3, h4⟩
  · rintro ⟨u, h1, h2, h3⟩
    exact ⟨u, ⟨h1, by simpa using h2⟩, (Url.c10_urlVariants_mem _ (ho u) _ _).mpr ⟨h2, h3⟩⟩

theorem decides_eq {order : Str → List (Str × Str)} (ho : Orders order) {q : MentionsQuery}
    {f : Link → Bool} (hf : Decides q f) :
    (fun l : Link => decide (l.url ∈ mentionVariants order q)) = f := by
  funext l
  have := hf l
  rw [← mentionVariants_mem ho] at this
  cases h : f l
  · rw [h] at this; simpa using this
  · simpa [h] using this

/-- The limit in force. -/
def MentionsQuery.limit (q : MentionsQuery) : Int := q.countLimit.getD 8

/-- Outcome of `UrlMentions`: what the function on trees says. -/
theorem urlMentions_spec {order : Str → List (Str × Str)} (ho : Orders order) {h : Heap}
    {p : Props} {cs : List Tree} {root : Addr} (ht : RepT h (.node p cs) root)
    (q : MentionsQuery) (hq : ∃ u ∈ q.variants, u ≠ []) {f : Link → Bool} (hf : Decides q f) :
    (∃ r, UrlMentions order h (some root) q r) ∧
    ∀ r, UrlMentions order h (some root) q r →
      (filterA q.limit (.node (sumTotals (countAs f cs)) 0 p (countAs f cs)) = .panic ∧
        r = .panic) ∨
      ∃ y h' a, filterA q.limit (.node (sumTotals (countAs f cs)) 0 p (countAs f cs)) = .ok y ∧
        r = .ok (h', a) ∧ IsReply h' a y ∧ h.length ≤ h'.length ∧
        ∀ i, i < h.length → h'[i]? = h[i]? := by
  have hall : ¬ (q.variants.all (·.isEmpty)) = true := by
    obtain ⟨u, h1, h2⟩ := hq
    rw [List.all_eq_true]
    intro hh
    exact h2 (List.isEmpty_iff.mp (hh u h1))
  obtain ⟨h1, b, fp, s1, s2, s3, s4, s5, s6⟩ := countDescendants_spec f h p cs root ht
  have hU1 : ∀ r1, CountDescendants h root f r1 → r1 = .ok (h1, some b) := by
    rintro r1 ⟨r', hl, rfl⟩
    obtain ⟨r'', hl', e⟩ := s1
    rw [hl.unique hl', ← e]
  have hU2 : ∀ t r2 r2', FilterChildrenCount h1 b t r2 → FilterChildrenCount h1 b t r2' →
      r2 = r2' := by
    intro t r2 r2' g g'
    unfold FilterChildrenCount at g g'
    split at g
    · rename_i c0 t0 n0 hb
      rw [hb] at g'
      obtain ⟨x, hx, rfl⟩ := g
      obtain ⟨x', hx', rfl⟩ := g'
      rw [hx.unique hx']
    · rename_i hb
      split at g'
      · rename_i c0 t0 n0 hb'
        exact absurd hb' (hb _ _ _)
      · rw [g, g']
  cases hA : filterA q.limit (.node (sumTotals (countAs f cs)) 0 p (countAs f cs)) with
  | err e => exact e.elim
  | panic =>
    have hp := filterChildrenCount_panic _ _ h1 b fp s4 s5 hA
    refine ⟨⟨.panic, ?_⟩, ?_⟩
    · unfold UrlMentions
      rw [if_neg hall, decides_eq ho hf]
      exact ⟨_, s1, _, hp, rfl⟩
    · intro r hr
      left
      refine ⟨rfl, ?_⟩
      unfold UrlMentions at hr
      rw [if_neg hall, decides_eq ho hf] at hr
      obtain ⟨r1, g1, g2⟩ := hr
      rw [hU1 r1 g1] at g2
      obtain ⟨r2, g3, g4⟩ := g2
      rw [hU2 _ _ _ g3 hp] at g4
      exact g4
  | ok y =>
    obtain ⟨h2, fp', u1, u2, u3, u4⟩ := filterChildrenCount_spec _ q.limit h1 b fp s4 s5 y hA
    refine ⟨⟨.ok (h2, b), ?_⟩, ?_⟩
    · unfold UrlMentions
      rw [if_neg hall, decides_eq ho hf]
      exact ⟨_, s1, _, u1, rfl⟩
    · intro r hr
      right
      refine ⟨y, h2, b, rfl, ?_, ⟨fp', u2⟩, by rw [u4.1]; exact s2, ?_⟩
      · unfold UrlMentions at hr
        rw [if_neg hall, decides_eq ho hf] at hr
        obtain ⟨r1, g1, g2⟩ := hr
        rw [hU1 r1 g1] at g2
        obtain ⟨r2, g3, g4⟩ := g2
        rw [hU2 _ _ _ g3 u1] at g4
        exact g4
      · intro i hi
        rw [u4.2 i (fun hm => by have := s6 i hm; omega), s3 i hi]

theorem any_reply {order : Str → List (Str × Str)} (ho : Orders order) {h : Heap}
    {p : Props} {cs : List Tree} {root : Addr} (ht : RepT h (.node p cs) root)
    (q : MentionsQuery) (hq : ∃ u ∈ q.variants, u ≠ []) {f : Link → Bool} (hf : Decides q f)
    {h' : Heap} {a : Addr} (hr : UrlMentions order h (some root) q (.ok (h', a))) :
    ∃ y, IsReply h' a y ∧ AnyReply f q.limit (.node p cs) y := by
  rcases (urlMentions_spec ho ht q hq hf).2 _ hr with ⟨_, e⟩ | ⟨y, h2, b, e1, e2, e3, _⟩
  · simp at e
  · injection e2 with e2
    injection e2 with e2 e4
    subst e2 e4
    exact ⟨y, e3, any_tree f (.node p cs) _ (by simp [countA]) _ y e1⟩

/-! Concrete index used to show that hypotheses are met. -/

def exLink (u : String) (n : Int) : Link := ⟨u.toList, [], n⟩

/-- Two files with a few links. -/
def exTree : Tree := .node .fileGroup
  [.node (.file "a.org".toList) [.body [exLink "http://a/" 1, exLink "http://b" 2,
      exLink "http://a/" 3], .node (.heading 4 "* h".toList) [.body [exLink "https://a" 5]]],
   .node (.file "b.txt".toList) [.body [exLink "http://a" 1]],
   .node (.file "c.txt".toList) [.body [exLink "http://c" 7]]]

def exHeap : Heap :=
  [.leaf [exLink "http://a/" 1, exLink "http://b" 2, exLink "http://a/" 3],
   .leaf [exLink "https://a" 5],
   .node (.heading 4 "* h".toList) [1],
   .node (.file "a.org".toList) [0, 2],
   .leaf [exLink "http://a" 1],
   .node (.file "b.txt".toList) [4],
   .leaf [exLink "http://c" 7],
   .node (.file "c.txt".toList) [6],
   .node .fileGroup [3, 5, 7]]

theorem exRep : RepT exHeap exTree 8 := by
  simp [exTree, RepT, RepTs, exHeap]

def exQuery (limit : Option Int) : MentionsQuery := ⟨["http://a/".toList], limit⟩

def exAccept (l : Link) : Bool :=
  decide (l.url ∈ mentionVariants (fun _ => Url.replacements) (exQuery none))

theorem exOrders : Orders fun _ => Url.replacements := fun _ => List.Perm.refl _

theorem exDecides (limit : Option Int) : Decides (exQuery limit) exAccept := by
  intro l
  have := mentionVariants_mem exOrders (exQuery none) l
  unfold exAccept
  rw [decide_eq_true_iff, this]
  rfl

theorem exNonempty (limit : Option Int) : ∃ u ∈ (exQuery limit).variants, u ≠ [] :=
  ⟨"http://a/".toList, by simp [exQuery], by simp⟩

theorem exMatches : matches_ exAccept exTree = 4 := by decide +kernel

/-- C17 on the concrete index: a callback that stops at its third call sees three links. -/
example : (∃ r, ForEachLink exHeap 8 (recording fun (n : Nat) _ => (n + 1, decide (n < 2)))
      (0, []) r) ∧ seenBy (fun (n : Nat) _ => (n + 1, decide (n < 2))) 0 (links exTree) =
      [exLink "http://a/" 1, exLink "http://b" 2, exLink "http://a/" 3] :=
  ⟨(c17_forEachLink exHeap exTree 8 exRep _ _).1, by decide +kernel⟩

/-! ### C18 -/

/-- C18: in every reply `total` of a node is the number of matching links below it in the source,
nodes without matching links are absent (except the root), and what is present is in the order
and nesting of the source (see `Spec.Counted`). -/
theorem c18_counts {order : Str → List (Str × Str)} (ho : Orders order) {h : Heap}
    {p : Props} {cs : List Tree} {root : Addr} (ht : RepT h (.node p cs) root)
    (q : MentionsQuery) (hq : ∃ u ∈ q.variants, u ≠ []) {f : Link → Bool} (hf : Decides q f)
    {h' : Heap} {a : Addr} (hr : UrlMentions order h (some root) q (.ok (h', a))) :
    ∃ y, IsReply h' a y ∧ Counted f y (.node p cs) := by
  obtain ⟨y, h1, h2⟩ := any_reply ho ht q hq hf hr
  exact ⟨y, h1, h2.counted⟩

/-- The relation of C18 implies that the reply is a part of the source. -/
theorem c18_counted_part (f : Link → Bool) (y : Annot) (t : Tree) (h : Counted f y t) :
    Part y.erase t ∧ ∀ l ∈ links y.erase, f l = true := by
  have key : (∀ y t, Counted f y t → Part y.erase t ∧ ∀ l ∈ links y.erase, f l = true) := by
    intro y t h
    refine Counted.rec (f := f)
      (motive_1 := fun y t _ => Part y.erase t ∧ ∀ l ∈ links y.erase, f l = true)
      (motive_2 := fun ys ts _ => PartAll (Annot.eraseAll ys) ts ∧
        ∀ l ∈ linksAll (Annot.eraseAll ys), f l = true) ?_ ?_ ?_ ?_ ?_ h
    · intro n k ls ls' _ hs
      refine ⟨.body (hs.trans List.filter_sublist), ?_⟩
      intro l hl
      exact (List.mem_filter.mp (hs.subset hl)).2
    · intro n k p cs cs' _ _ ih
      exact ⟨.node ih.1, ih.2⟩
    · exact ⟨.nil, by simp [Annot.eraseAll, linksAll]⟩
    · intro a t as ts _ _ _ ih1 ih2
      refine ⟨.keep ih1.1 ih2.1, ?_⟩
      intro l hl
      simp only [Annot.eraseAll, linksAll, List.mem_append] at hl
      rcases hl with hl | hl
      · exact ih1.2 l hl
      · exact ih2.2 l hl
    · intro t as ts _ ih
      exact ⟨.drop ih.1, ih.2⟩
  exact key y t h

/-! ### C19 -/

/-- C19: with a non-negative limit a reply has at most that many links, `filtered` of every node
is the number of links below it, and every kept branch has some.  The number of matching links is
assumed to be less than 2³¹. -/
theorem c19_limit {order : Str → List (Str × Str)} (ho : Orders order) {h : Heap}
    {p : Props} {cs : List Tree} {root : Addr} (ht : RepT h (.node p cs) root)
    (q : MentionsQuery) (hq : ∃ u ∈ q.variants, u ≠ []) {f : Link → Bool} (hf : Decides q f)
    (hL : 0 ≤ q.limit) (hm : matches_ f (.node p cs) < 2 ^ 31)
    {h' : Heap} {a : Addr} (hr : UrlMentions order h (some root) q (.ok (h', a))) :
    ∃ y, IsReply h' a y ∧ Exact y ∧ ((links y.erase).length : Int) ≤ q.limit := by
  have hmm : sumTotals (countAs f cs) = matches_ f (.node p cs) := by
    rw [countAs_total]; rfl
  have hnn := matches_nonneg f (.node p cs)
  rcases (urlMentions_spec ho ht q hq hf).2 _ hr with ⟨_, e⟩ | ⟨y, h2, b, e1, e2, e3, _⟩
  · simp at e
  · injection e2 with e2
    injection e2 with e2 e4
    subst e2 e4
    have hany := any_tree f (.node p cs) _ (by simp [countA]) _ y e1
    refine ⟨y, e3, hany.exact, ?_⟩
    by_cases hlt : matches_ f (.node p cs) * q.limit < 2 ^ 63
    · obtain ⟨y', g1, g2⟩ := limited_tree f (.node p cs)
        (.node (sumTotals (countAs f cs)) 0 p (countAs f cs)) (by simp [countA]) q.limit hL
        (by rintro ⟨ls, e⟩; cases e) (by simp only [Annot.total]; rw [hmm]; exact hlt)
      rw [e1] at g1
      have g1 := Res.ok.inj g1
      rw [← g1] at g2
      rw [← exact_length hany.exact]
      exact g2.le
    · have h1 := counted_le y _ hany.counted
      have h2 : matches_ f (.node p cs) ≤ q.limit := by
        rcases Int.lt_or_le q.limit (matches_ f (.node p cs)) with hlt' | hle
        · exfalso
          apply hlt
          have : matches_ f (.node p cs) * q.limit ≤ 2 ^ 31 * 2 ^ 31 := by nlinarith
          omega
        · exact hle
      omega

/-! ### C20, C21 -/

theorem limited_reply {order : Str → List (Str × Str)} (ho : Orders order) {h : Heap}
    {p : Props} {cs : List Tree} {root : Addr} (ht : RepT h (.node p cs) root)
    (q : MentionsQuery) (hq : ∃ u ∈ q.variants, u ≠ []) {f : Link → Bool} (hf : Decides q f)
    (hL : 0 ≤ q.limit) (hlt : matches_ f (.node p cs) * q.limit < 2 ^ 63)
    {r : Res MentionsErr (Heap × Addr)} (hr : UrlMentions order h (some root) q r) :
    ∃ h' a y, r = .ok (h', a) ∧ IsReply h' a y ∧ Limited f q.limit (.node p cs) y := by
  have hmm : sumTotals (countAs f cs) = matches_ f (.node p cs) := by
    rw [countAs_total]; rfl
  obtain ⟨y', g1, g2⟩ := limited_tree f (.node p cs)
    (.node (sumTotals (countAs f cs)) 0 p (countAs f cs)) (by simp [countA]) q.limit hL
    (by rintro ⟨ls, e⟩; cases e) (by simp only [Annot.total]; rw [hmm]; exact hlt)
  rcases (urlMentions_spec ho ht q hq hf).2 _ hr with ⟨e, _⟩ | ⟨y, h2, b, e1, e2, e3, _⟩
  · rw [e] at g1; simp at g1
  · rw [e1] at g1
    injection g1 with g1
    subst g1
    exact ⟨h2, b, y, e2, e3, g2⟩

/-- C20, for limits small enough that the number of matches times the limit fits in a machine
word: when all matching links fit in the limit, the reply has all of them, except repetitions of
a URL in the same body.  Missing: larger limits, see `c20_violation_overflow`. -/
theorem c20_all_kept_partial {order : Str → List (Str × Str)} (ho : Orders order) {h : Heap}
    {p : Props} {cs : List Tree} {root : Addr} (ht : RepT h (.node p cs) root)
    (q : MentionsQuery) (hq : ∃ u ∈ q.variants, u ≠ []) {f : Link → Bool} (hf : Decides q f)
    (hfit : matches_ f (.node p cs) ≤ q.limit)
    (hlt : matches_ f (.node p cs) * q.limit < 2 ^ 63)
    {r : Res MentionsErr (Heap × Addr)} (hr : UrlMentions order h (some root) q r) :
    ∃ h' a y, r = .ok (h', a) ∧ IsReply h' a y ∧ links y.erase = matching f (.node p cs) := by
  obtain ⟨h', a, y, h1, h2, h3⟩ := limited_reply ho ht q hq hf
    (by have := matches_nonneg f (.node p cs); omega) hlt hr
  exact ⟨h', a, y, h1, h2, h3.full hfit⟩

/-- C20's specification really keeps everything but repetitions: every URL of a matching link of
a body is still there. -/
theorem c20_firstByUrl_complete (ls : List Link) (l : Link) (hl : l ∈ ls) :
    ∃ l' ∈ firstByUrl [] ls, l'.url = l.url := by
  have key : ∀ (ls : List Link) (seen : List Str), l ∈ ls → l.url ∉ seen →
      ∃ l' ∈ firstByUrl seen ls, l'.url = l.url := by
    intro ls
    induction ls with
    | nil => intro seen h; simp at h
    | cons k ks ih =>
      intro seen hm hns
      unfold firstByUrl
      by_cases hk : k.url ∈ seen
      · rw [if_pos hk]
        rcases List.mem_cons.mp hm with rfl | hm
        · exact absurd hk hns
        · exact ih seen hm hns
      · rw [if_neg hk]
        by_cases he : l.url = k.url
        · exact ⟨k, by simp, he.symm⟩
        · rcases List.mem_cons.mp hm with rfl | hm
          · exact absurd rfl he
          · obtain ⟨l', h1, h2⟩ := ih (k.url :: seen) hm (by simp [he, hns])
            exact ⟨l', List.mem_cons_of_mem _ h1, h2⟩
  exact key ls [] hl (by simp)

/-- C20: repetitions are the only thing removed: URLs kept in a body are different. -/
theorem c20_firstByUrl_nodup (ls : List Link) : ((firstByUrl [] ls).map (·.url)).Nodup := by
  have key : ∀ (ls : List Link) (seen : List Str),
      ((firstByUrl seen ls).map (·.url)).Nodup ∧ ∀ u ∈ seen, u ∉ (firstByUrl seen ls).map (·.url) := by
    intro ls
    induction ls with
    | nil => intro seen; simp [firstByUrl]
    | cons k ks ih =>
      intro seen
      unfold firstByUrl
      split
      · exact ih seen
      · rename_i hk
        obtain ⟨i1, i2⟩ := ih (k.url :: seen)
        simp only [List.map_cons, List.nodup_cons]
        refine ⟨⟨i2 k.url (by simp), i1⟩, ?_⟩
        intro u hu hm
        rcases List.mem_cons.mp hm with e | hm
        · exact hk (e ▸ hu)
        · exact i2 u (by simp [hu]) hm
  exact (key ls []).1

/-- C21, for limits small enough that the number of matches times the limit fits in a machine
word: a node shares its limit among children as described by `Spec.Choice`.  Missing: larger
limits, see `c20_violation_overflow`. -/
theorem c21_shared_partial {order : Str → List (Str × Str)} (ho : Orders order) {h : Heap}
    {p : Props} {cs : List Tree} {root : Addr} (ht : RepT h (.node p cs) root)
    (q : MentionsQuery) (hq : ∃ u ∈ q.variants, u ≠ []) {f : Link → Bool} (hf : Decides q f)
    (hL : 0 ≤ q.limit) (hlt : matches_ f (.node p cs) * q.limit < 2 ^ 63)
    {r : Res MentionsErr (Heap × Addr)} (hr : UrlMentions order h (some root) q r) :
    ∃ h' a y, r = .ok (h', a) ∧ IsReply h' a y ∧ Shared f q.limit (.node p cs) y := by
  obtain ⟨h', a, y, h1, h2, h3⟩ := limited_reply ho ht q hq hf hL hlt hr
  exact ⟨h', a, y, h1, h2, h3.shared⟩

/-- Hypotheses of C18–C21 are met: four matches in two of three files, limit 2; the query is
answered. -/
example : ∃ h' a y, UrlMentions (fun _ => Url.replacements) exHeap (some 8) (exQuery (some 2))
      (.ok (h', a)) ∧ IsReply h' a y ∧ Shared exAccept 2 exTree y ∧ Exact y ∧
      Counted exAccept y exTree ∧ 0 < y.filtered := by
  have hm := exMatches
  unfold exTree at hm
  obtain ⟨r, hr⟩ := (urlMentions_spec exOrders exRep (exQuery (some 2)) (exNonempty _)
    (exDecides _)).1
  obtain ⟨h', a, y, e, h1, h2⟩ := limited_reply exOrders exRep (exQuery (some 2)) (exNonempty _)
    (exDecides _) (by decide) (by rw [hm]; decide) hr
  subst e
  exact ⟨h', a, y, hr, h1, h2.shared, h2.exact, h2.counted, h2.nonempty (by decide) (by rw [hm]; decide)⟩

/-- Hypotheses of C20 are met with the limit 4: the repetition of `http://a/` in the first body is
the only matching link left out. -/
example : ∃ h' a y, UrlMentions (fun _ => Url.replacements) exHeap (some 8) (exQuery (some 4))
      (.ok (h', a)) ∧ IsReply h' a y ∧ links y.erase =
        [exLink "http://a/" 1, exLink "https://a" 5, exLink "http://a" 1] := by
  have hm := exMatches
  unfold exTree at hm
  obtain ⟨r, hr⟩ := (urlMentions_spec exOrders exRep (exQuery (some 4)) (exNonempty _)
    (exDecides _)).1
  obtain ⟨h', a, y, e, h1, h2⟩ := c20_all_kept_partial exOrders exRep (exQuery (some 4))
    (exNonempty _) (exDecides _) (by rw [hm]; decide) (by rw [hm]; decide) hr
  subst e
  refine ⟨h', a, y, hr, h1, h2.trans ?_⟩
  decide +kernel

/-! ### C55 -/

mutual
theorem matching_le (f : Link → Bool) (t : Tree) :
    ((matching f t).length : Int) ≤ matches_ f t := by
  match t with
  | .body ls =>
    have := (firstByUrl_sublist [] (ls.filter f)).length_le
    simp only [matching, matches_, links]
    omega
  | .node p cs =>
    have := matchingAll_le f cs
    simpa only [matching, matches_, links] using this
theorem matchingAll_le (f : Link → Bool) (ts : List Tree) :
    ((matchingAll f ts).length : Int) ≤ (((linksAll ts).filter f).length : Int) := by
  match ts with
  | [] => simp [matchingAll, linksAll]
  | t :: ts =>
    have h1 := matching_le f t
    have h2 := matchingAll_le f ts
    simp only [matches_] at h1
    simp only [matchingAll, linksAll, List.filter_append, List.length_append]
    omega
end

/-- Sharing by `Spec.Choice` wastes nothing: a limit that does not exceed the number of matches is
used up, unless a body has matching links with the same URL. -/
theorem shared_length (f : Link → Bool) (s : Int) (t : Tree) (y : Annot) (h : Shared f s t y) :
    0 ≤ s → s ≤ matches_ f t → ((matching f t).length : Int) = matches_ f t →
      ((links y.erase).length : Int) = s := by
  refine Shared.rec (f := f)
    (motive_1 := fun s t y _ => 0 ≤ s → s ≤ matches_ f t →
      ((matching f t).length : Int) = matches_ f t → ((links y.erase).length : Int) = s)
    (motive_2 := fun sh ts ys _ => (∀ c s, (c, some s) ∈ (ts.map (matches_ f)).zip sh → 0 ≤ s ∧ s ≤ c) →
      ((matchingAll f ts).length : Int) = (((linksAll ts).filter f).length : Int) →
      ((linksAll (Annot.eraseAll ys)).length : Int) = (sh.filterMap id).sum)
    ?_ ?_ ?_ ?_ ?_ h
  · intro s n k ls h0 hle hm
    simp only [matching] at hm
    simp only [Annot.erase, links, List.length_take]
    omega
  · intro s n k p cs cs' sh hlen hch hall ih h0 hle hm
    have hsum : ∀ ts : List Tree, (ts.map (matches_ f)).sum =
        (((linksAll ts).filter f).length : Int) := by
      intro ts
      induction ts with
      | nil => simp [linksAll]
      | cons t ts ih =>
        rw [List.map_cons, List.sum_cons, ih]
        simp only [matches_, linksAll, List.filter_append, List.length_append]
        omega
    have hfst : ((cs.map (matches_ f)).zip sh).map (·.1) = cs.map (matches_ f) :=
      List.map_fst_zip (by simp [hlen])
    have hsnd : ((cs.map (matches_ f)).zip sh).filterMap (·.2) = sh.filterMap id := by
      have : sh = ((cs.map (matches_ f)).zip sh).map Prod.snd :=
        (List.map_snd_zip (by simp [hlen])).symm
      conv => rhs; rw [this]
      rw [List.filterMap_map]
      rfl
    have hle' : s ≤ (((cs.map (matches_ f)).zip sh).map (·.1)).sum := by
      rw [hfst, hsum]
      simpa only [matches_, links] using hle
    have := ih (fun c s' hm' =>
      ⟨by have := (hch.positive c s' hm').1; omega, hch.capped hle' c s' hm'⟩)
      (by simpa only [matching, matches_, links] using hm)
    simp only [Annot.erase, links]
    rw [this, ← hsnd]
    by_cases hn : ((cs.map (matches_ f)).zip sh).filterMap (·.2) = []
    · -- nothing is chosen: the limit is zero or nothing matches
      rw [hn]
      have hnum := hch.number
      rw [hn] at hnum
      simp only [List.length_nil, List.sum_nil] at hnum ⊢
      by_cases h1 : s = 0
      · omega
      · have hz : ((cs.map (matches_ f)).zip sh).filter (fun x => decide (0 < x.1)) = [] :=
          List.length_eq_zero_iff.mp (by omega)
        have hnp : ∀ c ∈ cs.map (matches_ f), c ≤ 0 := by
          intro c hc
          rw [← hfst] at hc
          obtain ⟨x, hx, rfl⟩ := List.mem_map.mp hc
          have := List.filter_eq_nil_iff.mp hz x hx
          simpa using this
        have hnps : ∀ l : List Int, (∀ c ∈ l, c ≤ 0) → l.sum ≤ 0 := by
          intro l
          induction l with
          | nil => intro _; simp
          | cons x xs ih =>
            intro hx
            have h2 := ih fun c hc => hx c (by simp [hc])
            have h3 := hx x (by simp)
            rw [List.sum_cons]; omega
        rw [hfst] at hle'
        have := hnps _ hnp
        omega
    · exact hch.total hn
  · intro _ _
    simp [Annot.eraseAll, linksAll]
  · intro s sh t ts a as _ _ ih1 ih2 hc hm
    have l1 := matching_le f t
    have l2 := matchingAll_le f ts
    simp only [matchingAll, linksAll, List.filter_append, List.length_append] at hm
    have hc' := hc (matches_ f t) s (by simp)
    have e1 := ih1 hc'.1 hc'.2 (by simp only [matches_] at l1 ⊢; omega)
    have e2 := ih2 (fun c s' h' => hc c s' (by
      rw [List.map_cons, List.zip_cons_cons]; exact List.mem_cons_of_mem _ h'))
      (by simp only [matches_] at l1; omega)
    simp only [Annot.eraseAll, linksAll, List.length_append]
    rw [List.filterMap_cons_some (by rfl), List.sum_cons]
    omega
  · intro sh t ts as _ ih hc hm
    have l1 := matching_le f t
    have l2 := matchingAll_le f ts
    simp only [matchingAll, linksAll, List.filter_append, List.length_append] at hm
    rw [List.filterMap_cons_none (by rfl)]
    exact ih (fun c s' h' => hc c s' (by
      rw [List.map_cons, List.zip_cons_cons]; exact List.mem_cons_of_mem _ h'))
      (by simp only [matches_] at l1; omega)

/-- C55, for limits small enough that the number of matches times the limit fits in a machine
word: if no body has two matching links with the same URL, then the reply has exactly as many links
as the limit allows.  Missing: larger limits, see `c20_violation_overflow`. -/
theorem c55_used_partial {order : Str → List (Str × Str)} (ho : Orders order) {h : Heap}
    {p : Props} {cs : List Tree} {root : Addr} (ht : RepT h (.node p cs) root)
    (q : MentionsQuery) (hq : ∃ u ∈ q.variants, u ≠ []) {f : Link → Bool} (hf : Decides q f)
    (hL : 0 ≤ q.limit) (hlt : matches_ f (.node p cs) * q.limit < 2 ^ 63)
    (hrep : ((matching f (.node p cs)).length : Int) = matches_ f (.node p cs))
    {r : Res MentionsErr (Heap × Addr)} (hr : UrlMentions order h (some root) q r) :
    ∃ h' a y, r = .ok (h', a) ∧ IsReply h' a y ∧
      ((links y.erase).length : Int) = min q.limit (matches_ f (.node p cs)) := by
  obtain ⟨h', a, y, h1, h2, h3⟩ := limited_reply ho ht q hq hf hL hlt hr
  refine ⟨h', a, y, h1, h2, ?_⟩
  by_cases hle : q.limit ≤ matches_ f (.node p cs)
  · rw [shared_length f _ _ y h3.shared hL hle hrep]
    omega
  · rw [h3.full (by omega), hrep]
    omega

/-- The condition of C55 on repetitions, in words: it holds when in every body the matching links
have different URLs. -/
theorem c55_no_repetitions (f : Link → Bool) (ls : List Link)
    (h : ((ls.filter f).map (·.url)).Nodup) :
    ((matching f (.body ls)).length : Int) = matches_ f (.body ls) := by
  have key : ∀ (ks : List Link) (seen : List Str), (ks.map (·.url)).Nodup →
      (∀ k ∈ ks, k.url ∉ seen) → firstByUrl seen ks = ks := by
    intro ks
    induction ks with
    | nil => intro _ _ _; rfl
    | cons k ks ih =>
      intro seen hnd hs
      rw [List.map_cons, List.nodup_cons] at hnd
      unfold firstByUrl
      rw [if_neg (hs k (by simp)), ih _ hnd.2]
      intro k' hk'
      simp only [List.mem_cons, not_or]
      exact ⟨fun e => hnd.1 (e ▸ List.mem_map_of_mem (f := (·.url)) hk'), hs k' (by simp [hk'])⟩
  simp only [matching, matches_, links]
  rw [key _ [] h (by simp)]

/-- Hypotheses of C55 are met: an index with three matches in three files under a limit of 2;
exactly two links are returned. -/
example :
    let cs : List Tree := [.node (.file "a".toList) [.body [exLink "http://a/" 1]],
      .node (.file "b".toList) [.body [exLink "http://c" 2, exLink "http://a" 3]],
      .node (.file "c".toList) [.body [exLink "https://a" 5]]]
    let h : Heap := [.leaf [exLink "http://a/" 1], .node (.file "a".toList) [0],
      .leaf [exLink "http://c" 2, exLink "http://a" 3], .node (.file "b".toList) [2],
      .leaf [exLink "https://a" 5], .node (.file "c".toList) [4], .node .fileGroup [1, 3, 5]]
    ∃ h' a y, UrlMentions (fun _ => Url.replacements) h (some 6) (exQuery (some 2))
      (.ok (h', a)) ∧ IsReply h' a y ∧ (links y.erase).length = 2 := by
  intro cs h
  have hrep : RepT h (.node .fileGroup cs) 6 := by simp [h, cs, RepT, RepTs]
  have hm : matches_ exAccept (.node .fileGroup cs) = 3 := by decide +kernel
  have hm' : ((matching exAccept (.node .fileGroup cs)).length : Int) = 3 := by decide +kernel
  obtain ⟨r, hr⟩ := (urlMentions_spec exOrders hrep (exQuery (some 2)) (exNonempty _)
    (exDecides _)).1
  obtain ⟨h', a, y, e, h1, h2⟩ := c55_used_partial exOrders hrep (exQuery (some 2)) (exNonempty _)
    (exDecides _) (by decide) (by rw [hm]; decide) (by rw [hm, hm']) hr
  subst e
  rw [hm] at h2
  have : min (exQuery (some 2)).limit 3 = 2 := by decide
  exact ⟨h', a, y, hr, h1, by omega⟩

/-! ### C22 -/

/-- C22: whatever the limit, the query ends: with a reply, an error or a crash. -/
theorem c22_ends {order : Str → List (Str × Str)} (ho : Orders order) {h : Heap}
    {p : Props} {cs : List Tree} {root : Addr} (ht : RepT h (.node p cs) root)
    (q : MentionsQuery) : ∃ r, UrlMentions order h (some root) q r := by
  by_cases hq : ∃ u ∈ q.variants, u ≠ []
  · exact (urlMentions_spec ho ht q hq
      (f := fun l => decide (l.url ∈ mentionVariants order q))
      (fun l => by rw [decide_eq_true_iff]; exact mentionVariants_mem ho q l)).1
  · have hall : q.variants.all (·.isEmpty) = true := by
      rw [List.all_eq_true]
      intro u hu
      rw [List.isEmpty_iff]
      exact Classical.byContradiction fun h => hq ⟨u, hu, h⟩
    refine ⟨.err .noUrls, ?_⟩
    unfold UrlMentions
    rw [if_pos hall]

/-- C22, for non-negative limits small enough that the number of matches times the limit fits in
a machine word: the query is answered.  Missing: other limits crash the backend, see
`c22_violation_negative` and `c22_violation_overflow`. -/
theorem c22_answered_partial {order : Str → List (Str × Str)} (ho : Orders order) {h : Heap}
    {p : Props} {cs : List Tree} {root : Addr} (ht : RepT h (.node p cs) root)
    (q : MentionsQuery) {f : Link → Bool} (hf : Decides q f)
    (hL : 0 ≤ q.limit) (hlt : matches_ f (.node p cs) * q.limit < 2 ^ 63)
    {r : Res MentionsErr (Heap × Addr)} (hr : UrlMentions order h (some root) q r) :
    r ≠ .panic := by
  by_cases hq : ∃ u ∈ q.variants, u ≠ []
  · obtain ⟨h', a, y, e, _⟩ := limited_reply ho ht q hq hf hL hlt hr
    rw [e]; simp
  · have hall : q.variants.all (·.isEmpty) = true := by
      rw [List.all_eq_true]
      intro u hu
      rw [List.isEmpty_iff]
      exact Classical.byContradiction fun h => hq ⟨u, hu, h⟩
    unfold UrlMentions at hr
    rw [if_pos hall] at hr
    rw [hr]; simp

/-- C22 is violated by every negative limit for every query with a match: the backend crashes. -/
theorem c22_violation_negative {order : Str → List (Str × Str)} (ho : Orders order) {h : Heap}
    {p : Props} {cs : List Tree} {root : Addr} (ht : RepT h (.node p cs) root)
    (q : MentionsQuery) (hq : ∃ u ∈ q.variants, u ≠ []) {f : Link → Bool} (hf : Decides q f)
    (hL : q.limit < 0) (hm : 0 < matches_ f (.node p cs))
    {r : Res MentionsErr (Heap × Addr)} (hr : UrlMentions order h (some root) q r) :
    r = .panic := by
  have := filterA_negative f p cs q.limit hL hm
  rcases (urlMentions_spec ho ht q hq hf).2 _ hr with ⟨_, e⟩ | ⟨y, h2, b, e1, _⟩
  · exact e
  · rw [this] at e1; simp at e1

example : UrlMentions (fun _ => Url.replacements) exHeap (some 8) (exQuery (some (-1))) .panic := by
  have hm := exMatches
  unfold exTree at hm
  obtain ⟨r, hr⟩ := (urlMentions_spec exOrders exRep (exQuery (some (-1))) (exNonempty _)
    (exDecides _)).1
  have := c22_violation_negative exOrders exRep (exQuery (some (-1))) (exNonempty _)
    (exDecides _) (by decide) (by rw [hm]; decide) hr
  rwa [this] at hr

/-- C22 is violated by a large limit: two matching links in one file and the largest integer. -/
theorem c22_violation_overflow :
    let h : Heap := [.leaf [exLink "http://a" 1, exLink "http://a/" 2],
      .node (.file "a.txt".toList) [0], .node .fileGroup [1]]
    UrlMentions (fun _ => Url.replacements) h (some 2) (exQuery (some (2 ^ 63 - 1))) .panic := by
  intro h
  let cs : List Tree := [.node (.file "a.txt".toList)
    [.body [exLink "http://a" 1, exLink "http://a/" 2]]]
  have ht : RepT h (.node .fileGroup cs) 2 := by simp [h, cs, RepT, RepTs]
  obtain ⟨r, hr⟩ := (urlMentions_spec exOrders ht (exQuery (some (2 ^ 63 - 1))) (exNonempty _)
    (exDecides _)).1
  rcases (urlMentions_spec exOrders ht _ (exNonempty _) (exDecides _)).2 _ hr with
    ⟨_, e⟩ | ⟨y, h2, b, e1, _⟩
  · rwa [e] at hr
  · exfalso
    have : (match filterA (2 ^ 63 - 1) (.node (sumTotals (countAs exAccept cs)) 0 .fileGroup
        (countAs exAccept cs)) with | .panic => true | _ => false) = true := by decide +kernel
    rw [show (exQuery (some (2 ^ 63 - 1))).limit = 2 ^ 63 - 1 from rfl] at e1
    rw [e1] at this
    simp at this

/-- C20 (and the sharing of C21) is violated by a large limit: four different matching links in
one body, the limit 2⁶², and only one is returned. -/
theorem c20_violation_overflow :
    let ls := [exLink "http://a" 1, exLink "http://a/" 2, exLink "https://a" 3,
      exLink "https://a/" 4]
    let h : Heap := [.leaf ls, .node (.file "a.txt".toList) [0], .node .fileGroup [1]]
    ∃ h' a y, UrlMentions (fun _ => Url.replacements) h (some 2) (exQuery (some (2 ^ 62)))
      (.ok (h', a)) ∧ IsReply h' a y ∧ links y.erase = [exLink "http://a" 1] ∧
      matching exAccept (.node .fileGroup [.node (.file "a.txt".toList) [.body ls]]) = ls := by
  intro ls h
  let cs : List Tree := [.node (.file "a.txt".toList) [.body ls]]
  have ht : RepT h (.node .fileGroup cs) 2 := by simp [h, cs, RepT, RepTs]
  obtain ⟨r, hr⟩ := (urlMentions_spec exOrders ht (exQuery (some (2 ^ 62))) (exNonempty _)
    (exDecides _)).1
  have hc : (match filterA (2 ^ 62) (.node (sumTotals (countAs exAccept cs)) 0 .fileGroup
      (countAs exAccept cs)) with
      | .ok y => decide (links y.erase = [exLink "http://a" 1]) | _ => false) = true := by
    decide +kernel
  have hall : matching exAccept (.node .fileGroup cs) = ls := by decide +kernel
  rcases (urlMentions_spec exOrders ht _ (exNonempty _) (exDecides _)).2 _ hr with
    ⟨e, _⟩ | ⟨y, h2, b, e1, e2, e3, _⟩
  · rw [show (exQuery (some (2 ^ 62))).limit = 2 ^ 62 from rfl] at e
    rw [e] at hc
    simp at hc
  · rw [show (exQuery (some (2 ^ 62))).limit = 2 ^ 62 from rfl] at e1
    rw [e1] at hc
    subst e2
    exact ⟨h2, b, y, hr, e3, of_decide_eq_true hc, hall⟩

/-! ### C23 -/

mutual
theorem RepT.frame {h h' : Heap} (t : Tree) (a : Addr) (ht : RepT h t a)
    (he : ∀ i, i < h.length → h'[i]? = h[i]?) : RepT h' t a := by
  match t with
  | .body ls =>
    simp only [RepT] at ht ⊢
    rw [he a (lt_of_lookup ht), ht]
  | .node p cs =>
    simp only [RepT] at ht ⊢
    obtain ⟨as, h1, h2⟩ := ht
    exact ⟨as, by rw [he a (lt_of_lookup h1), h1], RepTs.frame cs as h2 he⟩
theorem RepTs.frame {h h' : Heap} (ts : List Tree) (as : List Addr) (ht : RepTs h ts as)
    (he : ∀ i, i < h.length → h'[i]? = h[i]?) : RepTs h' ts as := by
  match ts with
  | [] => simpa only [RepTs] using ht
  | t :: ts =>
    simp only [RepTs] at ht ⊢
    obtain ⟨a, as', rfl, h1, h2⟩ := ht
    exact ⟨a, as', rfl, RepT.frame t a h1 he, RepTs.frame ts as' h2 he⟩
end

/-- Memory after a sequence of answered queries (each with map orders of its own). -/
inductive Served (root : Addr) : Heap → List MentionsQuery → Heap → Prop where
  | nil {h} : Served root h [] h
  | answer {order h q h1 a qs h2} : Orders order → UrlMentions order h (some root) q (.ok (h1, a)) →
      Served root h1 qs h2 → Served root h (q :: qs) h2
  | error {order h q e qs h2} : UrlMentions order h (some root) q (.err e) →
      Served root h qs h2 → Served root h (q :: qs) h2

theorem urlMentions_frame {order : Str → List (Str × Str)} (ho : Orders order) {h : Heap}
    {p : Props} {cs : List Tree} {root : Addr} (ht : RepT h (.node p cs) root)
    (q : MentionsQuery) {h' : Heap} {a : Addr}
    (hr : UrlMentions order h (some root) q (.ok (h', a))) :
    h.length ≤ h'.length ∧ ∀ i, i < h.length → h'[i]? = h[i]? := by
  have hq : ∃ u ∈ q.variants, u ≠ [] := by
    apply Classical.byContradiction
    intro hn
    have hall : q.variants.all (·.isEmpty) = true := by
      rw [List.all_eq_true]
      intro u hu
      rw [List.isEmpty_iff]
      exact Classical.byContradiction fun h => hn ⟨u, hu, h⟩
    unfold UrlMentions at hr
    rw [if_pos hall] at hr
    simp at hr
  have hf : Decides q fun l => decide (l.url ∈ mentionVariants order q) := fun l => by
    rw [decide_eq_true_iff, mentionVariants_mem ho]
  rcases (urlMentions_spec ho ht q hq hf).2 _ hr with ⟨_, e⟩ | ⟨y, h2, b, _, e2, _, e4, e5⟩
  · simp at e
  · injection e2 with e2
    injection e2 with e2 _
    subst e2
    exact ⟨e4, e5⟩

/-- C23: whatever queries were answered before, the index in memory is the same tree. -/
theorem c23_index_unchanged {p : Props} {cs : List Tree} {root : Addr} {h h' : Heap}
    {qs : List MentionsQuery} (ht : RepT h (.node p cs) root) (hs : Served root h qs h') :
    RepT h' (.node p cs) root ∧ ∀ i, i < h.length → h'[i]? = h[i]? := by
  induction hs with
  | nil => exact ⟨ht, fun _ _ => rfl⟩
  | answer ho hr _ ih =>
    obtain ⟨g1, g2⟩ := urlMentions_frame ho ht _ hr
    obtain ⟨i1, i2⟩ := ih (RepT.frame _ _ ht g2)
    exact ⟨i1, fun i hi => by rw [i2 i (by omega), g2 i hi]⟩
  | error _ _ ih => exact ih ht

mutual
/-- Two addresses represent the same annotated tree only if the trees are equal. -/
theorem RepA.det {h : Heap} (x y : Annot) (a : Addr) (fx fy : List Addr) (hx : RepA h x a fx)
    (hy : RepA h y a fy) : x = y := by
  match x, y with
  | .body c t ls, .body c' t' ls' =>
    simp only [RepA] at hx hy
    obtain ⟨n, _, h1, h2⟩ := hx
    obtain ⟨n', _, h1', h2'⟩ := hy
    rw [h1] at h1'
    injection h1' with h1'
    injection h1' with e1 e2 e3
    subst e1 e2 e3
    rw [h2] at h2'
    injection h2' with h2'
    injection h2' with h2'
    rw [h2']
  | .node c t p cs, .node c' t' p' cs' =>
    simp only [RepA] at hx hy
    obtain ⟨n, as, f1, _, h1, h2, h3⟩ := hx
    obtain ⟨n', as', f2, _, h1', h2', h3'⟩ := hy
    rw [h1] at h1'
    injection h1' with h1'
    injection h1' with e1 e2 e3
    subst e1 e2 e3
    rw [h2] at h2'
    injection h2' with h2'
    injection h2' with e4 e5
    subst e4 e5
    rw [RepAs.det cs cs' as f1 f2 h3 h3']
  | .body c t ls, .node c' t' p' cs' =>
    simp only [RepA] at hx hy
    obtain ⟨n, _, h1, h2⟩ := hx
    obtain ⟨n', as', f2, _, h1', h2', h3'⟩ := hy
    rw [h1] at h1'
    injection h1' with h1'
    injection h1' with e1 e2 e3
    subst e3
    rw [h2] at h2'
    simp at h2'
  | .node c t p cs, .body c' t' ls' =>
    simp only [RepA] at hx hy
    obtain ⟨n, as, f1, _, h1, h2, h3⟩ := hx
    obtain ⟨n', _, h1', h2'⟩ := hy
    rw [h1] at h1'
    injection h1' with h1'
    injection h1' with e1 e2 e3
    subst e3
    rw [h2] at h2'
    simp at h2'
theorem RepAs.det {h : Heap} (xs ys : List Annot) (as fx fy : List Addr) (hx : RepAs h xs as fx)
    (hy : RepAs h ys as fy) : xs = ys := by
  match xs, ys with
  | [], [] => rfl
  | x :: xs, y :: ys =>
    simp only [RepAs] at hx hy
    obtain ⟨a, as', f1, f2, rfl, _, h1, h2⟩ := hx
    obtain ⟨a', as'', f1', f2', e, _, h1', h2'⟩ := hy
    injection e with e1 e2
    subst e1 e2
    rw [RepA.det x y a f1 f1' h1 h1', RepAs.det xs ys as' f2 f2' h2 h2']
  | [], y :: ys =>
    simp only [RepAs] at hx hy
    obtain ⟨a', as'', f1', f2', e, _⟩ := hy
    rw [hx.1] at e
    simp at e
  | x :: xs, [] =>
    simp only [RepAs] at hx hy
    obtain ⟨a', as'', f1', f2', e, _⟩ := hx
    rw [hy.1] at e
    simp at e
end

/-- C23: the answer to a query does not depend on the queries served before, nor on map orders:
two answers in different states of the backend are the same annotated tree. -/
theorem c23_same_answer {p : Props} {cs : List Tree} {root : Addr} {h h1 h2 : Heap}
    {qs1 qs2 : List MentionsQuery} (ht : RepT h (.node p cs) root) (hs1 : Served root h qs1 h1)
    (hs2 : Served root h qs2 h2) {o1 o2 : Str → List (Str × Str)} (ho1 : Orders o1)
    (ho2 : Orders o2) (q : MentionsQuery)
    {r1 r2 : Res MentionsErr (Heap × Addr)} (hr1 : UrlMentions o1 h1 (some root) q r1)
    (hr2 : UrlMentions o2 h2 (some root) q r2) :
    (∃ g1 a1 g2 a2 y, r1 = .ok (g1, a1) ∧ r2 = .ok (g2, a2) ∧ IsReply g1 a1 y ∧ IsReply g2 a2 y) ∨
      (r1 = .panic ∧ r2 = .panic) ∨ ∃ e, r1 = .err e ∧ r2 = .err e := by
  have ht1 := (c23_index_unchanged ht hs1).1
  have ht2 := (c23_index_unchanged ht hs2).1
  by_cases hq : ∃ u ∈ q.variants, u ≠ []
  · have hf : Decides q fun l => decide (l.url ∈ mentionVariants o1 q) := fun l => by
      rw [decide_eq_true_iff, mentionVariants_mem ho1]
    rcases (urlMentions_spec ho1 ht1 q hq hf).2 _ hr1 with ⟨e, e'⟩ | ⟨y, g1, a1, e1, e2, e3, _⟩
    · rcases (urlMentions_spec ho2 ht2 q hq hf).2 _ hr2 with ⟨_, e2'⟩ | ⟨y, g2, a2, e1, _⟩
      · exact .inr (.inl ⟨e', e2'⟩)
      · rw [e] at e1; simp at e1
    · rcases (urlMentions_spec ho2 ht2 q hq hf).2 _ hr2 with ⟨e, _⟩ | ⟨y', g2, a2, e1', e2', e3', _⟩
      · rw [e] at e1; simp at e1
      · rw [e1] at e1'
        injection e1' with e1'
        subst e1'
        exact .inl ⟨g1, a1, g2, a2, y, e2, e2', e3, e3'⟩
  · have hall : q.variants.all (·.isEmpty) = true := by
      rw [List.all_eq_true]
      intro u hu
      rw [List.isEmpty_iff]
      exact Classical.byContradiction fun h => hq ⟨u, hu, h⟩
    unfold UrlMentions at hr1 hr2
    rw [if_pos hall] at hr1 hr2
    exact .inr (.inr ⟨_, hr1, hr2⟩)

/-- The reply is determined by the memory. -/
theorem c23_reply_unique {h : Heap} {a : Addr} {x y : Annot} (hx : IsReply h a x)
    (hy : IsReply h a y) : x = y := by
  obtain ⟨fx, hx⟩ := hx
  obtain ⟨fy, hy⟩ := hy
  exact RepA.det x y a fx fy hx hy

/-- A history with an answered query and a refused one exists. -/
example : ∃ h', Served 8 exHeap [exQuery none, ⟨[[]], none⟩] h' := by
  have hm := exMatches
  unfold exTree at hm
  obtain ⟨r, hr⟩ := (urlMentions_spec exOrders exRep (exQuery none) (exNonempty _)
    (exDecides _)).1
  obtain ⟨h', a, y, e, _⟩ := limited_reply exOrders exRep (exQuery none) (exNonempty _)
    (exDecides _) (by decide) (by rw [hm]; decide) hr
  subst e
  refine ⟨h', .answer exOrders hr (.error (e := .noUrls) (order := fun _ => []) ?_ .nil)⟩
  simp [UrlMentions]

end Burl.Tree
