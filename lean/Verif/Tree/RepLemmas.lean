import Verif.Tree.Model
/-! Representation of trees in memory and the traversal `ForEachLink`. -/
namespace Burl.Tree
open Burl.Tree.Spec

mutual
/-- The object at an address represents a tree. -/
def RepT (h : Heap) : Tree → Addr → Prop
  | .body ls, a => h[a]? = some (.leaf ls)
  | .node p cs, a => ∃ as, h[a]? = some (.node p as) ∧ RepTs h cs as
def RepTs (h : Heap) : List Tree → List Addr → Prop
  | [], as => as = []
  | t :: ts, as => ∃ a as', as = a :: as' ∧ RepT h t a ∧ RepTs h ts as'
end

theorem load_ok {h : Heap} {a : Addr} {o : Obj} (e : h[a]? = some o) : load h a = .ok o := by
  unfold load; rw [e]

theorem feed_append {σ : Type} (f : σ → Link → σ × Bool) (xs ys : List Link) (s : σ) :
    feed f (xs ++ ys) s =
      if (feed f xs s).2 then feed f ys (feed f xs s).1 else feed f xs s := by
  induction xs generalizing s with
  | nil => simp [feed]
  | cons l ls ih =>
    obtain ⟨s', b, hf⟩ : ∃ s' b, f s l = (s', b) := ⟨_, _, rfl⟩
    cases b <;> simp [feed, hf, ih]

/-- How the traversal leaves a subtree. -/
def EachEnd {σ : Type} (q : Queue) (r : σ × Bool) (e : EachState σ) : Prop :=
  e.cb = r.1 ∧ (r.2 = true → e.queue = q ∧ e.stopped = false) ∧ (r.2 = false → e.stopped = true)

mutual
theorem each_tree {σ : Type} (h : Heap) (f : σ → Link → σ × Bool) (t : Tree) (a : Addr)
    (ht : RepT h t a) (q : Queue) (s : σ) :
    ∃ e, Steps eachDone (eachBody h f) ⟨(a, false) :: q, s, false⟩ e ∧
      EachEnd q (feed f (links t) s) e := by
  match t with
  | .body ls =>
    simp only [RepT] at ht
    simp only [links]
    rcases hr : feed f ls s with ⟨s', _ | _⟩
    · refine ⟨⟨(a, true) :: q, s', true⟩, .one rfl ?_, by simp [EachEnd]⟩
      simp [eachBody, pop, load_ok ht, hr]
    · refine ⟨⟨q, s', false⟩, ?_, by simp [EachEnd]⟩
      refine .cons (s' := ⟨(a, true) :: q, s', false⟩) rfl ?_ (.one rfl rfl)
      simp [eachBody, pop, load_ok ht, hr, childrenNodes, pushAll]
  | .node p cs =>
    simp only [RepT] at ht
    obtain ⟨as, h1, h2⟩ := ht
    obtain ⟨e, h3, h4, h5, h6⟩ := each_trees h f cs as h2 ((a, true) :: q) s
    simp only [links]
    have hfirst : Steps eachDone (eachBody h f) ⟨(a, false) :: q, s, false⟩
        ⟨as.map (·, false) ++ (a, true) :: q, s, false⟩ := by
      refine .one rfl ?_
      simp [eachBody, pop, load_ok h1, childrenNodes, pushAll]
    rcases hr : feed f (linksAll cs) s with ⟨s', _ | _⟩
    · rw [hr] at h4 h5 h6
      exact ⟨e, hfirst.trans h3, h4, by simp, h6⟩
    · rw [hr] at h4 h5
      obtain ⟨e1, e2⟩ := h5 rfl
      refine ⟨⟨q, e.cb, false⟩, (hfirst.trans h3).trans (.one ?_ ?_), h4, by simp, by simp⟩
      · simp [eachDone, e1, e2]
      · simp [eachBody, e1, pop, e2]
theorem each_trees {σ : Type} (h : Heap) (f : σ → Link → σ × Bool) (ts : List Tree)
    (as : List Addr) (ht : RepTs h ts as) (q : Queue) (s : σ) :
    ∃ e, Steps eachDone (eachBody h f) ⟨as.map (·, false) ++ q, s, false⟩ e ∧
      EachEnd q (feed f (linksAll ts) s) e := by
  match ts with
  | [] =>
    simp only [RepTs] at ht
    subst ht
    exact ⟨⟨q, s, false⟩, .refl, by simp [linksAll, feed, EachEnd]⟩
  | t :: ts =>
    simp only [RepTs] at ht
    obtain ⟨a, as', rfl, h1, h2⟩ := ht
    obtain ⟨e, h3, h4, h5, h6⟩ := each_tree h f t a h1 (as'.map (·, false) ++ q) s
    simp only [linksAll, feed_append]
    rcases hr : feed f (links t) s with ⟨s', _ | _⟩
    · rw [hr] at h4 h5 h6
      exact ⟨e, h3, h4, by simp, fun _ => h6 rfl⟩
    · rw [hr] at h4 h5
      obtain ⟨e1, e2⟩ := h5 rfl
      obtain ⟨e', h7, h8⟩ := each_trees h f ts as' h2 q s'
      have : e = ⟨as'.map (·, false) ++ q, s', false⟩ := by
        cases e; simp_all
      rw [this] at h3
      exact ⟨e', h3.trans h7, by simpa using h8⟩
end

theorem forEachLink_spec {σ : Type} (h : Heap) (t : Tree) (a : Addr) (ht : RepT h t a)
    (f : σ → Link → σ × Bool) (s : σ) :
    ∃ e, ForEachLink h a f s (.ok e) ∧ e.cb = (feed f (links t) s).1 := by
  obtain ⟨e, h1, h2, h3, h4⟩ := each_tree h f t a ht [] s
  refine ⟨e, h1.loop (.done ?_), h2⟩
  unfold eachDone
  rcases hr : feed f (links t) s with ⟨s', _ | _⟩
  · simp [h4 (by rw [hr])]
  · simp [(h3 (by rw [hr])).1]

end Burl.Tree
