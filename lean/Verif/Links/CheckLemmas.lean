import Verif.Links.SchemeLemmas
/-! The check of links in brackets for several schemes: `^` belongs to the first one, the colon to the
last one. -/
namespace Burl.Links
open Burl.Regex Spec Burl.Tree.Spec

theorem mem_cats_snoc {letter : Char → Bool} {xs : List Re} {r : Re} {s s' : St} :
    s' ∈ run letter (cats (xs ++ [r])) s ↔
      ∃ t ∈ run letter (cats xs) s, s' ∈ run letter r t := by
  induction xs generalizing s with
  | nil =>
    simp [cats, run]
  | cons x xs ih =>
    rw [List.cons_append, mem_cats_cons (by simp), mem_cat]
    simp only [ih]
    cases xs with
    | nil =>
      simp [cats, run]
    | cons y ys =>
      simp only [mem_cats_cons (r := x) (show y :: ys ≠ [] by simp), mem_cat]
      constructor
      · rintro ⟨t, h1, u, h2, h3⟩; exact ⟨u, ⟨t, h1, h2⟩, h3⟩
      · rintro ⟨u, ⟨t, h1, h2⟩, h3⟩; exact ⟨t, h1, u, h2, h3⟩

theorem within_iff {letter : Char → Bool} {l text : Str} :
    (∃ w t, text = w ++ t ∧ ∃ s', s' ∈ run letter (cats (l.map .lit)) ⟨w.reverse ++ [], t, []⟩) ↔
      Within l text := by
  constructor
  · rintro ⟨w, t, rfl, s', h⟩
    have := (mem_lits.1 h).1.1
    exact ⟨w, s'.rest, by simp only at this; rw [this]; simp⟩
  · rintro ⟨a, b, rfl⟩
    exact ⟨a, l ++ b, by simp, ⟨l.reverse ++ (a.reverse ++ []), b, []⟩, mem_lits.2 ⟨⟨rfl, rfl⟩, rfl⟩⟩

theorem compile_scheme_many {a z : Str} {mid : List Str} (ha : Literal a)
    (hm : ∀ l ∈ mid ++ [z], Literal l) :
    ∃ r, compile ("^".toList ++ joinBar (a :: (mid ++ [z])) ++ ":".toList) = some r ∧
      ∀ letter text, matchString letter r text = true ↔
        a <+: text ∨ (∃ m ∈ mid, Within m text) ∨ Within (z ++ [':']) text := by
  obtain ⟨m, ms, e0⟩ := List.exists_cons_of_ne_nil (show mid ++ [z] ≠ [] by simp)
  have e1 : PState.init.run ("^".toList ++ a ++ "|".toList) =
      some ⟨.norm, ⟨none, false, [cats (.bol :: a.map .lit)], []⟩, [], 0⟩ := by
    rw [List.append_assoc, PState.run_append, show PState.init.run "^".toList =
      some (PState.init.push .bol) by decide +kernel, Option.bind_some, PState.run_append]
    have := PState.run_quoteMeta (s := PState.init.push .bol) ⟨rfl, rfl⟩ a
    rw [quoteMeta_literal ha.2] at this
    rw [this, Option.bind_some]
    have e2 : ((PState.init.push .bol).add (a.map .lit)).top.cur.reverse = .bol :: a.map .lit := by
      simp only [PState.add, PState.push, PState.init, List.reverse_append, List.reverse_reverse,
        List.reverse_cons, List.reverse_nil, List.nil_append, List.singleton_append]
    show (PState.step _ '|').bind _ = _
    have e3 : ((PState.init.push .bol).add (a.map .lit)).step '|' =
        some ⟨.norm, ⟨none, false, [cats ((PState.init.push .bol).add (a.map .lit)).top.cur.reverse],
          []⟩, [], 0⟩ := by
      unfold PState.step
      rfl
    rw [e3, e2]
    rfl
  have e4 : "^".toList ++ joinBar (a :: (mid ++ [z])) ++ ":".toList =
      ("^".toList ++ a ++ "|".toList) ++ (joinBar (mid ++ [z]) ++ ":".toList) := by
    rw [e0]
    show "^".toList ++ (a ++ '|' :: joinBar (m :: ms)) ++ ":".toList = _
    simp
  obtain ⟨s', h1, h2, h3, h4, h5, h6⟩ := run_joinBar
    (s := ⟨.norm, ⟨none, false, [cats (.bol :: a.map .lit)], []⟩, [], 0⟩) ⟨rfl, rfl⟩ rfl m ms
  rw [← e0, map_quoteMeta hm] at h1
  have e5 : s'.run ":".toList = some (s'.add [.lit ':']) := by
    have := PState.run_quoteMeta h2 [':']
    rwa [quoteMeta_literal (by decide)] at this
  refine ⟨alts (s'.top.alts ++ [cats (s'.top.cur.reverse ++ [.lit ':'])]), ?_, ?_⟩
  · unfold compile
    rw [e4, PState.run_append, e1, Option.bind_some, PState.run_append, h1, Option.bind_some, e5,
      Option.bind_some]
    unfold PState.finish
    rw [show (s'.add [.lit ':']).mode = .norm from h2.1, show (s'.add [.lit ':']).outer = [] from h3]
    simp only
    unfold PState.levelRe
    rw [show (s'.add [.lit ':']).top.capture = none from h5]
    simp [PState.add]
  · rw [← e0, List.map_append] at h6
    simp only [List.map_cons, List.map_nil, ← List.append_assoc] at h6
    have h7 := List.append_inj' h6 rfl
    have h8 : cats s'.top.cur.reverse = cats (z.map .lit) := by simpa using h7.2
    rw [h7.1]
    intro letter text
    have hz : ∀ s t, t ∈ run letter (cats (s'.top.cur.reverse ++ [.lit ':'])) s ↔
        t ∈ run letter (cats ((z ++ [':']).map .lit)) s := by
      intro s t
      rw [List.map_append, List.map_cons, List.map_nil, mem_cats_snoc, mem_cats_snoc, h8]
    have hA : ∀ s t, t ∈ run letter (cats (.bol :: a.map .lit)) s ↔
        s.pre = [] ∧ t ∈ run letter (cats (a.map .lit)) s := by
      intro s t
      rw [mem_cats_cons (by simpa using ha.1), mem_cat]
      constructor
      · rintro ⟨u, g1, g2⟩
        obtain ⟨rfl, g3⟩ := mem_bol.1 g1
        exact ⟨g3, g2⟩
      · rintro ⟨g1, g2⟩
        exact ⟨s, mem_bol.2 ⟨rfl, g1⟩, g2⟩
    have hrun : ∀ s, run letter (alts ([cats (.bol :: a.map .lit)] ++
        mid.map (fun l => cats (l.map .lit)) ++ [cats (s'.top.cur.reverse ++ [.lit ':'])])) s ≠ [] ↔
        (s.pre = [] ∧ ∃ t, t ∈ run letter (cats (a.map .lit)) s) ∨
        (∃ m ∈ mid, ∃ t, t ∈ run letter (cats (m.map .lit)) s) ∨
        ∃ t, t ∈ run letter (cats ((z ++ [':']).map .lit)) s := by
      intro s
      constructor
      · intro hne
        obtain ⟨t, ht⟩ := List.exists_mem_of_ne_nil _ hne
        obtain ⟨r, hr, ht⟩ := mem_alts.1 ht
        rcases List.mem_append.1 hr with hr | hr
        · rcases List.mem_append.1 hr with hr | hr
          · simp only [List.mem_singleton] at hr
            subst hr
            obtain ⟨g1, g2⟩ := (hA _ _).1 ht
            exact .inl ⟨g1, t, g2⟩
          · obtain ⟨m, hm, rfl⟩ := List.mem_map.1 hr
            exact .inr (.inl ⟨m, hm, t, ht⟩)
        · simp only [List.mem_singleton] at hr
          subst hr
          exact .inr (.inr ⟨t, (hz _ _).1 ht⟩)
      · rintro (⟨g1, t, g2⟩ | ⟨m, hm, t, g⟩ | ⟨t, g⟩)
        · exact List.ne_nil_of_mem (mem_alts.2 ⟨_, by simp, (hA _ _).2 ⟨g1, g2⟩⟩)
        · exact List.ne_nil_of_mem (mem_alts.2 ⟨cats (m.map .lit), by simp; exact .inr (.inl ⟨m, hm, rfl⟩), g⟩)
        · exact List.ne_nil_of_mem (mem_alts.2 ⟨_, by simp, (hz _ _).2 g⟩)
    unfold matchString
    rw [findFrom_isSome]
    constructor
    · rintro ⟨w, t, rfl, hne⟩
      rcases (hrun _).1 hne with ⟨g1, u, g2⟩ | ⟨m, hm, u, g⟩ | ⟨u, g⟩
      · left
        have : w = [] := by simpa using g1
        subst this
        exact ⟨u.rest, (mem_lits.1 g2).1.1.symm⟩
      · exact .inr (.inl ⟨m, hm, within_iff.1 ⟨w, t, rfl, u, g⟩⟩)
      · exact .inr (.inr (within_iff.1 ⟨w, t, rfl, u, g⟩))
    · rintro (⟨t, rfl⟩ | ⟨m, hm, g⟩ | g)
      · refine ⟨[], a ++ t, rfl, (hrun _).2 (.inl ⟨rfl, ⟨a.reverse, t, []⟩, ?_⟩)⟩
        exact mem_lits.2 ⟨⟨rfl, by simp⟩, rfl⟩
      · obtain ⟨w, t, e, u, g⟩ := (within_iff (letter := letter)).2 g
        exact ⟨w, t, e, (hrun _).2 (.inr (.inl ⟨m, hm, u, g⟩))⟩
      · obtain ⟨w, t, e, u, g⟩ := (within_iff (letter := letter)).2 g
        exact ⟨w, t, e, (hrun _).2 (.inr (.inr ⟨u, g⟩))⟩

end Burl.Links
