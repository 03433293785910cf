import Verif.Links.OrgLemmas
import Verif.Regex.FirstLemmas
/-! The first match of the expression of links. -/
namespace Burl.Links
open Burl.Regex Spec Burl.Tree.Spec

/-! ### Where links may begin -/

/-- The text at a place where a link begins. -/
inductive Begins (schemes : List Str) (rest : Str) : Prop where
  | bracket {c y} : rest = '[' :: '[' :: c :: y → c ≠ '[' → Begins schemes rest
  | angle {s y} : s ∈ schemes → rest = '<' :: (s ++ ':' :: y) → Begins schemes rest
  | plain {s y} : s ∈ schemes → rest = s ++ ':' :: y → Begins schemes rest

/-- What an expression for schemes matches. -/
def Reads' (letter : Char → Bool) (S : Re) (schemes : List Str) : Prop :=
  ∀ s s', s' ∈ run letter S s ↔ ∃ w ∈ schemes, Moves s s' w ∧ s'.caps = s.caps

/-- One unit of the target of a link in brackets. -/
def bracketUnit : Re :=
  match bracketInner with
  | .plus _ r => r
  | _ => .never

theorem bracketInner_eq : bracketInner = .plus false bracketUnit := by decide +kernel

theorem bracketUnit_eq : bracketUnit =
    .alt (.cls ⟨true, false, [.range ']' ']', .range '[' '[']⟩)
      (.alt (.cat (.lit '\\') (.cat (.star false (.cat (.lit '\\') (.lit '\\')))
          (.cls ⟨false, false, [.range ']' ']', .range '[' '[']⟩)))
        (.cat (.plus false (.lit '\\')) (.cls ⟨true, false, [.range ']' ']', .range '[' '[']⟩))) := by
  decide +kernel

theorem has_single {letter : Char → Bool} {c d : Char} :
    Item.has letter c (.range d d) = decide (c = d) := by
  by_cases h : c = d
  · subst h; simp [Item.has]
  · have : ¬(d ≤ c ∧ c ≤ d) := fun ⟨h1, h2⟩ => h (Char.le_antisymm h2 h1)
    simp only [Item.has, decide_eq_false h]
    rw [← Bool.not_eq_true, Bool.and_eq_true]
    simpa using this

theorem has_none {letter : Char → Bool} {cs : List Char} {c : Char} :
    Cls.has letter ⟨true, false, cs.map fun d => .range d d⟩ c = true ↔ c ∉ cs := by
  have : ∀ cs : List Char, (cs.map fun d => Item.range d d).any (Item.has letter c) =
      decide (c ∈ cs) := by
    intro cs
    induction cs with
    | nil => simp
    | cons d ds ih =>
      simp only [List.map_cons, List.any_cons, has_single, ih, List.mem_cons, Bool.decide_or]
  simp only [Cls.has, if_neg Bool.false_ne_true, List.any_cons, List.any_nil, Bool.or_false, this]
  simp

theorem notBracket {letter : Char → Bool} {c : Char} :
    Cls.has letter ⟨true, false, [.range ']' ']', .range '[' '[']⟩ c = true ↔ c ≠ ']' ∧ c ≠ '[' := by
  have := has_none (letter := letter) (cs := [']', '[']) (c := c)
  simpa using this

/-- The first character of a unit. -/
theorem bracketUnit_head {letter : Char → Bool} {s s' : St} (h : s' ∈ run letter bracketUnit s) :
    ∃ c t, s.rest = c :: t ∧ c ≠ ']' ∧ c ≠ '[' := by
  rw [bracketUnit_eq] at h
  rcases mem_alt.1 h with h | h
  · obtain ⟨c, t, h1, h2, -⟩ := mem_one.1 h
    exact ⟨c, t, h1, notBracket.1 h2⟩
  · rcases mem_alt.1 h with h | h
    · obtain ⟨t, h1, -⟩ := mem_cat.1 h
      obtain ⟨m, -⟩ := mem_lit'.1 h1
      exact ⟨_, _, m.1, by decide, by decide⟩
    · obtain ⟨t, h1, -⟩ := mem_cat.1 h
      obtain ⟨u, h2, -⟩ := mem_plus.1 h1
      obtain ⟨m, -⟩ := mem_lit'.1 h2
      exact ⟨_, _, m.1, by decide, by decide⟩

theorem link_begins {letter : Char → Bool} {S : Re} {schemes : List Str}
    (hS : Reads' letter S schemes) {s : St} (h : run letter (linkRe S) s ≠ []) :
    Begins schemes s.rest := by
  obtain ⟨s', h⟩ := List.exists_mem_of_ne_nil _ h
  simp only [linkRe, mem_alts, List.mem_cons, List.not_mem_nil, or_false, exists_eq_or_imp,
    exists_eq_left] at h
  rcases h with h | h | h
  · rw [bracketRe_eq] at h
    obtain ⟨t1, g1, h⟩ := mem_cat.1 h
    obtain ⟨t2, g2, h⟩ := mem_cat.1 h
    obtain ⟨t3, g3, h⟩ := mem_cat.1 h
    obtain ⟨m1, -⟩ := mem_lit'.1 g1
    obtain ⟨m2, -⟩ := mem_lit'.1 g2
    obtain ⟨t, g4, -⟩ := mem_group.1 g3
    rw [bracketInner_eq] at g4
    obtain ⟨u, g5, -⟩ := mem_plus.1 g4
    obtain ⟨c, y, e, -, hc⟩ := bracketUnit_head g5
    have := (m1.trans m2).1
    rw [e] at this
    exact .bracket this hc
  · rw [mem_cats_cons (by simp)] at h
    obtain ⟨t1, g1, h⟩ := mem_cat.1 h
    rw [mem_cats_cons (by simp)] at h
    obtain ⟨t2, g2, h⟩ := mem_cat.1 h
    rw [mem_cats_cons (by simp)] at h
    obtain ⟨t3, g3, -⟩ := mem_cat.1 h
    obtain ⟨m1, -⟩ := mem_lit'.1 g1
    obtain ⟨t, g4, rfl⟩ := mem_group.1 g2
    obtain ⟨w, hw, m2, -⟩ := (hS _ _).1 g4
    obtain ⟨m3, -⟩ := mem_lit'.1 g3
    have e1 := m1.1
    have e2 := m2.1
    have e3 := m3.1
    simp only at e2 e3
    rw [e3] at e2
    rw [e2] at e1
    exact .angle hw (by simpa using e1)
  · rw [mem_cats_cons (by simp)] at h
    obtain ⟨t1, g1, h⟩ := mem_cat.1 h
    rw [mem_cats_cons (by simp)] at h
    obtain ⟨t2, g2, h⟩ := mem_cat.1 h
    rw [mem_cats_cons (by simp)] at h
    obtain ⟨t3, g3, -⟩ := mem_cat.1 h
    obtain ⟨rfl, -⟩ := mem_wordB.1 g1
    obtain ⟨t, g4, rfl⟩ := mem_group.1 g2
    obtain ⟨w, hw, m2, -⟩ := (hS _ _).1 g4
    obtain ⟨m3, -⟩ := mem_lit'.1 g3
    have e2 := m2.1
    have e3 := m3.1
    simp only at e2 e3
    rw [e3] at e2
    exact .plain hw (by simpa using e2)

/-- Schemes are not empty and have no characters special for links. -/
def Names (schemes : List Str) : Prop :=
  ∀ s ∈ schemes, s ≠ [] ∧ ':' ∉ s ∧ '[' ∉ s ∧ '<' ∉ s

/-- What follows a text without links. -/
inductive Next (schemes : List Str) (t : Str) : Str → Prop where
  | done : Next schemes t []
  | bracket {y} : Next schemes t ('[' :: '[' :: y)
  | angle {y} : Next schemes t ('<' :: y)
  | plain {s y} : s ∈ schemes →
      (∀ c, t.getLast? = some c → c ≠ '<' ∧ ∀ s ∈ schemes, c ∉ s) → Next schemes t (s ++ ':' :: y)

/-- Texts before a colon. -/
theorem colon_unique {a b x y : Str} (ha : ':' ∉ a) (hb : ':' ∉ b)
    (h : a ++ ':' :: x = b ++ ':' :: y) : a = b := by
  induction a generalizing b with
  | nil =>
    cases b with
    | nil => rfl
    | cons c b =>
      simp only [List.nil_append, List.cons_append, List.cons.injEq] at h
      rw [h.1] at hb
      simp at hb
  | cons d a ih =>
    cases b with
    | nil =>
      simp only [List.nil_append, List.cons_append, List.cons.injEq] at h
      rw [← h.1] at ha
      simp at ha
    | cons c b =>
      simp only [List.cons_append, List.cons.injEq] at h
      rw [h.1, ih (by simp at ha; exact ha.2) (by simp at hb; exact hb.2) h.2]

/-- A scheme does not begin in a text without links. -/
theorem quiet_scheme {schemes : List Str} (hN : Names schemes) {t X a u w y : Str}
    (hq : Quiet schemes t) (hX : Next schemes t X) (ht : t = a ++ u) (hu : u ≠ [])
    (hw : w ∈ schemes) (h : u ++ X = w ++ ':' :: y) : False := by
  have hin : ∀ b, u = w ++ [':'] ++ b → False := by
    intro b e
    exact hq.2 w hw ⟨a, b, by rw [ht, e]; simp⟩
  have h' : u ++ X = (w ++ [':']) ++ y := by rw [h]; simp
  rcases List.append_eq_append_iff.1 h' with ⟨b, h1, h2⟩ | ⟨b, h1, -⟩
  · rcases List.eq_nil_or_concat b with rfl | ⟨b', d, rfl⟩
    · rw [List.append_nil] at h1
      exact hin [] (by rw [List.append_nil]; exact h1.symm)
    · have e : w ++ [':'] = (u ++ b') ++ [d] := by rw [h1]; simp
      have e1 := List.append_inj' e rfl
      have hd : d = ':' := by simpa using e1.2.symm
      subst hd
      have e2 := e1.1
      obtain ⟨n1, n2, n3, n4⟩ := hN w hw
      have hb' : ':' ∉ b' := fun hc => n2 (by rw [e2]; simp [hc])
      have key : ∀ c z, X = c :: z → (c = '[' ∨ c = '<') → False := by
        intro c z e hc
        rw [e] at h2
        cases b' with
        | nil =>
          simp only [List.nil_append, List.cons_append, List.concat_eq_append, List.cons.injEq] at h2
          rcases hc with rfl | rfl <;> exact absurd h2.1 (by decide)
        | cons d b' =>
          simp only [List.cons_append, List.concat_eq_append, List.cons.injEq] at h2
          have : c ∈ w := by rw [e2, h2.1]; simp
          rcases hc with rfl | rfl
          · exact n3 this
          · exact n4 this
      generalize hXe : X = X' at hX
      cases hX with
      | done =>
        rw [hXe] at h2
        simp at h2
      | bracket => exact key _ _ hXe (.inl rfl)
      | angle => exact key _ _ hXe (.inr rfl)
      | plain hs hlast =>
        rename_i s z
        rw [hXe] at h2
        have := colon_unique (hN s hs).2.1 hb' (x := z) (y := y) (by rw [h2]; simp)
        subst this
        obtain ⟨u', c, rfl⟩ := (List.eq_nil_or_concat u).resolve_left hu
        have hl : t.getLast? = some c := by rw [ht]; simp
        exact (hlast c hl).2 w hw (by rw [e2]; simp)
  · exact hin b h1

theorem quiet_silent {letter : Char → Bool} {S : Re} {schemes : List Str} (hN : Names schemes)
    (hS : Reads' letter S schemes) {pre : List Char} {t X : Str} (hq : Quiet schemes t)
    (hX : Next schemes t X) : Silent letter (linkRe S) pre t X := by
  intro a c b ht
  apply Classical.byContradiction
  intro hne
  have hb := link_begins hS hne
  simp only at hb
  cases hb with
  | bracket h1 h2 =>
    rename_i d y
    simp only [List.cons_append, List.cons.injEq] at h1
    obtain ⟨rfl, h1⟩ := h1
    cases b with
    | nil =>
      simp only [List.nil_append] at h1
      generalize hXe : X = X' at hX
      cases hX with
      | done => rw [hXe] at h1; simp at h1
      | bracket =>
        rw [hXe] at h1
        simp only [List.cons.injEq, true_and] at h1
        exact h2 h1.1.symm
      | angle =>
        rw [hXe] at h1
        simp only [List.cons.injEq] at h1
        exact absurd h1.1 (by decide)
      | plain hs hl =>
        rename_i s z
        rw [hXe] at h1
        obtain ⟨n1, n2, n3, n4⟩ := hN s hs
        cases s with
        | nil => exact n1 rfl
        | cons e s =>
          simp only [List.cons_append, List.cons.injEq] at h1
          rw [h1.1] at n3
          simp at n3
    | cons e b =>
      simp only [List.cons_append, List.cons.injEq] at h1
      obtain ⟨rfl, -⟩ := h1
      exact hq.1 ⟨a, b, by rw [ht]; simp⟩
  | angle hs h1 =>
    simp only [List.cons_append, List.cons.injEq] at h1
    obtain ⟨rfl, h1⟩ := h1
    cases b with
    | nil =>
      simp only [List.nil_append] at h1
      generalize hXe : X = X' at hX
      have key : ∀ c z, X = c :: z → (c = '[' ∨ c = '<') → False := by
        intro c z e hc
        rw [e] at h1
        obtain ⟨n1, n2, n3, n4⟩ := hN _ hs
        rename_i w y
        cases w with
        | nil => exact n1 rfl
        | cons d w =>
          simp only [List.cons_append, List.cons.injEq] at h1
          rw [← h1.1] at n3 n4
          rcases hc with rfl | rfl
          · simp at n3
          · simp at n4
      cases hX with
      | done => rw [hXe] at h1; simp at h1
      | bracket => exact key _ _ hXe (.inl rfl)
      | angle => exact key _ _ hXe (.inr rfl)
      | plain _ hlast => exact (hlast '<' (by rw [ht]; simp)).1 rfl
    | cons e b =>
      exact quiet_scheme hN hq hX (a := a ++ ['<']) (u := e :: b) (by rw [ht]; simp) (by simp) hs h1
  | plain hs h1 => exact quiet_scheme hN hq hX (a := a) (u := c :: b) ht (by simp) hs h1

/-! ### Links in angle brackets -/

/-- The part of the expression for lines after the first one. -/
def angleMore : Re :=
  match angleItems.reverse with
  | [_, .star _ r] => r
  | _ => .never

theorem angleItems_eq : angleItems.reverse = [.star false (.cls ⟨true, false,
    ['>', '\n'].map fun d => .range d d⟩), .star false angleMore] := by decide +kernel

theorem gt_unique : ∀ {a b x y : Str}, '>' ∉ a → '>' ∉ b → a ++ '>' :: x = b ++ '>' :: y →
    a = b ∧ x = y := by
  intro a
  induction a with
  | nil =>
    intro b x y _ hb h
    cases b with
    | nil => simpa using h
    | cons c b =>
      simp only [List.nil_append, List.cons_append, List.cons.injEq] at h
      rw [← h.1] at hb
      simp at hb
  | cons d a ih =>
    intro b x y ha hb h
    cases b with
    | nil =>
      simp only [List.nil_append, List.cons_append, List.cons.injEq] at h
      rw [h.1] at ha
      simp at ha
    | cons c b =>
      simp only [List.cons_append, List.cons.injEq] at h
      obtain ⟨g1, g2⟩ := ih (by simp at ha; exact ha.2) (by simp at hb; exact hb.2) h.2
      exact ⟨by rw [h.1, g1], g2⟩

theorem angle_first {letter : Char → Bool} {S : Re} {schemes : List Str} (hN : Names schemes)
    (hS : Reads' letter S schemes) {pre : List Char} {s suffix rest : Str} (hs : s ∈ schemes)
    (hx : ∀ c ∈ suffix, c ≠ '>' ∧ c ≠ '\n') :
    (run letter (linkRe S)
      ⟨pre, ("<".toList ++ s ++ ":".toList ++ suffix ++ ">".toList) ++ rest, []⟩).head? =
      some ⟨("<".toList ++ s ++ ":".toList ++ suffix ++ ">".toList).reverse ++ pre, rest,
        [(4, suffix), (3, s)]⟩ := by
  have hbr : run letter bracketRe
      ⟨pre, ("<".toList ++ s ++ ":".toList ++ suffix ++ ">".toList) ++ rest, []⟩ = [] := by
    rw [bracketRe_eq]
    rfl
  have e : linkRe S = .alt bracketRe (.alt (cats [.lit '<', .group 3 S, .lit ':',
      .group 4 (cats angleItems.reverse), .lit '>'])
      (cats [.wordB, .group 5 S, .lit ':', .group 6 (cats plainItems.reverse)])) := rfl
  rw [e]
  simp only [run]
  rw [hbr, List.nil_append, List.head?_append]
  rw [head?_of_all_eq (a := ⟨("<".toList ++ s ++ ":".toList ++ suffix ++ ">".toList).reverse ++ pre,
    rest, [(4, suffix), (3, s)]⟩)]
  · rfl
  · intro x hxm
    rw [mem_cats_cons (by simp)] at hxm
    obtain ⟨t1, g1, hxm⟩ := mem_cat.1 hxm
    rw [mem_cats_cons (by simp)] at hxm
    obtain ⟨t2, g2, hxm⟩ := mem_cat.1 hxm
    rw [mem_cats_cons (by simp)] at hxm
    obtain ⟨t3, g3, hxm⟩ := mem_cat.1 hxm
    rw [mem_cats_cons (by simp)] at hxm
    obtain ⟨t4, g4, g5⟩ := mem_cat.1 hxm
    obtain ⟨m1, c1⟩ := mem_lit'.1 g1
    obtain ⟨t2', g2', rfl⟩ := mem_group.1 g2
    obtain ⟨w, hw, m2, c2⟩ := (hS _ _).1 g2'
    obtain ⟨m3, c3⟩ := mem_lit'.1 g3
    obtain ⟨v, t', g4', m4', m4, c4⟩ := mem_group' angleItems_idxs g4
    obtain ⟨m5, c5⟩ := mem_lit'.1 g5
    obtain ⟨v', m6, hv⟩ := run_avoids letter (c := '>') _ (by decide +kernel) g4'
    have := m6.unique m4'
    subst this
    have e1 := m1.1
    have e2 := m2.1
    have e3 := m3.1
    have e4 := m4.1
    have e5 := m5.1
    simp only at e2 e3
    rw [e4, e5] at e3
    rw [e3] at e2
    rw [e2] at e1
    simp only [List.append_assoc] at e1
    have e1 : s ++ ':' :: (suffix ++ '>' :: rest) = w ++ ':' :: (v' ++ '>' :: x.rest) := by
      simpa using e1
    have hsw := colon_unique (hN s hs).2.1 (hN w hw).2.1 e1
    subst hsw
    have e1 : suffix ++ '>' :: rest = v' ++ '>' :: x.rest := by simpa using e1
    obtain ⟨rfl, hr⟩ := gt_unique (fun hc => (hx _ hc).1 rfl) hv e1
    have p1 := m1.2
    have p2 := m2.2
    have p3 := m3.2
    have p4 := m4.2
    have p5 := m5.2
    simp only at p2 p3
    have hcaps : x.caps = [(4, suffix), (3, s)] := by
      rw [c5, c4, c3]
      simp only
      rw [m2.between, c2, c1]
    have hpre : x.pre = ("<".toList ++ s ++ ":".toList ++ suffix ++ ">".toList).reverse ++ pre := by
      rw [p5, p4, p3, p2, p1]
      simp
    cases x
    simp only at hr hcaps hpre
    subst hr hcaps hpre
    rfl
  · rw [mem_cats_cons (by simp)]
    refine mem_cat.2 ⟨⟨'<' :: pre, s ++ ':' :: (suffix ++ '>' :: rest), []⟩, mem_lit'.2 ⟨⟨?_, rfl⟩, rfl⟩, ?_⟩
    · simp
    rw [mem_cats_cons (by simp)]
    refine mem_cat.2 ⟨⟨s.reverse ++ '<' :: pre, ':' :: (suffix ++ '>' :: rest), [(3, s)]⟩,
      mem_group.2 ⟨⟨s.reverse ++ '<' :: pre, ':' :: (suffix ++ '>' :: rest), []⟩,
        (hS _ _).2 ⟨s, hs, ⟨rfl, rfl⟩, rfl⟩, ?_⟩, ?_⟩
    · rw [Moves.between (w := s) ⟨rfl, rfl⟩]
    rw [mem_cats_cons (by simp)]
    refine mem_cat.2 ⟨⟨':' :: (s.reverse ++ '<' :: pre), suffix ++ '>' :: rest, [(3, s)]⟩,
      mem_lit'.2 ⟨⟨rfl, rfl⟩, rfl⟩, ?_⟩
    rw [mem_cats_cons (by simp)]
    refine mem_cat.2 ⟨⟨suffix.reverse ++ ':' :: (s.reverse ++ '<' :: pre), '>' :: rest,
      [(4, suffix), (3, s)]⟩, mem_group.2 ⟨⟨suffix.reverse ++ ':' :: (s.reverse ++ '<' :: pre),
        '>' :: rest, [(3, s)]⟩, ?_, ?_⟩, ?_⟩
    · rw [angleItems_eq, mem_cats_cons (by simp)]
      refine mem_cat.2 ⟨⟨suffix.reverse ++ ':' :: (s.reverse ++ '<' :: pre),
        '>' :: rest, [(3, s)]⟩, (mem_star_one (p := Cls.has letter ⟨true, false,
        ['>', '\n'].map fun d => .range d d⟩) rfl).2 ⟨suffix, ⟨rfl, rfl⟩, rfl, ?_⟩, ?_⟩
      · intro c hc
        rw [has_none]
        have := hx c hc
        simp [this.1, this.2]
      · exact mem_star.2 .refl
    · rw [Moves.between (w := suffix) ⟨rfl, rfl⟩]
    · refine mem_lit'.2 ⟨⟨rfl, ?_⟩, rfl⟩
      simp

/-! ### Links in double brackets -/

theorem run_lit_cons {letter : Char → Bool} {c : Char} {pre : List Char} {t : Str}
    {caps : List (Nat × Str)} :
    run letter (.lit c) ⟨pre, c :: t, caps⟩ = [⟨c :: pre, t, caps⟩] := by
  simp [run, one]

theorem run_lit_ne {letter : Char → Bool} {c d : Char} {pre : List Char} {t : Str}
    {caps : List (Nat × Str)} (h : d ≠ c) : run letter (.lit c) ⟨pre, d :: t, caps⟩ = [] := by
  simp [run, one, h]

/-- A unit of a target without special characters. -/
theorem bracketUnit_step {letter : Char → Bool} {s s' : St} {v x : Str}
    (hv : ∀ c ∈ v, c ∉ "[]\\".toList) (hr : s.rest = v ++ ']' :: x)
    (h : s' ∈ run letter bracketUnit s) :
    ∃ c v', v = c :: v' ∧ Moves s s' [c] ∧ s'.caps = s.caps := by
  have hbs : ∀ t, s.rest ≠ '\\' :: t := by
    intro t e
    rw [hr] at e
    cases v with
    | nil => simp only [List.nil_append, List.cons.injEq] at e; exact absurd e.1 (by decide)
    | cons c v =>
      simp only [List.cons_append, List.cons.injEq] at e
      exact hv c (by simp) (by rw [e.1]; decide)
  rw [bracketUnit_eq] at h
  rcases mem_alt.1 h with h | h
  · obtain ⟨c, hc⟩ := mem_cls.1 h
    obtain ⟨m, h2, h3⟩ := hc
    have h3 := notBracket.1 (h3 c (by simp))
    have e := m.1
    rw [hr] at e
    cases v with
    | nil =>
      simp only [List.nil_append, List.cons_append, List.cons.injEq] at e
      exact absurd e.1.symm h3.1
    | cons d v =>
      simp only [List.cons_append, List.cons.injEq, List.nil_append] at e
      exact ⟨d, v, rfl, by rw [e.1]; exact m, h2⟩
  · rcases mem_alt.1 h with h | h
    · obtain ⟨t, h1, -⟩ := mem_cat.1 h
      exact absurd (mem_lit'.1 h1).1.1 (hbs _)
    · obtain ⟨t, h1, -⟩ := mem_cat.1 h
      obtain ⟨u, h2, -⟩ := mem_plus.1 h1
      exact absurd (mem_lit'.1 h2).1.1 (hbs _)

theorem bracketUnit_iter {letter : Char → Bool} {s s' : St} {x : Str}
    (h : Iter (run letter bracketUnit) s s') : ∀ {v : Str}, (∀ c ∈ v, c ∉ "[]\\".toList) →
      s.rest = v ++ ']' :: x → ∃ a b, v = a ++ b ∧ Moves s s' a ∧ s'.caps = s.caps := by
  induction h with
  | refl => intro v _ _; exact ⟨[], v, rfl, .refl _, rfl⟩
  | step h1 _ _ ih =>
    intro v hv hr
    obtain ⟨c, v', rfl, m, hc⟩ := bracketUnit_step hv hr h1
    have e := m.1
    rw [hr] at e
    obtain ⟨a, b, rfl, m', hc'⟩ := ih (v := v') (fun d hd => hv d (by simp [hd]))
      (by simpa using e.symm)
    exact ⟨c :: a, b, rfl, m.trans m', by rw [hc', hc]⟩

theorem bracketUnit_char {letter : Char → Bool} {c : Char} (hc : c ∉ "[]\\".toList)
    {pre : List Char} {t : Str} {caps : List (Nat × Str)} :
    (⟨c :: pre, t, caps⟩ : St) ∈ run letter bracketUnit ⟨pre, c :: t, caps⟩ := by
  rw [bracketUnit_eq]
  refine mem_alt.2 (.inl (mem_one.2 ⟨c, t, rfl, notBracket.2 ⟨?_, ?_⟩, rfl⟩))
  · rintro rfl; exact hc (by decide)
  · rintro rfl; exact hc (by decide)

theorem bracketUnit_reads {letter : Char → Bool} {v : Str} (hv : ∀ c ∈ v, c ∉ "[]\\".toList)
    {pre : List Char} {t : Str} {caps : List (Nat × Str)} :
    Iter (run letter bracketUnit) ⟨pre, v ++ t, caps⟩ ⟨v.reverse ++ pre, t, caps⟩ := by
  induction v generalizing pre with
  | nil => exact .refl
  | cons c v ih =>
    have := ih (pre := c :: pre) fun d hd => hv d (by simp [hd])
    exact .step (t := ⟨c :: pre, v ++ t, caps⟩) (bracketUnit_char (hv c (by simp))) (by simp)
      (by simpa using this)

/-- The target followed by a bracket. -/
theorem bracketInner_first {letter : Char → Bool} {url : Str} (hu : Target url) {x : Str}
    {pre : List Char} :
    (∀ y ∈ run letter (.group 1 bracketInner) ⟨pre, url ++ ']' :: x, []⟩, ∀ z, y.rest = ']' :: z →
      y = ⟨url.reverse ++ pre, ']' :: x, [(1, url)]⟩) ∧
    (⟨url.reverse ++ pre, ']' :: x, [(1, url)]⟩ : St) ∈
      run letter (.group 1 bracketInner) ⟨pre, url ++ ']' :: x, []⟩ := by
  obtain ⟨hne, hv⟩ := hu
  rw [bracketInner_eq]
  constructor
  · intro y hy z hz
    obtain ⟨t, g1, rfl⟩ := mem_group.1 hy
    obtain ⟨u, g2, g3⟩ := mem_plus.1 g1
    have g : Iter (run letter bracketUnit) ⟨pre, url ++ ']' :: x, []⟩ t := by
      obtain ⟨c, v', e, m, -⟩ := bracketUnit_step hv rfl g2
      refine .step g2 ?_ g3
      have := m.1
      simp only at this
      rw [this]
      simp
    obtain ⟨a, b, e, m, hc⟩ := bracketUnit_iter g hv rfl
    have e1 := m.1
    simp only at e1 hz
    rw [hz, e, List.append_assoc] at e1
    replace e1 := List.append_cancel_left e1
    have hb : b = [] := by
      cases b with
      | nil => rfl
      | cons c b =>
        simp only [List.cons_append, List.cons.injEq] at e1
        exact absurd (hv c (by rw [e]; simp)) (by rw [e1.1]; decide)
    subst hb
    rw [List.append_nil] at e
    subst e
    rw [m.between]
    have p := m.2
    cases t
    simp only at p hc hz
    simp only [List.nil_append, List.cons.injEq, true_and] at e1
    subst p hc hz e1
    rfl
  · refine mem_group.2 ⟨⟨url.reverse ++ pre, ']' :: x, []⟩, ?_, by
      rw [Moves.between (w := url) ⟨rfl, rfl⟩]⟩
    obtain ⟨c, v, rfl⟩ := List.exists_cons_of_ne_nil hne
    refine mem_plus.2 ⟨⟨c :: pre, v ++ ']' :: x, []⟩, bracketUnit_char (hv c (by simp)), ?_⟩
    have := bracketUnit_reads (letter := letter) (v := v) (fun d hd => hv d (by simp [hd]))
      (pre := c :: pre) (t := ']' :: x) (caps := [])
    simpa using this

theorem bracketRest_eq : bracketRest = .cat (.opt false (.cat (.lit '[') (.cat
    (.group 2 (.plus true (.alt .any (.lit '\n')))) (.lit ']')))) (.lit ']') := by decide +kernel

theorem run_anything {letter : Char → Bool} {pre : List Char} {c : Char} {t : Str}
    {caps : List (Nat × Str)} :
    run letter (.alt .any (.lit '\n')) ⟨pre, c :: t, caps⟩ = [⟨c :: pre, t, caps⟩] := by
  by_cases h : c = '\n'
  · subst h; simp [run, one]
  · simp [run, one, h]

/-- After the target. -/
theorem bracketRest_first {letter : Char → Bool} {part descr rest : Str} (h : Described part descr)
    {pre : List Char} {caps : List (Nat × Str)} :
    ∃ d, (run letter bracketRest ⟨pre, part ++ ']' :: rest, caps⟩).head? =
      some ⟨']' :: (part.reverse ++ pre), rest, d ++ caps⟩ ∧
      ((part = [] ∧ d = []) ∨ d = [(2, descr)]) := by
  rw [bracketRest_eq]
  rcases h with ⟨rfl, rfl⟩ | ⟨rfl, hne, hw⟩
  · refine ⟨[], ?_, .inl ⟨rfl, rfl⟩⟩
    simp only [run_cat, run_opt, List.nil_append, run_lit_ne (show ']' ≠ '[' by decide),
      List.flatMap_nil, List.flatMap_cons, run_lit_cons, List.append_nil]
    rfl
  · refine ⟨[(2, descr)], ?_, .inr rfl⟩
    obtain ⟨c, w, rfl⟩ := List.exists_cons_of_ne_nil hne
    have e1 : '[' :: (c :: w) ++ [']'] ++ ']' :: rest = '[' :: (c :: (w ++ ']' :: ']' :: rest)) := by
      simp
    rw [e1]
    simp only [run_cat, run_opt, run_lit_cons, List.flatMap_cons, List.flatMap_nil, List.append_nil,
      List.flatMap_append, List.head?_append, run_group]
    have key := lazy_head (f := run letter (.alt .any (.lit '\n')))
      (k := fun t => ((run letter (.lit ']') { t with caps :=
        (2, between ⟨'[' :: pre, c :: (w ++ ']' :: ']' :: rest), caps⟩ t) :: t.caps }).flatMap
          (run letter (.lit ']')))) (r := ']' :: ']' :: rest) (caps := caps)
      (x := ⟨']' :: ']' :: (w.reverse ++ (c :: '[' :: pre)), rest, (2, c :: w) :: caps⟩)
      (fun pre c t => run_anything) (w := w) (n := (w ++ ']' :: ']' :: rest).length)
      (pre := c :: '[' :: pre) (by simp) ?_ ?_
    · have e2 : run letter (.plus true (.alt .any (.lit '\n')))
          ⟨'[' :: pre, c :: (w ++ ']' :: ']' :: rest), caps⟩ =
          loop true (run letter (.alt .any (.lit '\n'))) (w ++ ']' :: ']' :: rest).length
            ⟨c :: '[' :: pre, w ++ ']' :: ']' :: rest, caps⟩ := by
        show (run letter (.alt .any (.lit '\n')) _).flatMap _ = _
        rw [run_anything]
        simp
      rw [e2, List.flatMap_map, List.flatMap_assoc]
      rw [key]
      simp
    · intro a b e hb pre'
      cases b with
      | nil => exact absurd rfl hb
      | cons d b =>
        by_cases hd : d = ']'
        · subst hd
          simp only [List.cons_append]
          rw [run_lit_cons]
          simp only [List.flatMap_cons, List.flatMap_nil, List.append_nil]
          cases b with
          | nil =>
            exfalso
            refine hw ⟨c :: a, [], ?_⟩
            rw [e]
            simp
          | cons d b =>
            by_cases hd : d = ']'
            · subst hd
              exfalso
              refine hw ⟨c :: a, b ++ [']'], ?_⟩
              rw [e]
              simp
            · exact run_lit_ne hd
        · simp only [List.cons_append]
          rw [run_lit_ne hd]
          rfl
    · simp only
      rw [run_lit_cons]
      simp only [List.flatMap_cons, List.flatMap_nil, List.append_nil]
      rw [run_lit_cons, Moves.between (w := c :: w) ⟨by simp, by simp⟩]
      rfl

theorem bracketRe_first {letter : Char → Bool} {pre : List Char} {url part descr rest : Str}
    (hu : Target url) (hd : Described part descr) :
    ∃ d, (run letter bracketRe
      ⟨pre, ("[[".toList ++ url ++ "]".toList ++ part ++ "]".toList) ++ rest, []⟩).head? =
      some ⟨("[[".toList ++ url ++ "]".toList ++ part ++ "]".toList).reverse ++ pre, rest,
        d ++ [(1, url)]⟩ ∧ ((part = [] ∧ d = []) ∨ d = [(2, descr)]) := by
  obtain ⟨d, h1, h2⟩ := bracketRest_first (letter := letter) (rest := rest) hd
    (pre := ']' :: (url.reverse ++ '[' :: '[' :: pre)) (caps := [(1, url)])
  refine ⟨d, ?_, h2⟩
  have e2 : ("[[".toList ++ url ++ "]".toList ++ part ++ "]".toList) ++ rest =
      '[' :: '[' :: (url ++ ']' :: (part ++ ']' :: rest)) := by simp
  rw [e2]
  rw [bracketRe_eq]
  simp only [run_cat (a := .lit '['), run_lit_cons, List.flatMap_cons, List.flatMap_nil, List.append_nil]
  rw [run_cat]
  obtain ⟨g1, g2⟩ := bracketInner_first (letter := letter) hu (x := part ++ ']' :: rest)
    (pre := '[' :: '[' :: pre)
  refine head?_flatMap_det (a := ⟨url.reverse ++ '[' :: '[' :: pre, ']' :: (part ++ ']' :: rest),
    [(1, url)]⟩) ?_ g2 ?_
  · intro y hy hne
    obtain ⟨z, hz⟩ := List.exists_mem_of_ne_nil _ hne
    obtain ⟨t, hz, -⟩ := mem_cat.1 hz
    exact g1 y hy _ (mem_lit'.1 hz).1.1
  · rw [run_cat, run_lit_cons]
    simp only [List.flatMap_cons, List.flatMap_nil, List.append_nil]
    rw [h1]
    simp

theorem bracket_first {letter : Char → Bool} {S : Re} {pre : List Char} {url part descr rest : Str}
    (hu : Target url) (hd : Described part descr) :
    ∃ d, (run letter (linkRe S)
      ⟨pre, ("[[".toList ++ url ++ "]".toList ++ part ++ "]".toList) ++ rest, []⟩).head? =
      some ⟨("[[".toList ++ url ++ "]".toList ++ part ++ "]".toList).reverse ++ pre, rest,
        d ++ [(1, url)]⟩ ∧ ((part = [] ∧ d = []) ∨ d = [(2, descr)]) := by
  obtain ⟨d, key, h2⟩ := bracketRe_first (letter := letter) (rest := rest) (pre := pre) hu hd
  refine ⟨d, ?_, h2⟩
  show (run letter bracketRe _ ++ run letter (.alt _ _) _).head? = _
  rw [List.head?_append, key]
  rfl

end Burl.Links
