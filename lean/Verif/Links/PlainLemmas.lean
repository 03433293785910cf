import Verif.Links.FirstLemmas
/-! The first match of the expression of links: addresses written as is. -/
namespace Burl.Links
open Burl.Regex Spec Burl.Tree.Spec

def clsP : Cls := ⟨true, false, "][ \t\n()<>".toList.map fun d => .range d d⟩
def par1 : Re := .cat (.lit '(') (.cat (.star false (.cls clsP)) (.lit ')'))
def unit1 : Re := .alt (.cls clsP) par1
def par2 : Re := .cat (.lit '(') (.cat (.star false unit1) (.lit ')'))
def unit2 : Re := .alt (.cls clsP) par2
def clsEnd : Cls := ⟨true, false, [.punct, .range ' ' ' ', .range '\t' '\t', .range '\n' '\n']⟩
def endRe : Re := .alt (.cls clsEnd) (.alt (.lit '/') par2)

theorem plainItems_eq : plainItems.reverse = [.plus false unit2, endRe] := by decide +kernel

theorem clsP_has {letter : Char → Bool} {c : Char} : clsP.has letter c = true ↔ PlainChar c := by
  unfold clsP PlainChar
  rw [has_none]
  have : ∀ c : Char, c ∈ "][ \t\n()<>".toList ↔ c ∈ "[] \t\n()<>".toList := by
    intro c
    show c ∈ [']', '[', ' ', '\t', '\n', '(', ')', '<', '>'] ↔
      c ∈ ['[', ']', ' ', '\t', '\n', '(', ')', '<', '>']
    simp only [List.mem_cons]
    constructor <;> rintro (h | h | h)
    · exact .inr (.inl h)
    · exact .inl h
    · exact .inr (.inr h)
    · exact .inr (.inl h)
    · exact .inl h
    · exact .inr (.inr h)
  rw [this]

theorem run_char {letter : Char → Bool} {pre : List Char} {c : Char} {t : Str}
    {caps : List (Nat × Str)} (h : PlainChar c) :
    run letter (.cls clsP) ⟨pre, c :: t, caps⟩ = [⟨c :: pre, t, caps⟩] := by
  simp only [run, one, clsP_has.2 h, if_true]

theorem run_not_char {letter : Char → Bool} {pre : List Char} {c : Char} {t : Str}
    {caps : List (Nat × Str)} (h : ¬PlainChar c) :
    run letter (.cls clsP) ⟨pre, c :: t, caps⟩ = [] := by
  have : clsP.has letter c = false := by
    rw [← Bool.not_eq_true, clsP_has]; exact h
  simp only [run, one, this]
  rfl

theorem run_lit_nil {letter : Char → Bool} {c : Char} {pre : List Char}
    {caps : List (Nat × Str)} : run letter (.lit c) ⟨pre, [], caps⟩ = [] := rfl

theorem plain_ne {c : Char} (h : PlainChar c) : c ≠ '(' ∧ c ≠ ')' := by
  constructor <;> rintro rfl <;> exact h (by decide)

/-- A group with no other groups inside. -/
theorem run_par1 {letter : Char → Bool} {pre : List Char} {v t : Str}
    {caps : List (Nat × Str)} (h : ∀ c ∈ v, PlainChar c) :
    run letter par1 ⟨pre, '(' :: v ++ ')' :: t, caps⟩ =
      [⟨('(' :: v ++ [')']).reverse ++ pre, t, caps⟩] := by
  unfold par1
  simp only [run_cat (a := .lit '('), List.cons_append, run_lit_cons, List.flatMap_cons,
    List.flatMap_nil, List.append_nil]
  rw [run_cat]
  have := greedy_all (U := fun u => ∃ c, u = [c] ∧ PlainChar c) (f := run letter (.cls clsP))
    (k := run letter (.lit ')')) (r := ')' :: t) (caps := caps)
    (by rintro pre _ t ⟨c, rfl, hc⟩; simpa using run_char hc)
    (by rintro _ ⟨c, rfl, -⟩; simp)
    (fun pre => run_not_char (by unfold PlainChar; decide))
    (by rintro pre _ t ⟨c, rfl, hc⟩; exact run_lit_ne (plain_ne hc).2)
    (us := v.map fun c => [c]) (n := (v ++ ')' :: t).length) (pre := '(' :: pre)
    (by simp) (by simpa using h)
  have e : (v.map fun c => [c]).flatten = v := by
    clear h this
    induction v with
    | nil => rfl
    | cons c v ih => simp [ih]
  rw [e] at this
  show (loop false (run letter (.cls clsP)) (v ++ ')' :: t).length ⟨'(' :: pre, v ++ ')' :: t, caps⟩).flatMap _ = _
  rw [this, run_lit_cons]
  simp

/-- A part of a text with parentheses. -/
def Unit1 (u : Str) : Prop :=
  (∃ c, u = [c] ∧ PlainChar c) ∨ ∃ v, (∀ c ∈ v, PlainChar c) ∧ u = '(' :: v ++ [')']

def Unit2 (u : Str) : Prop := (∃ c, u = [c] ∧ PlainChar c) ∨ Group u

theorem paren1_units {w : Str} (h : Paren1 w) : ∃ us : List Str, us.flatten = w ∧ ∀ u ∈ us, Unit1 u := by
  induction h with
  | nil => exact ⟨[], rfl, by simp⟩
  | char hc _ ih =>
    obtain ⟨us, rfl, h⟩ := ih
    refine ⟨[_] :: us, rfl, ?_⟩
    intro u hu
    rcases List.mem_cons.1 hu with rfl | hu
    · exact .inl ⟨_, rfl, hc⟩
    · exact h u hu
  | paren hv _ ih =>
    obtain ⟨us, rfl, h⟩ := ih
    rename_i v hw
    refine ⟨('(' :: v ++ [')']) :: us, by simp, ?_⟩
    intro u hu
    rcases List.mem_cons.1 hu with rfl | hu
    · exact .inr ⟨v, hv, rfl⟩
    · exact h u hu

theorem paren2_units {w : Str} (h : Paren2 w) : ∃ us : List Str, us.flatten = w ∧ ∀ u ∈ us, Unit2 u := by
  induction h with
  | nil => exact ⟨[], rfl, by simp⟩
  | char hc _ ih =>
    obtain ⟨us, rfl, h⟩ := ih
    refine ⟨[_] :: us, rfl, ?_⟩
    intro u hu
    rcases List.mem_cons.1 hu with rfl | hu
    · exact .inl ⟨_, rfl, hc⟩
    · exact h u hu
  | group hv _ ih =>
    obtain ⟨us, rfl, h⟩ := ih
    refine ⟨_ :: us, rfl, ?_⟩
    intro u hu
    rcases List.mem_cons.1 hu with rfl | hu
    · exact .inr hv
    · exact h u hu

theorem run_unit1 {letter : Char → Bool} {pre : List Char} {u t : Str}
    {caps : List (Nat × Str)} (h : Unit1 u) :
    run letter unit1 ⟨pre, u ++ t, caps⟩ = [⟨u.reverse ++ pre, t, caps⟩] := by
  show run letter (.cls clsP) _ ++ run letter par1 _ = _
  rcases h with ⟨c, rfl, hc⟩ | ⟨v, hv, rfl⟩
  · rw [List.singleton_append, run_char hc]
    have : run letter par1 ⟨pre, c :: t, caps⟩ = [] := by
      unfold par1
      rw [run_cat, run_lit_ne (plain_ne hc).1]
      rfl
    rw [this]
    simp
  · have e : '(' :: v ++ [')'] ++ t = '(' :: v ++ ')' :: t := by simp
    rw [e, run_par1 hv]
    rw [List.cons_append, run_not_char (by unfold PlainChar; decide)]
    rfl

theorem group_run {letter : Char → Bool} {pre : List Char} {u t : Str}
    {caps : List (Nat × Str)} (h : Group u) :
    run letter par2 ⟨pre, u ++ t, caps⟩ = [⟨u.reverse ++ pre, t, caps⟩] := by
  obtain ⟨v, hv, rfl⟩ := h
  obtain ⟨us, rfl, hus⟩ := paren1_units hv
  have e : '(' :: us.flatten ++ [')'] ++ t = '(' :: (us.flatten ++ ')' :: t) := by simp
  rw [e]
  unfold par2
  simp only [run_cat (a := .lit '('), run_lit_cons, List.flatMap_cons,
    List.flatMap_nil, List.append_nil]
  rw [run_cat]
  have hU : ∀ u, Unit1 u → u ≠ [] := by
    rintro u (⟨c, rfl, -⟩ | ⟨v, -, rfl⟩) <;> simp
  have hlen : us.length ≤ us.flatten.length := by
    clear hv e
    induction us with
    | nil => simp
    | cons u us ih =>
      have := List.length_pos_iff.2 (hU u (hus u (by simp)))
      have := ih fun x hx => hus x (by simp [hx])
      simp only [List.length_cons, List.flatten_cons, List.length_append]
      omega
  have := greedy_all (U := Unit1) (f := run letter unit1)
    (k := run letter (.lit ')')) (r := ')' :: t) (caps := caps)
    (fun pre u t hu => run_unit1 hu) hU
    (by
      intro pre
      show run letter (.cls clsP) _ ++ run letter par1 _ = _
      rw [run_not_char (by unfold PlainChar; decide)]
      unfold par1
      rw [run_cat, run_lit_ne (by decide)]
      rfl)
    (by
      rintro pre _ t (⟨c, rfl, hc⟩ | ⟨v, -, rfl⟩)
      · exact run_lit_ne (plain_ne hc).2
      · exact run_lit_ne (by decide))
    (us := us) (n := (us.flatten ++ ')' :: t).length) (pre := '(' :: pre)
    (by simp only [List.length_append]; omega) hus
  show (loop false (run letter unit1) (us.flatten ++ ')' :: t).length
    ⟨'(' :: pre, us.flatten ++ ')' :: t, caps⟩).flatMap _ = _
  rw [this, run_lit_cons]
  simp

theorem run_unit2 {letter : Char → Bool} {pre : List Char} {u t : Str}
    {caps : List (Nat × Str)} (h : Unit2 u) :
    run letter unit2 ⟨pre, u ++ t, caps⟩ = [⟨u.reverse ++ pre, t, caps⟩] := by
  show run letter (.cls clsP) _ ++ run letter par2 _ = _
  rcases h with ⟨c, rfl, hc⟩ | hg
  · rw [List.singleton_append, run_char hc]
    have : run letter par2 ⟨pre, c :: t, caps⟩ = [] := by
      unfold par2
      rw [run_cat, run_lit_ne (plain_ne hc).1]
      rfl
    rw [this]
    simp
  · rw [group_run hg]
    obtain ⟨v, hv, rfl⟩ := hg
    rw [List.cons_append, List.cons_append, run_not_char (by unfold PlainChar; decide)]
    rfl

theorem unit2_ne {u : Str} (h : Unit2 u) : u ≠ [] := by
  rcases h with ⟨c, rfl, -⟩ | ⟨v, -, rfl⟩ <;> simp

theorem isPunct_mem {c : Char} (h : PState.isPunct c = true) : Punct c := by
  have hn : c.toNat < 128 := by
    simp only [PState.isPunct, Bool.or_eq_true, Bool.and_eq_true, decide_eq_true_eq] at h
    omega
  have key : ∀ n < 128, PState.isPunct (Char.ofNat n) = true →
      Char.ofNat n ∈ "!\"#$%&'()*+,-./:;<=>?@[\\]^_`{|}~".toList := by decide
  have := key c.toNat hn
  rw [Char.ofNat_toNat] at this
  exact this h

theorem mem_isPunct {c : Char} (h : Punct c) : PState.isPunct c = true := by
  have : ∀ c ∈ "!\"#$%&'()*+,-./:;<=>?@[\\]^_`{|}~".toList, PState.isPunct c = true := by decide
  exact this c h

theorem clsEnd_has {letter : Char → Bool} {c : Char} :
    clsEnd.has letter c = true ↔ ¬Punct c ∧ c ≠ ' ' ∧ c ≠ '\t' ∧ c ≠ '\n' := by
  have e : Punct c ↔ PState.isPunct c = true := ⟨mem_isPunct, isPunct_mem⟩
  rw [e]
  have : clsEnd.has letter c = !(PState.isPunct c || (decide (c = ' ') || (decide (c = '\t') ||
      decide (c = '\n')))) := by
    simp only [clsEnd, Cls.has, List.any_cons, List.any_nil, Bool.or_false, has_single]
    simp [Item.has]
  rw [this]
  simp

theorem run_end {letter : Char → Bool} {pre : List Char} {e r : Str} {caps : List (Nat × Str)}
    (h : (∃ c, e = [c] ∧ PlainChar c ∧ (¬Punct c ∨ c = '/')) ∨ Group e) :
    run letter endRe ⟨pre, e ++ r, caps⟩ = [⟨e.reverse ++ pre, r, caps⟩] := by
  show one (clsEnd.has letter) _ ++ (run letter (.lit '/') _ ++ run letter par2 _) = _
  rcases h with ⟨c, rfl, hc, hp⟩ | hg
  · have hpar : run letter par2 ⟨pre, [c] ++ r, caps⟩ = [] := by
      unfold par2
      rw [List.singleton_append, run_cat, run_lit_ne (plain_ne hc).1]
      rfl
    rw [hpar]
    by_cases hs : c = '/'
    · subst hs
      have : clsEnd.has letter '/' = false := by
        rw [← Bool.not_eq_true, clsEnd_has]
        exact fun h => h.1 (by unfold Punct; decide)
      simp only [one, List.singleton_append, this, run_lit_cons]
      rfl
    · have hp := hp.resolve_right hs
      have : clsEnd.has letter c = true := by
        rw [clsEnd_has]
        refine ⟨hp, ?_, ?_, ?_⟩ <;> rintro rfl <;> exact hc (by decide)
      simp only [one, List.singleton_append, this, run_lit_ne hs]
      rfl
  · rw [group_run hg]
    obtain ⟨v, hv, rfl⟩ := hg
    have : clsEnd.has letter '(' = false := by
      rw [← Bool.not_eq_true, clsEnd_has]
      exact fun h => h.1 (by unfold Punct; decide)
    rw [List.cons_append, List.cons_append, run_lit_ne (by decide)]
    simp [one, this]

/-- Nothing of an address at the place where it ends. -/
theorem run_stop {letter : Char → Bool} {pre : List Char} {r : Str} {caps : List (Nat × Str)}
    (h : Stops r) : run letter unit2 ⟨pre, r, caps⟩ = [] ∧ run letter endRe ⟨pre, r, caps⟩ = [] := by
  cases r with
  | nil => exact ⟨rfl, rfl⟩
  | cons c r =>
    have hc := h c rfl
    have key : ∀ c ∈ "[] \t\n)<>".toList, c ∈ "[] \t\n()<>".toList ∧ c ≠ '(' ∧ c ≠ '/' ∧
        (PState.isPunct c = true ∨ c = ' ' ∨ c = '\t' ∨ c = '\n') := by decide
    obtain ⟨h1, h2, h3, h4⟩ := key c hc
    have hpar : run letter par2 ⟨pre, c :: r, caps⟩ = [] := by
      unfold par2
      rw [run_cat, run_lit_ne h2]
      rfl
    constructor
    · show run letter (.cls clsP) _ ++ run letter par2 _ = _
      rw [hpar, run_not_char (fun h => h h1)]
      rfl
    · show one (clsEnd.has letter) _ ++ (run letter (.lit '/') _ ++ run letter par2 _) = _
      rw [hpar, run_lit_ne h3]
      have : clsEnd.has letter c = false := by
        rw [← Bool.not_eq_true, clsEnd_has]
        rintro ⟨g1, g2, g3, g4⟩
        rcases h4 with h | h | h | h
        · exact g1 (isPunct_mem h)
        · exact g2 h
        · exact g3 h
        · exact g4 h
      simp [one, this]

theorem body_first {letter : Char → Bool} {pre : List Char} {body rest : Str}
    {caps : List (Nat × Str)} (hb : PlainBody body) (hr : Stops rest) :
    (run letter (cats plainItems.reverse) ⟨pre, body ++ rest, caps⟩).head? =
      some ⟨body.reverse ++ pre, rest, caps⟩ := by
  obtain ⟨w, last, rfl, hne, hw, hl⟩ := hb
  obtain ⟨us, rfl, hus⟩ := paren2_units hw
  rw [plainItems_eq]
  show (run letter (.cat (.plus false unit2) endRe) _).head? = _
  cases us with
  | nil => exact absurd rfl hne
  | cons u us =>
    have hu := hus u (by simp)
    have hlast : Unit2 last := by
      rcases hl with ⟨c, rfl, hc, -⟩ | hg
      · exact .inl ⟨c, rfl, hc⟩
      · exact .inr hg
    have hlen : us.length ≤ us.flatten.length := by
      have hus' : ∀ x ∈ us, Unit2 x := fun x hx => hus x (by simp [hx])
      clear hw hne hus
      induction us with
      | nil => simp
      | cons u us ih =>
        have := List.length_pos_iff.2 (unit2_ne (hus' u (by simp)))
        have := ih fun x hx => hus' x (by simp [hx])
        simp only [List.length_cons, List.flatten_cons, List.length_append]
        omega
    have hl1 := List.length_pos_iff.2 (unit2_ne hlast)
    have := greedy_head (U := Unit2) (f := run letter unit2) (k := run letter endRe) (e := last)
      (r := rest) (caps := caps) (x := fun pre => ⟨last.reverse ++ pre, rest, caps⟩)
      (fun pre u t hu => run_unit2 hu) (fun u hu => unit2_ne hu)
      (fun pre => (run_stop hr).1) (fun pre => (run_stop hr).2) (fun pre => run_end hl) hlast
      (us := us) (n := (us.flatten ++ (last ++ rest)).length) (pre := u.reverse ++ pre)
      (by simp only [List.length_append]; omega) (fun x hx => hus x (by simp [hx]))
    rw [run_cat]
    have e : (u :: us).flatten ++ last ++ rest = u ++ (us.flatten ++ (last ++ rest)) := by simp
    rw [e]
    show (((run letter unit2 _).flatMap fun s' => loop false (run letter unit2) s'.rest.length s').flatMap
      _).head? = _
    rw [run_unit2 hu]
    simp only [List.flatMap_cons, List.flatMap_nil, List.append_nil]
    rw [this]
    simp

theorem isWord_iff {c : Char} : isWord c = true ↔ Alnum c := by
  unfold isWord Alnum
  simp only [Bool.or_eq_true, Bool.and_eq_true, decide_eq_true_eq, or_assoc]

theorem plain_first {letter : Char → Bool} {S : Re} {schemes : List Str} (hN : Names schemes)
    (hS : Reads' letter S schemes) {pre : List Char} {s body rest : Str} (hs : s ∈ schemes)
    (hpre : ∀ c, pre.head? = some c → ¬Alnum c) (hword : ∀ c, s.head? = some c → Alnum c)
    (hb : PlainBody body) (hr : Stops rest) :
    (run letter (linkRe S) ⟨pre, (s ++ ":".toList ++ body) ++ rest, []⟩).head? =
      some ⟨(s ++ ":".toList ++ body).reverse ++ pre, rest, [(6, body), (5, s)]⟩ := by
  obtain ⟨n1, n2, n3, n4⟩ := hN s hs
  obtain ⟨c, v, e0⟩ := List.exists_cons_of_ne_nil n1
  have hc1 : c ≠ '[' := by rintro rfl; rw [e0] at n3; simp at n3
  have hc2 : c ≠ '<' := by rintro rfl; rw [e0] at n4; simp at n4
  have e : linkRe S = .alt bracketRe (.alt (cats [.lit '<', .group 3 S, .lit ':',
      .group 4 (cats angleItems.reverse), .lit '>'])
      (cats [.wordB, .group 5 S, .lit ':', .group 6 (cats plainItems.reverse)])) := rfl
  have et : (s ++ ":".toList ++ body) ++ rest = s ++ ':' :: (body ++ rest) := by simp
  rw [e, et]
  generalize hst : (⟨pre, s ++ ':' :: (body ++ rest), []⟩ : St) = st
  have hbr : run letter bracketRe st = [] := by
    rw [← hst, e0, bracketRe_eq, run_cat, List.cons_append, run_lit_ne hc1]
    rfl
  have han : run letter (cats [.lit '<', .group 3 S, .lit ':',
      .group 4 (cats angleItems.reverse), .lit '>']) st = [] := by
    rw [← hst, e0]
    show run letter (.cat (.lit '<') _) _ = _
    rw [run_cat, List.cons_append, run_lit_ne hc2]
    rfl
  have e3 : run letter (.alt bracketRe (.alt (cats [.lit '<', .group 3 S, .lit ':',
      .group 4 (cats angleItems.reverse), .lit '>'])
      (cats [.wordB, .group 5 S, .lit ':', .group 6 (cats plainItems.reverse)]))) st =
      run letter (.cat .wordB (.cat (.group 5 S) (.cat (.lit ':') (.group 6 (cats plainItems.reverse))))) st := by
    show run letter bracketRe st ++ (run letter _ st ++ run letter _ st) = _
    rw [hbr, han]
    rfl
  rw [e3]
  have hw : run letter .wordB st = [st] := by
    have : atBoundary st = true := by
      rw [← hst, e0]
      unfold atBoundary
      simp only [List.cons_append]
      have h1 : isWord c = true := isWord_iff.2 (hword c (by rw [e0]; rfl))
      rw [h1]
      cases pre with
      | nil => rfl
      | cons d pre =>
        have : isWord d = false := by
          rw [← Bool.not_eq_true, isWord_iff]; exact hpre d rfl
        simp [this]
    show (if atBoundary st = true then [st] else []) = _
    rw [if_pos this]
  rw [run_cat, hw]
  simp only [List.flatMap_cons, List.flatMap_nil, List.append_nil]
  rw [run_cat]
  refine head?_flatMap_det (a := ⟨s.reverse ++ pre, ':' :: (body ++ rest), [(5, s)]⟩) ?_ ?_ ?_
  · intro y hy hne
    obtain ⟨z, hz0⟩ := List.exists_mem_of_ne_nil _ hne
    obtain ⟨u, hz1, -⟩ := mem_cat.1 hz0
    have hz := (mem_lit'.1 hz1).1.1
    obtain ⟨t, g1, rfl⟩ := mem_group.1 hy
    obtain ⟨w, hw, m, hc⟩ := (hS _ _).1 g1
    have e1 := m.1
    simp only at hz
    rw [hz, ← hst] at e1
    simp only [List.singleton_append] at e1
    have := colon_unique n2 (hN w hw).2.1 e1
    subst this
    rw [m.between]
    have p := m.2
    have e1 := List.append_cancel_left e1
    rw [← hst] at p hc
    cases t
    simp only at p hc hz
    subst p hc hz
    rw [List.singleton_append, ← e1]
  · refine mem_group.2 ⟨⟨s.reverse ++ pre, ':' :: (body ++ rest), []⟩, ?_, ?_⟩
    · rw [← hst]
      exact (hS _ _).2 ⟨s, hs, ⟨rfl, rfl⟩, rfl⟩
    · rw [← hst, Moves.between (w := s) ⟨rfl, rfl⟩]
  · rw [run_cat, run_lit_cons]
    simp only [List.flatMap_cons, List.flatMap_nil, List.append_nil]
    rw [run_group, List.head?_map, body_first hb hr]
    simp only [Option.map_some, Option.some.injEq]
    rw [Moves.between (w := body) ⟨rfl, rfl⟩]
    simp

end Burl.Links
