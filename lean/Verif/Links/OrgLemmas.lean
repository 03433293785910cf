import Verif.Links.SetLemmas
/-! Links of a line of an Org file. -/
namespace Burl.Links
open Burl.Regex Spec Burl.Tree.Spec

/-- The expression of links with an expression for schemes. -/
def linkRe (S : Re) : Re :=
  alts [bracketRe,
    cats [.lit '<', .group 3 S, .lit ':', .group 4 (cats angleItems.reverse), .lit '>'],
    cats [.wordB, .group 5 S, .lit ':', .group 6 (cats plainItems.reverse)]]

theorem linkRe_groups {S : Re} (h : groups S = 0) : groups (linkRe S) = 6 := by
  show groups (.alt bracketRe (.alt (.cat (.lit '<') (.cat (.group 3 S) (.cat (.lit ':')
    (.cat (.group 4 (cats angleItems.reverse)) (.lit '>')))))
    (.cat .wordB (.cat (.group 5 S) (.cat (.lit ':') (.group 6 (cats plainItems.reverse))))))) = 6
  simp only [groups, h, bracketRe_groups, plainItems_groups, angleItems_groups]

/-- An expression without groups. -/
theorem run_nogroups {letter : Char → Bool} {r : Re} (hr : idxs r = []) {s s' : St}
    (h : s' ∈ run letter r s) : ∃ w, Moves s s' w ∧ s'.caps = s.caps := by
  obtain ⟨⟨w, m⟩, d, hd, hI⟩ := run_good letter r h
  rw [hr] at hI
  have : d = [] := by
    cases d with
    | nil => rfl
    | cons x xs => exact absurd (hI x (by simp)) (by simp)
  exact ⟨w, m, by rw [hd, this, List.nil_append]⟩

/-- A group around an expression without groups. -/
theorem mem_group' {letter : Char → Bool} {r : Re} (hr : idxs r = []) {i : Nat} {s s' : St}
    (h : s' ∈ run letter (.group i r) s) :
    ∃ w t, t ∈ run letter r s ∧ Moves s t w ∧ Moves s s' w ∧ s'.caps = (i, w) :: s.caps := by
  obtain ⟨t, g, rfl⟩ := mem_group.1 h
  obtain ⟨w, m, c⟩ := run_nogroups hr g
  exact ⟨w, t, g, m, m, by simp only; rw [m.between, c]⟩

/-- Inside of a link in brackets. -/
def bracketInner : Re :=
  match bracketRe with
  | .cat _ (.cat _ (.cat (.group _ r) _)) => r
  | _ => .never

def bracketRest : Re :=
  match bracketRe with
  | .cat _ (.cat _ (.cat _ (.cat _ r))) => r
  | _ => .never

theorem bracketRe_eq : bracketRe =
    .cat (.lit '[') (.cat (.lit '[') (.cat (.group 1 bracketInner) (.cat (.lit ']') bracketRest))) := by
  decide +kernel

theorem bracketInner_idxs : idxs bracketInner = [] := by decide +kernel
theorem bracketRest_idxs : idxs bracketRest = [2] := by decide +kernel

/-- A match of a link in brackets: the target is in the text between brackets. -/
theorem bracket_match {letter : Char → Bool} {s s' : St} (hc : s.caps = [])
    (h : s' ∈ run letter bracketRe s) :
    (∀ i, 3 ≤ i → (mkMatch s s').sub i = []) ∧
      Within ("[[".toList ++ (mkMatch s s').sub 1 ++ "]".toList) s.text := by
  rw [bracketRe_eq] at h
  obtain ⟨t1, g1, h⟩ := mem_cat.1 h
  obtain ⟨t2, g2, h⟩ := mem_cat.1 h
  obtain ⟨t3, g3, h⟩ := mem_cat.1 h
  obtain ⟨t4, g4, h⟩ := mem_cat.1 h
  obtain ⟨m1, c1⟩ := mem_lit'.1 g1
  obtain ⟨m2, c2⟩ := mem_lit'.1 g2
  obtain ⟨w, t, -, -, m3, c3⟩ := mem_group' bracketInner_idxs g3
  obtain ⟨m4, c4⟩ := mem_lit'.1 g4
  obtain ⟨⟨v, m5⟩, d, hd, hI⟩ := run_good letter _ h
  rw [bracketRest_idxs] at hI
  have hcaps : (mkMatch s s').caps = d ++ [(1, w)] := by
    show s'.caps = _
    rw [hd, c4, c3, c2, c1, hc]
  have h1 : (mkMatch s s').sub 1 = w := by
    unfold Match.sub
    rw [if_neg (by decide), hcaps, List.find?_append]
    have : d.find? (fun p => p.1 == 1) = none := by
      rw [List.find?_eq_none]
      intro p hp
      have := hI p hp
      simp only [List.mem_singleton] at this
      simp [this]
    rw [this]
    rfl
  refine ⟨?_, ?_⟩
  · intro i hi
    refine sub_of_not_mem (by omega) ?_
    rw [hcaps]
    intro p hp
    rcases List.mem_append.1 hp with h0 | h0
    · have := hI p h0
      simp only [List.mem_singleton] at this
      omega
    · simp only [List.mem_singleton] at h0
      subst h0
      simp only
      omega
  · rw [h1]
    refine ⟨s.pre.reverse, v ++ s'.rest, ?_⟩
    have := ((((m1.trans m2).trans m3).trans m4).trans m5).1
    unfold St.text
    rw [this]
    simp

/-- What matches of the expression of links look like. -/
theorem linkRe_match {letter : Char → Bool} {S : Re} (hS : idxs S = []) {L : Str → Prop}
    (hL : ∀ s s' w, s' ∈ run letter S s → Moves s s' w → L w) {line : Str} {m : Match}
    (h : m ∈ findAll letter (linkRe S) line) :
    ((∀ i, 3 ≤ i → m.sub i = []) ∧ Within ("[[".toList ++ m.sub 1 ++ "]".toList) line) ∨
    (m.sub 1 = [] ∧ m.sub 5 = [] ∧ L (m.sub 3) ∧
      Within ("<".toList ++ m.sub 3 ++ ":".toList ++ m.sub 4 ++ ">".toList) line) ∨
    (m.sub 1 = [] ∧ m.sub 3 = [] ∧ L (m.sub 5) ∧ Within (m.sub 5 ++ ":".toList ++ m.sub 6) line) := by
  obtain ⟨s, s', rfl, h1, hc, htext⟩ := findAll_spec h
  simp only [linkRe, mem_alts, List.mem_cons, List.not_mem_nil, or_false, exists_eq_or_imp,
    exists_eq_left] at h1
  rcases h1 with h1 | h1 | h1
  · left
    rw [← htext]
    exact bracket_match hc h1
  · right; left
    rw [mem_cats_cons (by simp)] at h1
    obtain ⟨t1, g1, h1⟩ := mem_cat.1 h1
    rw [mem_cats_cons (by simp)] at h1
    obtain ⟨t2, g2, h1⟩ := mem_cat.1 h1
    rw [mem_cats_cons (by simp)] at h1
    obtain ⟨t3, g3, h1⟩ := mem_cat.1 h1
    rw [mem_cats_cons (by simp)] at h1
    obtain ⟨t4, g4, g5⟩ := mem_cat.1 h1
    obtain ⟨m1, c1⟩ := mem_lit'.1 g1
    obtain ⟨w, t, hs, ms, m2, c2⟩ := mem_group' hS g2
    obtain ⟨m3, c3⟩ := mem_lit'.1 g3
    obtain ⟨v, t', -, -, m4, c4⟩ := mem_group' angleItems_idxs g4
    obtain ⟨m5, c5⟩ := mem_lit'.1 g5
    have hcaps : (mkMatch s s').caps = [(4, v), (3, w)] := by
      show s'.caps = _
      rw [c5, c4, c3, c2, c1, hc]
    have h3 : (mkMatch s s').sub 3 = w := by simp [Match.sub, hcaps]
    have h4 : (mkMatch s s').sub 4 = v := by simp [Match.sub, hcaps]
    refine ⟨by simp [Match.sub, hcaps], by simp [Match.sub, hcaps], ?_, ?_⟩
    · rw [h3]; exact hL _ _ _ hs ms
    · rw [h3, h4, ← htext]
      refine ⟨s.pre.reverse, s'.rest, ?_⟩
      have := ((((m1.trans m2).trans m3).trans m4).trans m5).1
      unfold St.text
      rw [this]
      simp
  · right; right
    rw [mem_cats_cons (by simp)] at h1
    obtain ⟨t1, g1, h1⟩ := mem_cat.1 h1
    rw [mem_cats_cons (by simp)] at h1
    obtain ⟨t2, g2, h1⟩ := mem_cat.1 h1
    rw [mem_cats_cons (by simp)] at h1
    obtain ⟨t3, g3, g4⟩ := mem_cat.1 h1
    obtain ⟨rfl, -⟩ := mem_wordB.1 g1
    obtain ⟨w, t, hs, ms, m2, c2⟩ := mem_group' hS g2
    obtain ⟨m3, c3⟩ := mem_lit'.1 g3
    obtain ⟨v, t', -, -, m4, c4⟩ := mem_group' plainItems_idxs g4
    have hcaps : (mkMatch t1 s').caps = [(6, v), (5, w)] := by
      show s'.caps = _
      rw [c4, c3, c2, hc]
    have h5 : (mkMatch t1 s').sub 5 = w := by simp [Match.sub, hcaps]
    have h6 : (mkMatch t1 s').sub 6 = v := by simp [Match.sub, hcaps]
    refine ⟨by simp [Match.sub, hcaps], by simp [Match.sub, hcaps], ?_, ?_⟩
    · rw [h5]; exact hL _ _ _ hs ms
    · rw [h5, h6, ← htext]
      refine ⟨t1.pre.reverse, s'.rest, ?_⟩
      have := ((m2.trans m3).trans m4).1
      unfold St.text
      rw [this]
      simp

/-- Results of a function that does not panic. -/
theorem collect_ok {α β : Type} {f : α → Res Empty (Option β)} {as : List α}
    (h : ∀ a ∈ as, ∃ o, f a = .ok o) :
    ∃ bs, collect f as = .ok bs ∧ ∀ b, b ∈ bs ↔ ∃ a ∈ as, f a = .ok (some b) := by
  induction as with
  | nil => exact ⟨[], rfl, by simp⟩
  | cons a as ih =>
    obtain ⟨bs, h1, h2⟩ := ih fun x hx => h x (by simp [hx])
    obtain ⟨o, ho⟩ := h a (by simp)
    simp only [collect, ho, Res.bind_ok]
    cases o with
    | none =>
      refine ⟨bs, h1, fun b => ?_⟩
      rw [h2]
      simp [ho]
    | some b0 =>
      refine ⟨b0 :: bs, by rw [h1]; rfl, fun b => ?_⟩
      simp only [List.mem_cons, h2, exists_eq_or_imp, ho]
      constructor
      · rintro (rfl | h)
        · exact .inl rfl
        · exact .inr h
      · rintro (h | h)
        · left
          have := Res.ok.inj h
          simpa using this.symm
        · exact .inr h

theorem idx_subs {r : Re} {m : Match} {i : Nat} (h : i ≤ groups r) :
    idx (subs r m) i = .ok (m.sub i) := by
  unfold idx
  rw [getElem?_subs h]

/-- Links of a line: each one is in the line, in brackets and accepted by the expression for
schemes, or has a scheme. -/
theorem orgLinks_spec {letter : Char → Bool} {p : OrgRe} {S : Re} (hp : p.link = linkRe S)
    (hg : groups S = 0) (hS : idxs S = []) {L : Str → Prop}
    (hL : ∀ s s' w, s' ∈ run letter S s → Moves s s' w → L w) (line : Str) :
    ∃ links, orgLinks letter p line = .ok links ∧ ∀ l ∈ links, l.url ≠ [] ∧ Within l.url line ∧
      ((∃ w, L w ∧ w ++ [':'] <+: l.url) ∨
        (Within ("[[".toList ++ l.url ++ "]".toList) line ∧
          matchString letter p.scheme l.url = true)) := by
  have hgr := linkRe_groups hg
  have hok : ∀ m ∈ findAll letter p.link line, ∃ o,
      orgLinkMatchIsUrl letter p (subs p.link m) = .ok o := by
    intro m _
    unfold orgLinkMatchIsUrl
    rw [hp, idx_subs (i := 1) (by omega), idx_subs (i := 2) (by omega), idx_subs (i := 3) (by omega),
      idx_subs (i := 4) (by omega), idx_subs (i := 5) (by omega), idx_subs (i := 6) (by omega)]
    simp only [Res.bind_ok]
    repeat' split
    all_goals exact ⟨_, rfl⟩
  obtain ⟨links, h1, h2⟩ := collect_ok hok
  refine ⟨links, h1, fun l hl => ?_⟩
  obtain ⟨m, hm, hf⟩ := (h2 l).1 hl
  rw [hp] at hm
  unfold orgLinkMatchIsUrl at hf
  rw [hp, idx_subs (i := 1) (by omega), idx_subs (i := 2) (by omega), idx_subs (i := 3) (by omega),
    idx_subs (i := 4) (by omega), idx_subs (i := 5) (by omega), idx_subs (i := 6) (by omega)] at hf
  simp only [Res.bind_ok] at hf
  have within3 : ∀ {a b c t : Str}, Within (a ++ b ++ c) t → Within b t := by
    rintro a b c t ⟨x, y, rfl⟩
    exact ⟨x ++ a, c ++ y, by simp⟩
  rcases linkRe_match hS hL hm with ⟨h3, h4⟩ | ⟨h3, h35, h4, h5⟩ | ⟨h3, h4, h5, h6⟩
  · split at hf
    · rename_i hne
      split at hf
      · rename_i hm2
        have hf := Res.ok.inj hf
        simp only [Option.some.injEq] at hf
        subst hf
        exact ⟨hne, within3 h4, .inr ⟨h4, hm2⟩⟩
      · simp at hf
    · rw [h3 3 (by omega), h3 5 (by omega)] at hf
      simp at hf
  · rw [h3] at hf
    simp only [ne_eq, not_true_eq_false, if_false] at hf
    split at hf
    · have hf := Res.ok.inj hf
      simp only [Option.some.injEq] at hf
      subst hf
      refine ⟨by simp, ?_, .inl ⟨m.sub 3, h4, m.sub 4, by simp⟩⟩
      have e : "<".toList ++ m.sub 3 ++ ":".toList ++ m.sub 4 ++ ">".toList =
        "<".toList ++ (m.sub 3 ++ ':' :: m.sub 4) ++ ">".toList := by simp
      rw [e] at h5
      exact within3 h5
    · simp at hf
  · rw [h3, h4] at hf
    simp only [ne_eq, not_true_eq_false, if_false] at hf
    split at hf
    · have hf := Res.ok.inj hf
      simp only [Option.some.injEq] at hf
      subst hf
      refine ⟨by simp, ?_, .inl ⟨m.sub 5, h5, m.sub 6, by simp⟩⟩
      have e : m.sub 5 ++ ":".toList ++ m.sub 6 = [] ++ (m.sub 5 ++ ':' :: m.sub 6) ++ [] := by simp
      rw [e] at h6
      exact within3 h6
    · simp at hf

end Burl.Links
