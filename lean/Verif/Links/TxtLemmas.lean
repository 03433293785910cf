import Verif.Links.SetLemmas
import Verif.Loop
/-! Links of words of a text file. -/
namespace Burl.Links
open Burl.Regex Spec Burl.Tree.Spec

section
variable {letter : Char → Bool} {s s' : St} {r : Re} {p : Char → Bool}

theorem times_reads {n : Nat} (h : s' ∈ times (one p) n s) :
    ∃ w, w.length = n ∧ Reads p s s' w := by
  induction n generalizing s with
  | zero => simp only [times, List.mem_singleton] at h; subst h; exact ⟨[], rfl, .refl _, rfl, by simp⟩
  | succ n ih =>
    obtain ⟨t, h1, h2⟩ := List.mem_flatMap.1 h
    obtain ⟨c, m1, c1, p1⟩ := one_reads.1 h1
    obtain ⟨w, hl, m2, c2, p2⟩ := ih h2
    refine ⟨[c] ++ w, by simp [hl], m1.trans m2, by rw [c2, c1], ?_⟩
    intro d hd
    rcases List.mem_append.1 hd with h | h
    · exact p1 d h
    · exact p2 d h

theorem mem_rep_one (h : run letter r = one p) {lo hi : Nat}
    (hm : s' ∈ run letter (.rep lo hi r) s) : ∃ w, lo ≤ w.length ∧ Reads p s s' w := by
  simp only [run, List.mem_flatMap] at hm
  obtain ⟨t, h1, h2⟩ := hm
  rw [h] at h1 h2
  obtain ⟨v, hl, m1, c1, p1⟩ := times_reads h1
  obtain ⟨w, m2, c2, p2⟩ := iter_one.1 (loop_iter h2)
  refine ⟨v ++ w, by simp; omega, m1.trans m2, by rw [c2, c1], ?_⟩
  intro d hd
  rcases List.mem_append.1 hd with h | h
  · exact p1 d h
  · exact p2 d h

end

def clsAlpha : Cls := ⟨false, false, [.alpha]⟩
def clsPart : Cls := ⟨false, false, [.letter, .range '0' '9']⟩
def clsInner : Cls := ⟨false, false, [.letter, .range '0' '9', .range '_' '_', .range '-' '-']⟩
def clsL : Cls := ⟨false, false, [.letter]⟩
def clsPath : Cls := ⟨false, false, [.letter, .range '0' '9', .range '.' '.', .range '@' '@',
  .range ',' ',', .range '~' '~', .range '_' '_', .range '-' '-']⟩
def clsHex : Cls := ⟨false, false, [.range '0' '9', .range 'a' 'f', .range 'A' 'F']⟩

def reScheme : Re := .cat (.plus false (.cls clsAlpha)) (.cat (.lit ':')
  (.opt false (.group 2 (.cat (.lit '/') (.lit '/')))))
def rePart : Re := .cat (.opt false (.cat (.cls clsPart) (.rep 0 62 (.cls clsInner))))
  (.cat (.cls clsPart) (.lit '.'))
def reTop : Re := .cat (.rep 2 64 (.cls clsL)) (.opt false (.lit '.'))
def reSeg : Re := .cat (.lit '/') (.star false (.alt (.cls clsPath)
  (.cat (.lit '%') (.rep 2 2 (.cls clsHex)))))

theorem reUrl_eq : reUrl = .cat (.opt false (.group 1 reScheme))
    (.cat (.opt false (.group 3 (.cat (.rep 0 16 rePart) (.group 4 reTop))))
      (.opt false (.group 5 (.star false reSeg)))) := by
  decide +kernel

theorem reUrl_groups : groups reUrl = 5 := by decide +kernel

section
variable {letter : Char → Bool} {s s' : St}

theorem has_alpha {c : Char} (h : clsAlpha.has letter c = true) :
    ('A' ≤ c ∧ c ≤ 'Z') ∨ ('a' ≤ c ∧ c ≤ 'z') := by
  simpa [Cls.has, clsAlpha, Item.has, isAlpha] using h

theorem has_part {c : Char} (h : clsPart.has letter c = true) :
    letter c = true ∨ ('0' ≤ c ∧ c ≤ '9') := by
  simpa [Cls.has, clsPart, Item.has] using h

theorem eq_of_le_le {c d : Char} (h : d ≤ c ∧ c ≤ d) : c = d := by
  have h1 : d.toNat ≤ c.toNat := h.1
  have h2 : c.toNat ≤ d.toNat := h.2
  exact toNat_inj (by omega)

theorem has_inner {c : Char} (h : clsInner.has letter c = true) :
    letter c = true ∨ ('0' ≤ c ∧ c ≤ '9') ∨ c = '_' ∨ c = '-' := by
  have : letter c = true ∨ ('0' ≤ c ∧ c ≤ '9') ∨ ('_' ≤ c ∧ c ≤ '_') ∨ ('-' ≤ c ∧ c ≤ '-') := by
    simpa [Cls.has, clsInner, Item.has] using h
  rcases this with h | h | h | h
  · exact .inl h
  · exact .inr (.inl h)
  · exact .inr (.inr (.inl (eq_of_le_le h)))
  · exact .inr (.inr (.inr (eq_of_le_le h)))

theorem has_L {c : Char} (h : clsL.has letter c = true) : letter c = true := by
  simpa [Cls.has, clsL, Item.has] using h

/-- Characters of paths. -/
def PathChar (letter : Char → Bool) (c : Char) : Prop :=
  letter c = true ∨ ('0' ≤ c ∧ c ≤ '9') ∨ ('a' ≤ c ∧ c ≤ 'f') ∨ ('A' ≤ c ∧ c ≤ 'F') ∨
    c ∈ "./@,~_-%".toList

theorem has_path {c : Char} (h : clsPath.has letter c = true) : PathChar letter c := by
  have : letter c = true ∨ ('0' ≤ c ∧ c ≤ '9') ∨ ('.' ≤ c ∧ c ≤ '.') ∨ ('@' ≤ c ∧ c ≤ '@') ∨
      (',' ≤ c ∧ c ≤ ',') ∨ ('~' ≤ c ∧ c ≤ '~') ∨ ('_' ≤ c ∧ c ≤ '_') ∨ ('-' ≤ c ∧ c ≤ '-') := by
    simpa [Cls.has, clsPath, Item.has] using h
  rcases this with h | h | h | h | h | h | h | h
  · exact .inl h
  · exact .inr (.inl h)
  all_goals (rw [eq_of_le_le h]; exact .inr (.inr (.inr (.inr (by decide)))))

theorem has_hex {c : Char} (h : clsHex.has letter c = true) : PathChar letter c := by
  have : ('0' ≤ c ∧ c ≤ '9') ∨ ('a' ≤ c ∧ c ≤ 'f') ∨ ('A' ≤ c ∧ c ≤ 'F') := by
    simpa [Cls.has, clsHex, Item.has] using h
  rcases this with h | h | h
  · exact .inr (.inl h)
  · exact .inr (.inr (.inl h))
  · exact .inr (.inr (.inr (.inl h)))

theorem mem_scheme (h : s' ∈ run letter reScheme s) :
    ∃ w, Moves s s' w ∧ SchemePart w ∧ (s'.caps = s.caps ∨ ∃ x, s'.caps = (2, x) :: s.caps) := by
  obtain ⟨t, g1, g2⟩ := mem_cat.1 h
  obtain ⟨u, g3, g4⟩ := mem_cat.1 g2
  obtain ⟨w, hw, m1, c1, p1⟩ := (mem_plus_one rfl).1 g1
  obtain ⟨m2, c2⟩ := mem_lit'.1 g3
  rcases mem_opt.1 g4 with g5 | rfl
  · obtain ⟨v, g6, rfl⟩ := mem_group.1 g5
    obtain ⟨v', g7, g8⟩ := mem_cat.1 g6
    obtain ⟨m3, c3⟩ := mem_lit'.1 g7
    obtain ⟨m4, c4⟩ := mem_lit'.1 g8
    refine ⟨_, (m1.trans m2).trans (m3.trans m4), ⟨w, hw, fun c hc => has_alpha (p1 c hc), .inr ?_⟩,
      .inr ⟨between u v, ?_⟩⟩
    · simp
    · simp only; rw [c4, c3, c2, c1]
  · exact ⟨_, m1.trans m2, ⟨w, hw, fun c hc => has_alpha (p1 c hc), .inl rfl⟩,
      .inl (by rw [c2, c1])⟩

theorem mem_part (h : s' ∈ run letter rePart s) : ∃ part, part ≠ [] ∧
    (∀ c ∈ part, letter c = true ∨ ('0' ≤ c ∧ c ≤ '9') ∨ c = '_' ∨ c = '-') ∧
    Moves s s' (part ++ ['.']) ∧ s'.caps = s.caps := by
  obtain ⟨t, g1, g2⟩ := mem_cat.1 h
  obtain ⟨u, g3, g4⟩ := mem_cat.1 g2
  obtain ⟨c, m1, c1, p1⟩ := mem_cls.1 g3
  obtain ⟨m2, c2⟩ := mem_lit'.1 g4
  have weak : ∀ d, clsPart.has letter d = true →
      letter d = true ∨ ('0' ≤ d ∧ d ≤ '9') ∨ d = '_' ∨ d = '-' := by
    intro d hd
    rcases has_part hd with h | h
    · exact .inl h
    · exact .inr (.inl h)
  rcases mem_opt.1 g1 with g5 | rfl
  · obtain ⟨v, g6, g7⟩ := mem_cat.1 g5
    obtain ⟨d, m3, c3, p3⟩ := mem_cls.1 g6
    obtain ⟨w, -, m4, c4, p4⟩ := mem_rep_one rfl g7
    refine ⟨[d] ++ w ++ [c], by simp, ?_, ?_, by rw [c2, c1, c4, c3]⟩
    · intro e he
      rcases List.mem_append.1 he with he | he
      · rcases List.mem_append.1 he with he | he
        · exact weak _ (p3 e he)
        · exact has_inner (p4 e he)
      · exact weak _ (p1 e he)
    · have := (m3.trans m4).trans (m1.trans m2)
      simpa using this
  · exact ⟨[c], by simp, fun e he => weak _ (p1 e he), m1.trans m2, by rw [c2, c1]⟩

theorem iter_dotted (h : Iter (run letter rePart) s s') :
    ∃ w, Moves s s' w ∧ s'.caps = s.caps ∧ Dotted letter w := by
  induction h with
  | refl => exact ⟨[], .refl _, rfl, .nil⟩
  | step h1 _ _ ih =>
    obtain ⟨part, hne, hp, m1, c1⟩ := mem_part h1
    obtain ⟨w, m2, c2, hd⟩ := ih
    refine ⟨_, m1.trans m2, by rw [c2, c1], ?_⟩
    have : part ++ ['.'] ++ w = part ++ '.' :: w := by simp
    rw [this]
    exact .cons hne hp hd

theorem mem_dots {hi : Nat} (h : s' ∈ run letter (.rep 0 hi rePart) s) :
    ∃ w, Moves s s' w ∧ s'.caps = s.caps ∧ Dotted letter w := by
  simp only [run, times, List.mem_flatMap, List.mem_singleton, exists_eq_left] at h
  exact iter_dotted (loop_iter h)

theorem mem_top (h : s' ∈ run letter reTop s) :
    ∃ w, Moves s s' w ∧ s'.caps = s.caps ∧ TopLevel letter w := by
  obtain ⟨t, g1, g2⟩ := mem_cat.1 h
  obtain ⟨w, hl, m1, c1, p1⟩ := mem_rep_one rfl g1
  rcases mem_opt.1 g2 with g3 | rfl
  · obtain ⟨m2, c2⟩ := mem_lit'.1 g3
    exact ⟨_, m1.trans m2, by rw [c2, c1], w, hl, fun c hc => has_L (p1 c hc), .inr rfl⟩
  · exact ⟨w, m1, c1, w, hl, fun c hc => has_L (p1 c hc), .inl rfl⟩

theorem iter_seg_chars (h : Iter (run letter (.alt (.cls clsPath)
    (.cat (.lit '%') (.rep 2 2 (.cls clsHex))))) s s') :
    ∃ w, Moves s s' w ∧ s'.caps = s.caps ∧ ∀ c ∈ w, PathChar letter c := by
  induction h with
  | refl => exact ⟨[], .refl _, rfl, by simp⟩
  | step h1 _ _ ih =>
    obtain ⟨w, m2, c2, hd⟩ := ih
    rcases mem_alt.1 h1 with g | g
    · obtain ⟨c, m1, c1, p1⟩ := mem_cls.1 g
      refine ⟨_, m1.trans m2, by rw [c2, c1], ?_⟩
      intro d hd'
      rcases List.mem_append.1 hd' with h | h
      · exact has_path (p1 d h)
      · exact hd d h
    · obtain ⟨t, g1, g2⟩ := mem_cat.1 g
      obtain ⟨m1, c1⟩ := mem_lit'.1 g1
      obtain ⟨v, -, m3, c3, p3⟩ := mem_rep_one rfl g2
      refine ⟨_, (m1.trans m3).trans m2, by rw [c2, c3, c1], ?_⟩
      intro d hd'
      rcases List.mem_append.1 hd' with h | h
      · rcases List.mem_append.1 h with h | h
        · simp only [List.mem_singleton] at h
          subst h
          exact .inr (.inr (.inr (.inr (by decide))))
        · exact has_hex (p3 d h)
      · exact hd d h

theorem iter_path (h : Iter (run letter reSeg) s s') :
    ∃ w, Moves s s' w ∧ s'.caps = s.caps ∧ Path letter w := by
  induction h with
  | refl => exact ⟨[], .refl _, rfl, .inl rfl⟩
  | step h1 _ _ ih =>
    obtain ⟨w, m2, c2, hp⟩ := ih
    obtain ⟨t, g1, g2⟩ := mem_cat.1 h1
    obtain ⟨m1, c1⟩ := mem_lit'.1 g1
    obtain ⟨v, m3, c3, p3⟩ := iter_seg_chars (mem_star.1 g2)
    refine ⟨_, (m1.trans m3).trans m2, by rw [c2, c3, c1], .inr ⟨v ++ w, by simp, ?_⟩⟩
    intro d hd
    rcases List.mem_append.1 hd with h | h
    · exact p3 d h
    · rcases hp with rfl | ⟨x, rfl, hx⟩
      · simp at h
      · rcases List.mem_cons.1 h with rfl | h
        · exact .inr (.inr (.inr (.inr (by decide))))
        · exact hx d h

seal run

/-- Matches of the expression of addresses: three optional parts. -/
theorem url_match' {t1 : St} (hc : s.caps = [])
    (g1 : t1 ∈ run letter (.opt false (.group 1 reScheme)) s)
    (h : s' ∈ run letter (.cat (.opt false (.group 3 (.cat (.rep 0 16 rePart) (.group 4 reTop))))
      (.opt false (.group 5 (.star false reSeg)))) t1) :
    ∃ sch dom path, Moves s t1 sch ∧ Moves s s' (sch ++ dom ++ path) ∧
      (mkMatch s s').text = sch ++ dom ++ path ∧
      (mkMatch s s').sub 1 = sch ∧ (mkMatch s s').sub 3 = dom ∧
      (sch = [] ∨ SchemePart sch) ∧ Path letter path ∧
      ((dom = [] ∧ (mkMatch s s').sub 4 = []) ∨ ∃ dots top, dom = dots ++ top ∧
        Dotted letter dots ∧ TopLevel letter top ∧ (mkMatch s s').sub 4 = top) := by
  obtain ⟨t2, g2, g3⟩ := mem_cat.1 h
  -- scheme
  have e1 : ∃ sch d1, Moves s t1 sch ∧ t1.caps = d1 ∧ (sch = [] ∨ SchemePart sch) ∧
      (∀ q ∈ d1, q.1 ≤ 2) ∧ ((d1.find? fun q => q.1 == 1).map (·.2)).getD [] = sch := by
    rcases mem_opt.1 g1 with g | rfl
    · obtain ⟨t, g', rfl⟩ := mem_group.1 g
      obtain ⟨w, m, hw, hcaps⟩ := mem_scheme g'
      refine ⟨w, _, m, rfl, .inr hw, ?_, ?_⟩
      · intro q hq
        rcases List.mem_cons.1 hq with rfl | hq
        · simp
        · rcases hcaps with hcaps | ⟨x, hcaps⟩
          · rw [hcaps, hc] at hq; simp at hq
          · rw [hcaps, hc] at hq
            simp only [List.mem_singleton] at hq
            subst hq; simp
      · simp [m.between]
    · exact ⟨[], [], .refl _, hc, .inl rfl, by simp, rfl⟩
  obtain ⟨sch, d1, m1, hd1, hsch, hle1, hf1⟩ := e1
  -- domain
  have e2 : ∃ dom d2, Moves t1 t2 dom ∧ t2.caps = d2 ++ d1 ∧
      (∀ q ∈ d2, q.1 = 3 ∨ q.1 = 4) ∧
      (((d2.find? fun q => q.1 == 3).map (·.2)).getD [] = dom) ∧
      ((dom = [] ∧ d2 = []) ∨ ∃ dots top, dom = dots ++ top ∧ Dotted letter dots ∧
        TopLevel letter top ∧ ((d2.find? fun q => q.1 == 4).map (·.2)).getD [] = top) := by
    rcases mem_opt.1 g2 with g | rfl
    · obtain ⟨t, g', rfl⟩ := mem_group.1 g
      obtain ⟨u, g4, g5⟩ := mem_cat.1 g'
      obtain ⟨dots, md, cd, hdots⟩ := mem_dots g4
      obtain ⟨v, g6, rfl⟩ := mem_group.1 g5
      obtain ⟨top, mt, ct, htop⟩ := mem_top g6
      refine ⟨dots ++ top, [(3, dots ++ top), (4, top)], md.trans mt, ?_, by simp, by simp,
        .inr ⟨dots, top, rfl, hdots, htop, by simp⟩⟩
      have mall : Moves t1 { v with caps := (4, between u v) :: v.caps } (dots ++ top) := md.trans mt
      simp only [List.cons_append, List.nil_append]
      rw [mall.between, mt.between, ct, cd, hd1]
    · exact ⟨[], [], .refl _, hd1, by simp, rfl, .inl ⟨rfl, rfl⟩⟩
  obtain ⟨dom, d2, m2, hd2, hle2, hf3, hdom⟩ := e2
  -- path
  have e3 : ∃ path d3, Moves t2 s' path ∧ s'.caps = d3 ++ (d2 ++ d1) ∧ Path letter path ∧
      ∀ q ∈ d3, q.1 = 5 := by
    rcases mem_opt.1 g3 with g | rfl
    · obtain ⟨t, g', rfl⟩ := mem_group.1 g
      obtain ⟨w, m, c, hw⟩ := iter_path (mem_star.1 g')
      exact ⟨w, [(5, between t2 t)], m, by simp [c, hd2], hw, by simp⟩
    · exact ⟨[], [], .refl _, hd2, .inl rfl, by simp⟩
  obtain ⟨path, d3, m3, hd3, hpath, hle3⟩ := e3
  have mall := (m1.trans m2).trans m3
  have skip : ∀ (i : Nat) (d e : List (Nat × Str)), (∀ q ∈ d, q.1 ≠ i) →
      (d ++ e).find? (fun q => q.1 == i) = e.find? fun q => q.1 == i := by
    intro i d e h
    rw [List.find?_append]
    have : d.find? (fun q => q.1 == i) = none := by
      rw [List.find?_eq_none]
      intro q hq
      simpa using h q hq
    rw [this]
    rfl
  have hsub : ∀ i, i ≠ 0 → (mkMatch s s').sub i =
      (((d3 ++ (d2 ++ d1)).find? fun q => q.1 == i).map (·.2)).getD [] := by
    intro i hi
    unfold Match.sub
    rw [if_neg hi]
    show ((s'.caps.find? fun q => q.1 == i).map (·.2)).getD [] = _
    rw [hd3]
  have keep : ∀ (i : Nat) (d e : List (Nat × Str)), (∀ q ∈ e, q.1 ≠ i) →
      (d ++ e).find? (fun q => q.1 == i) = d.find? fun q => q.1 == i := by
    intro i d e h
    rw [List.find?_append]
    have : e.find? (fun q => q.1 == i) = none := by
      rw [List.find?_eq_none]
      intro q hq
      simpa using h q hq
    rw [this]
    simp
  refine ⟨sch, dom, path, m1, mall, mall.between, ?_, ?_, hsch, hpath, ?_⟩
  · rw [hsub 1 (by decide), skip 1 _ _ (fun q hq => by rw [hle3 q hq]; decide),
      skip 1 _ _ (fun q hq => by rcases hle2 q hq with h | h <;> rw [h] <;> decide)]
    exact hf1
  · rw [hsub 3 (by decide), skip 3 _ _ (fun q hq => by rw [hle3 q hq]; decide),
      keep 3 _ _ (fun q hq => by have := hle1 q hq; omega)]
    exact hf3
  · rw [hsub 4 (by decide), skip 4 _ _ (fun q hq => by rw [hle3 q hq]; decide),
      keep 4 _ _ (fun q hq => by have := hle1 q hq; omega)]
    rcases hdom with ⟨rfl, rfl⟩ | ⟨dots, top, rfl, hdots, htop, hf4⟩
    · exact .inl ⟨rfl, rfl⟩
    · exact .inr ⟨dots, top, rfl, hdots, htop, hf4⟩

theorem url_match (hc : s.caps = []) (h : s' ∈ run letter reUrl s) :
    ∃ sch dom path, Moves s s' (sch ++ dom ++ path) ∧
      (mkMatch s s').text = sch ++ dom ++ path ∧
      (mkMatch s s').sub 1 = sch ∧ (mkMatch s s').sub 3 = dom ∧
      (sch = [] ∨ SchemePart sch) ∧ Path letter path ∧
      ((dom = [] ∧ (mkMatch s s').sub 4 = []) ∨ ∃ dots top, dom = dots ++ top ∧
        Dotted letter dots ∧ TopLevel letter top ∧ (mkMatch s s').sub 4 = top) := by
  rw [reUrl_eq] at h
  obtain ⟨t1, g1, h⟩ := mem_cat.1 h
  obtain ⟨sch, dom, path, -, hm⟩ := url_match' hc g1 h
  exact ⟨sch, dom, path, hm⟩

end

/-- Matches that are taken for addresses look like addresses. -/
theorem match_shape {letter : Char → Bool} {s s' : St} (hc : s.caps = [])
    (h1 : s' ∈ run letter reUrl s) (hu : matchIsUrl (subs reUrl (mkMatch s s')) = true) :
    (mkMatch s s').text ≠ [] ∧ UrlShape letter (mkMatch s s').text := by
  obtain ⟨sch, dom, path, mv, ht, h1, h3, hsch, hpath, h4⟩ := url_match hc h1
  have hg := reUrl_groups
  unfold matchIsUrl at hu
  rw [getElem?_subs (i := 0) (by omega), getElem?_subs (i := 1) (by omega),
    getElem?_subs (i := 3) (by omega), getElem?_subs (i := 4) (by omega),
    getElem?_subs (i := 5) (by omega), length_subs, hg] at hu
  have h0 : (mkMatch s s').sub 0 = (mkMatch s s').text := rfl
  simp only [h0, Option.some.injEq] at hu
  split at hu
  · simp at hu
  rename_i n0
  split at hu
  · simp at hu
  rename_i n1
  split at hu
  · simp at hu
  rename_i n4
  split at hu
  · simp at hu
  rename_i n3
  refine ⟨n0, ?_⟩
  · rw [ht] at n1 ⊢
    rw [h1] at n1
    rw [h3, h1] at n3
    have hdom : ∃ dots top, dom = dots ++ top ∧ Dotted letter dots ∧
        ((TopLevel letter top ∧ (mkMatch s s').sub 4 = top) ∨
          (dots = [] ∧ top = [] ∧ (mkMatch s s').sub 4 = [])) := by
      rcases h4 with ⟨rfl, h5⟩ | ⟨dots, top, rfl, hd, htop, h5⟩
      · exact ⟨[], [], rfl, .nil, .inr ⟨rfl, rfl, h5⟩⟩
      · exact ⟨dots, top, rfl, hd, .inl ⟨htop, h5⟩⟩
    obtain ⟨dots, top, rfl, hd, htop⟩ := hdom
    rcases hsch with rfl | hsch
    · -- no scheme
      rcases htop with ⟨htop, h5⟩ | ⟨rfl, rfl, h5⟩
      · have hne : dots ≠ [] := by
          intro h0
          exact n3 ⟨by decide, by rw [h5, h0]; rfl, rfl⟩
        show UrlShape letter (dots ++ top ++ path)
        exact .domain hd hne htop hpath
      · exact absurd ⟨by decide, by rw [h5]; rfl, rfl⟩ n3
    · rw [List.append_assoc]
      refine .scheme hsch hd ?_ hpath ?_
      · rcases htop with ⟨htop, _⟩ | ⟨h5, h6, _⟩
        · exact .inl htop
        · exact .inr ⟨h5, h6⟩
      · intro he
        apply n1
        have : sch ++ (dots ++ top) ++ path = sch ++ (dots ++ top ++ path) := by simp
        rw [this, he, List.append_nil]

/-- Links of a word are parts of it that look like addresses. -/
theorem wordLinks_spec {letter : Char → Bool} {word : Str} {l : Link}
    (h : l ∈ wordLinks letter word) : Within l.url word ∧ l.url ≠ [] ∧ UrlShape letter l.url := by
  obtain ⟨m, hm, rfl⟩ := List.mem_map.1 h
  obtain ⟨hm, hu⟩ := List.mem_filter.1 hm
  obtain ⟨s, s', rfl, h1, hc, htext⟩ := findAll_spec hm
  obtain ⟨n0, hs⟩ := match_shape hc h1 hu
  refine ⟨?_, n0, hs⟩
  obtain ⟨sch, dom, path, mv, ht, -⟩ := url_match hc h1
  rw [← htext]
  refine ⟨s.pre.reverse, s'.rest, ?_⟩
  simp only
  rw [ht]
  unfold St.text
  rw [mv.1]
  simp

/-! ### The loop over words -/

theorem of_mem_takeWhile {p : Char → Bool} {l : Str} {c : Char} (h : c ∈ l.takeWhile p) :
    p c = true := by
  induction l with
  | nil => simp at h
  | cons x xs ih =>
    rw [List.takeWhile_cons] at h
    split at h
    · rename_i hx
      rcases List.mem_cons.1 h with rfl | h
      · exact hx
      · exact ih h
    · simp at h


theorem dropWhile_dropWhile_length (line : Str) (h : line ≠ []) :
    (scanWord line).2.length < line.length := by
  unfold scanWord
  simp only [List.length_drop]
  have h1 : (line.dropWhile isSpaceWord).length ≤ line.length :=
    (List.dropWhile_suffix isSpaceWord).length_le
  have h2 : ((line.dropWhile isSpaceWord).dropWhile (!isSpaceWord ·)).length ≤
      (line.dropWhile isSpaceWord).length :=
    (List.dropWhile_suffix _).length_le
  have h3 : 0 < line.length := List.length_pos_iff.2 h
  omega

/-- The words of a line. -/
def wordsOf (line : Str) : List Str :=
  if _h : line = [] then []
  else (scanWord line).1 :: wordsOf (scanWord line).2
termination_by line.length
decreasing_by exact dropWhile_dropWhile_length line _h

/-- The loop over words ends, and what it has found is the links of the words in order. -/
theorem words_loop (letter : Char → Bool) (line : Str) (acc : List Link) :
    Loop wordsDone (wordsBody letter) (line, acc)
      (.ok ([], acc ++ (wordsOf line).flatMap (wordLinks letter))) := by
  induction hn : line.length using Nat.strongRecOn generalizing line acc with
  | ind n ih =>
    subst hn
    by_cases h : line = []
    · subst h
      rw [wordsOf]
      simp only [dite_true, List.flatMap_nil, List.append_nil]
      exact .done rfl
    · have := ih _ (dropWhile_dropWhile_length line h) (scanWord line).2
        (acc ++ wordLinks letter (scanWord line).1) rfl
      rw [wordsOf]
      simp only [h, dite_false, List.flatMap_cons]
      refine .step ?_ rfl ?_
      · simp only [wordsDone]
        simpa using h
      · rw [← List.append_assoc]
        exact this

/-- White space of package bufio is that of Unicode. -/
theorem isSpaceWord_eq : isSpaceWord = white := by
  funext c
  rw [Bool.eq_iff_iff]
  simp only [isSpaceWord, white, List.contains_eq_mem, List.mem_cons, List.not_mem_nil, or_false,
    Bool.or_eq_true, Bool.and_eq_true, decide_eq_true_eq]
  omega

theorem wordsOf_isWord {line word : Str} (h : word ∈ wordsOf line) (hne : word ≠ []) :
    IsWord isSpaceWord line word := by
  induction hn : line.length using Nat.strongRecOn generalizing line with
  | ind n ih =>
    subst hn
    rw [wordsOf] at h
    split at h
    · simp at h
    rename_i hl
    rcases List.mem_cons.1 h with rfl | h
    · refine ⟨hne, ?_, ?_⟩
      · intro c hc
        have := of_mem_takeWhile hc
        simpa using this
      · unfold scanWord at hne ⊢
        simp only at hne ⊢
        refine ⟨line.takeWhile isSpaceWord,
          (line.dropWhile isSpaceWord).dropWhile (!isSpaceWord ·), ?_, ?_, ?_⟩
        · rw [List.append_assoc, List.takeWhile_append_dropWhile, List.takeWhile_append_dropWhile]
        · intro c hc
          exact of_mem_takeWhile (List.mem_of_getLast? hc)
        · intro c hc
          have := List.head?_dropWhile_not (!isSpaceWord ·) (line.dropWhile isSpaceWord)
          rw [hc] at this
          simpa using this
    · obtain ⟨h1, h2, a, b, h3, h4, h5⟩ := ih _ (dropWhile_dropWhile_length line hl) h rfl
      refine ⟨h1, h2, ?_⟩
      -- the part before the rest of the line
      unfold scanWord at h3
      simp only at h3
      generalize hd : (line.dropWhile isSpaceWord).dropWhile (!isSpaceWord ·) = rest at h3
      have hline : line = line.takeWhile isSpaceWord ++
          ((line.dropWhile isSpaceWord).takeWhile (!isSpaceWord ·) ++ rest) := by
        rw [← hd, List.takeWhile_append_dropWhile, List.takeWhile_append_dropWhile]
      cases rest with
      | nil =>
        exfalso
        simp only [List.drop_nil] at h3
        have := congrArg List.length h3
        simp at this
        exact h1 (List.length_eq_zero_iff.1 (by omega))
      | cons c cs =>
        simp only [List.drop_one, List.tail_cons] at h3
        have hc : isSpaceWord c = true := by
          have := List.head?_dropWhile_not (!isSpaceWord ·) (line.dropWhile isSpaceWord)
          rw [hd] at this
          simpa using this
        refine ⟨line.takeWhile isSpaceWord ++
          ((line.dropWhile isSpaceWord).takeWhile (!isSpaceWord ·) ++ (c :: a)), b, ?_, ?_, h5⟩
        · conv => lhs; rw [hline, h3]
          simp
        · intro d hd'
          cases a with
          | nil =>
            rw [← List.append_assoc, List.getLast?_append] at hd'
            simp at hd'
            subst hd'
            exact hc
          | cons x xs =>
            apply h4
            rw [← hd', ← List.append_assoc, List.getLast?_append, List.getLast?_cons_cons]
            have : ∃ y, (x :: xs).getLast? = some y := ⟨_, List.getLast?_eq_some_getLast (by simp)⟩
            obtain ⟨y, hy⟩ := this
            rw [hy]
            rfl

/-- The links found by the loop over words of a line. -/
def txtLinksOf (letter : Char → Bool) (line : Str) : List Link :=
  (wordsOf line).flatMap (wordLinks letter)

end Burl.Links
