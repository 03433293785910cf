import Verif.Regex.LoopLemmas
import Verif.Links.Model
import Verif.Extract.Props
/-! The recognition of headings used by the model of extraction is what the regular expression
of the code does. -/
namespace Burl.Links
open Burl.Regex
open Burl.Extract (orgHeading isSpaceRe)

/-- `reHeading` (pkg/burl_links/extract_org.go:28). -/
def headingRe : Re :=
  .cat .bol (.cat (.group 1 (.plus false (.lit '*'))) (.cat (.plus false (.space false))
    (.cat (.opt false (.group 2 (.cat (.space true) (.opt false (.cat (.star false .any)
      (.space true)))))) .eol)))

theorem compile_heading : compile reHeadingStr = some headingRe := by decide +kernel

/-- Title of a heading: no blanks on both sides, no line feeds. -/
def TitleText (text : Str) : Prop :=
  ∃ c w, text = c :: w ∧ isSpace c = false ∧
    (w = [] ∨ ∃ m d, w = m ++ [d] ∧ '\n' ∉ m ∧ isSpace d = false)

theorem lit_one (letter : Char → Bool) (c : Char) : run letter (.lit c) = one (· == c) := by
  funext s; simp only [run]

theorem space_one (letter : Char → Bool) (neg : Bool) :
    run letter (.space neg) = one (fun c => isSpace c != neg) := by
  funext s; simp only [run]

theorem any_one (letter : Char → Bool) : run letter .any = one (· != '\n') := by
  funext s; simp only [run]

theorem mem_title {letter : Char → Bool} {s s' : St} :
    s' ∈ run letter (.cat (.space true) (.opt false (.cat (.star false .any) (.space true)))) s ↔
      ∃ text, TitleText text ∧ Moves s s' text ∧ s'.caps = s.caps := by
  rw [mem_cat]
  constructor
  · rintro ⟨t, h1, h2⟩
    rw [space_one, one_reads] at h1
    obtain ⟨c, m1, c1, p1⟩ := h1
    have hc : isSpace c = false := by simpa using p1 c (by simp)
    rcases mem_opt.1 h2 with h2 | h2
    · obtain ⟨u, g1, g2⟩ := mem_cat.1 h2
      obtain ⟨m, m2, c2, p2⟩ := (mem_star_one (any_one letter)).1 g1
      rw [space_one, one_reads] at g2
      obtain ⟨d, m3, c3, p3⟩ := g2
      have hd : isSpace d = false := by simpa using p3 d (by simp)
      refine ⟨c :: (m ++ [d]), ⟨c, _, rfl, hc, .inr ⟨m, d, rfl, ?_, hd⟩⟩, ?_, by rw [c3, c2, c1]⟩
      · intro hn
        have := p2 _ hn
        simp at this
      · have := m1.trans (m2.trans m3)
        simpa using this
    · subst h2
      exact ⟨[c], ⟨c, [], rfl, hc, .inl rfl⟩, m1, c1⟩
  · rintro ⟨text, ⟨c, w, rfl, hc, hw⟩, m, hcaps⟩
    have hr : s.rest = [c] ++ (w ++ s'.rest) := by simpa using m.1
    refine ⟨s.over [c] (w ++ s'.rest), ?_, mem_opt.2 ?_⟩
    · rw [space_one, one_reads]
      exact ⟨c, moves_over hr, rfl, by simpa using hc⟩
    · rcases hw with rfl | ⟨mid, d, rfl, hn, hd⟩
      · right
        obtain ⟨-, h2⟩ := m
        cases s'
        simp only at h2 hcaps
        subst h2 hcaps
        rfl
      · left
        refine mem_cat.2 ⟨(s.over [c] (mid ++ [d] ++ s'.rest)).over mid ([d] ++ s'.rest),
          (mem_star_one (any_one letter)).2 ⟨mid, moves_over (by simp [St.over]), rfl, ?_⟩, ?_⟩
        · intro x hx
          simp only [bne_iff_ne, ne_eq]
          rintro rfl
          exact hn hx
        · rw [space_one, one_reads]
          refine ⟨d, ⟨rfl, ?_⟩, hcaps, by simpa using hd⟩
          rw [m.2]
          simp [St.over]

/-- What the expression for headings matches. -/
theorem mem_heading {letter : Char → Bool} {s s' : St} : s' ∈ run letter headingRe s ↔
    s.pre = [] ∧ ∃ stars blanks text, s.rest = stars ++ blanks ++ text ∧
      (stars ≠ [] ∧ ∀ c ∈ stars, c = '*') ∧ (blanks ≠ [] ∧ ∀ c ∈ blanks, isSpace c = true) ∧
      s'.pre = (stars ++ blanks ++ text).reverse ∧ s'.rest = [] ∧
      ((text = [] ∧ s'.caps = (1, stars) :: s.caps) ∨
        (TitleText text ∧ s'.caps = (2, text) :: (1, stars) :: s.caps)) := by
  unfold headingRe
  constructor
  · intro h0
    obtain ⟨t, h1, h⟩ := mem_cat.1 h0
    clear h0
    obtain ⟨rfl, hpre⟩ := mem_bol.1 h1
    refine ⟨hpre, ?_⟩
    obtain ⟨u, h1', h'⟩ := mem_cat.1 h
    clear h
    obtain ⟨u', h2, rfl⟩ := mem_group.1 h1'
    rw [mem_plus_one (lit_one letter '*')] at h2
    obtain ⟨stars, hne, m1, c1, p1⟩ := h2
    rw [m1.between] at h'
    obtain ⟨v, h3, h⟩ := mem_cat.1 h'
    clear h'
    rw [mem_plus_one (space_one letter false)] at h3
    obtain ⟨blanks, hne2, m2, c2, p2⟩ := h3
    obtain ⟨x, h4, h'⟩ := mem_cat.1 h
    clear h
    obtain ⟨rfl, hend⟩ := mem_eol.1 h'
    have m1' : Moves t ⟨u'.pre, u'.rest, (1, stars) :: u'.caps⟩ stars := m1
    have m12 := m1'.trans m2
    have stars_ok : ∀ c ∈ stars, c = '*' := fun c hc => by simpa using p1 c hc
    have blanks_ok : ∀ c ∈ blanks, isSpace c = true := fun c hc => by simpa using p2 c hc
    rcases mem_opt.1 h4 with h4 | h4
    · obtain ⟨y, h5, rfl⟩ := mem_group.1 h4
      obtain ⟨text, ht, m3, c3⟩ := mem_title.1 h5
      have m := m12.trans m3
      refine ⟨stars, blanks, text, ?_, ⟨hne, stars_ok⟩, ⟨hne2, blanks_ok⟩, ?_, hend, .inr ⟨ht, ?_⟩⟩
      · have := m.1
        simp only at hend
        rw [hend] at this
        simpa using this
      · have := m.2
        rw [hpre] at this
        simpa using this
      · show (2, between v y) :: y.caps = _
        rw [m3.between, c3, c2, ← c1]
    · subst h4
      refine ⟨stars, blanks, [], ?_, ⟨hne, stars_ok⟩, ⟨hne2, blanks_ok⟩, ?_, hend, .inl ⟨rfl, ?_⟩⟩
      · have := m12.1
        rw [hend] at this
        simpa using this
      · have := m12.2
        rw [hpre] at this
        simpa using this
      · rw [c2, ← c1]
  · rintro ⟨hpre, stars, blanks, text, hrest, ⟨hne, hs⟩, ⟨hne2, hb⟩, hp', hr', hcase⟩
    refine mem_cat.2 ⟨s, mem_bol.2 ⟨rfl, hpre⟩, ?_⟩
    have m1 : Moves s (s.over stars (blanks ++ text)) stars := moves_over (by simpa using hrest)
    refine mem_cat.2 ⟨{ s.over stars (blanks ++ text) with caps := (1, stars) :: s.caps },
      mem_group.2 ⟨s.over stars (blanks ++ text), ?_, by rw [m1.between]; rfl⟩, ?_⟩
    · rw [mem_plus_one (lit_one letter '*')]
      exact ⟨stars, hne, m1, rfl, fun c hc => by simp [hs c hc]⟩
    refine mem_cat.2 ⟨⟨blanks.reverse ++ (stars.reverse ++ s.pre), text, (1, stars) :: s.caps⟩, ?_, ?_⟩
    · rw [mem_plus_one (space_one letter false)]
      exact ⟨blanks, hne2, ⟨rfl, rfl⟩, rfl, fun c hc => by simp [hb c hc]⟩
    refine mem_cat.2 ⟨s', ?_, mem_eol.2 ⟨rfl, hr'⟩⟩
    rcases hcase with ⟨rfl, hc⟩ | ⟨ht, hc⟩
    · refine mem_opt.2 (.inr ?_)
      cases s'
      simp only at hp' hr' hc
      subst hp' hr' hc
      simp [hpre]
    · refine mem_opt.2 (.inl (mem_group.2 ⟨⟨s'.pre, s'.rest, (1, stars) :: s.caps⟩,
        mem_title.2 ⟨text, ht, ⟨by simp [hr'], by simp [hp', hpre]⟩, rfl⟩, ?_⟩))
      have : between ⟨blanks.reverse ++ (stars.reverse ++ s.pre), text, (1, stars) :: s.caps⟩
          ⟨s'.pre, s'.rest, (1, stars) :: s.caps⟩ = text :=
        Moves.between ⟨by simp [hr'], by simp [hp', hpre]⟩
      rw [this]
      cases s'
      simp only at hc
      subst hc
      rfl

theorem mem_takeWhile {p : Char → Bool} {c : Char} : ∀ {a : Str}, c ∈ a.takeWhile p → p c = true
  | [], h => by simp at h
  | x :: a, h => by
    rw [List.takeWhile_cons] at h
    split at h
    · rename_i hx
      rcases List.mem_cons.1 h with rfl | h
      · exact hx
      · exact mem_takeWhile h
    · simp at h

theorem takeWhile_split {p : Char → Bool} : ∀ {a b : Str}, (∀ c ∈ a, p c = true) →
    (∀ c, b.head? = some c → p c = false) →
    (a ++ b).takeWhile p = a ∧ (a ++ b).dropWhile p = b
  | [], [], _, _ => ⟨rfl, rfl⟩
  | [], c :: b, _, h => by
    have := h c rfl
    simp [this]
  | x :: a, b, h1, h2 => by
    obtain ⟨e1, e2⟩ := takeWhile_split (p := p) (a := a) (b := b) (fun c hc => h1 c (by simp [hc])) h2
    have := h1 x (by simp)
    simp [this, e1, e2]

theorem TitleText.iff {text : Str} : TitleText text ↔
    (∃ c, text.head? = some c ∧ isSpace c = false) ∧
    (∃ c, text.getLast? = some c ∧ isSpace c = false) ∧ '\n' ∉ text := by
  have nl : isSpace '\n' = true := rfl
  constructor
  · rintro ⟨c, w, rfl, hc, hw⟩
    have hcn : '\n' ≠ c := by rintro rfl; rw [nl] at hc; cases hc
    refine ⟨⟨c, rfl, hc⟩, ?_⟩
    rcases hw with rfl | ⟨m, d, rfl, hm, hd⟩
    · exact ⟨⟨c, rfl, hc⟩, by simp [hcn]⟩
    · have hdn : '\n' ≠ d := by rintro rfl; rw [nl] at hd; cases hd
      refine ⟨⟨d, ?_, hd⟩, by simp [hcn, hm, hdn]⟩
      rw [← List.cons_append, List.getLast?_append]
      rfl
  · rintro ⟨⟨c, h1, hc⟩, ⟨d, h2, hd⟩, hn⟩
    cases text with
    | nil => cases h1
    | cons x w =>
      have : x = c := by simpa using h1
      subst this
      refine ⟨x, w, rfl, hc, ?_⟩
      rcases List.eq_nil_or_concat w with rfl | ⟨m, y, rfl⟩
      · exact .inl rfl
      · right
        have : y = d := by
          rw [List.concat_eq_append, ← List.cons_append, List.getLast?_append] at h2
          exact Option.some.inj h2
        subst this
        exact ⟨m, y, by simp, fun h => hn (by simp [h]), hd⟩

theorem isSpaceRe_isSpace : isSpaceRe = isSpace := rfl

theorem orgHeading_iff {line : Str} {n : Nat} {text : Str} : orgHeading line = some (n, text) ↔
    ∃ stars blanks, line = stars ++ blanks ++ text ∧ stars.length = n ∧
      (stars ≠ [] ∧ ∀ c ∈ stars, c = '*') ∧ (blanks ≠ [] ∧ ∀ c ∈ blanks, isSpace c = true) ∧
      (text = [] ∨ TitleText text) := by
  constructor
  · intro h
    unfold orgHeading at h
    rw [isSpaceRe_isSpace] at h
    simp only at h
    refine ⟨line.takeWhile (· == '*'), (line.dropWhile (· == '*')).takeWhile isSpace, ?_⟩
    split at h
    · cases h
    rename_i h1
    split at h
    · cases h
    rename_i h2
    have hd : line = line.takeWhile (· == '*') ++ ((line.dropWhile (· == '*')).takeWhile isSpace ++
        (line.dropWhile (· == '*')).dropWhile isSpace) := by
      rw [List.takeWhile_append_dropWhile, List.takeWhile_append_dropWhile]
    have hstars : ∀ c ∈ line.takeWhile (· == '*'), c = '*' := fun c hc => by
      have := mem_takeWhile hc
      simpa using this
    have hblanks : ∀ c ∈ (line.dropWhile (· == '*')).takeWhile isSpace, isSpace c = true :=
      fun c hc => mem_takeWhile hc
    have ne1 : line.takeWhile (· == '*') ≠ [] := by simpa using h1
    have ne2 : (line.dropWhile (· == '*')).takeWhile isSpace ≠ [] := by simpa using h2
    split at h
    · rename_i h3
      simp only [Option.some.injEq, Prod.mk.injEq] at h
      obtain ⟨rfl, rfl⟩ := h
      have e := List.getLast?_eq_none_iff.1 h3
      rw [e] at hd
      exact ⟨by simpa using hd, rfl, ⟨ne1, hstars⟩, ⟨ne2, hblanks⟩, .inl rfl⟩
    · rename_i c h3
      split at h
      · cases h
      rename_i h4
      simp only [Option.some.injEq, Prod.mk.injEq] at h
      obtain ⟨rfl, rfl⟩ := h
      refine ⟨by rw [List.append_assoc]; exact hd, rfl, ⟨ne1, hstars⟩, ⟨ne2, hblanks⟩, .inr ?_⟩
      simp only [Bool.or_eq_true, decide_eq_true_eq, not_or, Bool.not_eq_true] at h4
      refine TitleText.iff.2 ⟨?_, ⟨c, h3, h4.1⟩, h4.2⟩
      cases hx : (line.dropWhile (· == '*')).dropWhile isSpace with
      | nil => rw [hx] at h3; cases h3
      | cons x w =>
        refine ⟨x, rfl, ?_⟩
        have := List.head?_dropWhile_not isSpace (line.dropWhile (· == '*'))
        rw [hx] at this
        simpa using this
  · rintro ⟨stars, blanks, rfl, rfl, ⟨hne, hs⟩, ⟨hne2, hb⟩, ht⟩
    have hbh : ∀ c, (blanks ++ text).head? = some c → (c == '*') = false := by
      intro c hc
      cases blanks with
      | nil => exact absurd rfl hne2
      | cons b bs =>
        have : b = c := by simpa using hc
        subst this
        have := hb b (by simp)
        rw [beq_eq_false_iff_ne]
        rintro rfl
        exact absurd this (by decide)
    have hth : ∀ c, text.head? = some c → isSpace c = false := by
      intro c hc
      rcases ht with rfl | ht
      · cases hc
      · obtain ⟨⟨d, h1, h2⟩, -⟩ := TitleText.iff.1 ht
        rw [hc] at h1
        have := Option.some.inj h1
        subst this
        exact h2
    obtain ⟨e1, e2⟩ := takeWhile_split (p := (· == '*')) (a := stars) (b := blanks ++ text)
      (fun c hc => by simp [hs c hc]) hbh
    obtain ⟨e3, e4⟩ := takeWhile_split (p := isSpace) (a := blanks) (b := text) hb hth
    unfold orgHeading
    rw [isSpaceRe_isSpace, List.append_assoc]
    simp only [e1, e2, e3, e4]
    rw [if_neg (by simpa using hne), if_neg (by simpa using hne2)]
    rcases ht with rfl | ht
    · rfl
    · obtain ⟨-, ⟨d, h1, h2⟩, h3⟩ := TitleText.iff.1 ht
      rw [h1]
      simp [h2, h3]

/-- C24: on every line the regular expression of the code finds a heading iff the model of extraction
does, with the same number of stars and the same title. -/
theorem c24_heading_regexp (letter : Char → Bool) (line : Str) :
    ∃ r, compile reHeadingStr = some r ∧
      (findSub letter r line).map (fun m => ((m.sub 1).length, m.sub 2)) = orgHeading line := by
  refine ⟨headingRe, compile_heading, ?_⟩
  unfold findSub
  cases hf : findFrom letter headingRe [] line with
  | none =>
    cases ho : orgHeading line with
    | none => rfl
    | some st =>
      exfalso
      obtain ⟨n, text⟩ := st
      obtain ⟨stars, blanks, h1, -, h3, h4, h5⟩ := orgHeading_iff.1 ho
      have : (findFrom letter headingRe [] line).isSome = true := by
        rw [findFrom_isSome]
        refine ⟨[], line, rfl, ?_⟩
        rcases h5 with h5 | h5
        · exact List.ne_nil_of_mem (a := ⟨(stars ++ blanks ++ text).reverse, [], [(1, stars)]⟩)
            (mem_heading.2 ⟨rfl, stars, blanks, text, h1, h3, h4, rfl, rfl, .inl ⟨h5, rfl⟩⟩)
        · exact List.ne_nil_of_mem
            (a := ⟨(stars ++ blanks ++ text).reverse, [], [(2, text), (1, stars)]⟩)
            (mem_heading.2 ⟨rfl, stars, blanks, text, h1, h3, h4, rfl, rfl, .inr ⟨h5, rfl⟩⟩)
      rw [hf] at this
      cases this
  | some p =>
    obtain ⟨s, s'⟩ := p
    obtain ⟨h1, h2, w, h3⟩ := findFrom_spec hf
    obtain ⟨hpre, stars, blanks, text, g1, g2, g3, g4, g5, g6⟩ := mem_heading.1 h1
    have hw : w = [] := by
      have := h3.2
      rw [hpre] at this
      simpa using this.symm
    have hrest : s.rest = line := by
      have := h3.1
      rw [hw] at this
      simpa using this.symm
    rw [hrest] at g1
    rw [h2] at g6
    simp only [Option.map_some]
    symm
    rw [orgHeading_iff]
    rcases g6 with ⟨rfl, g6⟩ | ⟨g7, g6⟩
    · refine ⟨stars, blanks, ?_, ?_, g2, g3, .inl ?_⟩ <;> simp [mkMatch, Match.sub, g6, g1]
    · refine ⟨stars, blanks, ?_, ?_, g2, g3, .inr ?_⟩ <;> simp [mkMatch, Match.sub, g6, g1, g7]

example : orgHeading "**  TODO x".toList = some (2, "TODO x".toList) ∧
    orgHeading "* ".toList = some (1, []) ∧ orgHeading "*x".toList = none := by decide

end Burl.Links
