import Verif.Links.TxtLemmas
import Verif.Regex.HeadLemmas
/-! A bare scheme is not a link: two slashes after the colon are always taken as a part of it. -/
namespace Burl.Links
open Burl.Regex Spec Burl.Tree.Spec
seal run

variable {letter : Char → Bool} {s s' : St}

theorem dotted_chars (hl : letter ':' = false) {d : Str} (h : Dotted letter d) : ':' ∉ d := by
  induction h with
  | nil => simp
  | cons _ hp _ ih =>
    intro hm
    rcases List.mem_append.1 hm with hm | hm
    · have := hp ':' hm
      rw [hl] at this
      revert this; decide
    · rcases List.mem_cons.1 hm with hm | hm
      · revert hm; decide
      · exact ih hm

theorem top_chars (hl : letter ':' = false) {d : Str} (h : TopLevel letter d) : ':' ∉ d := by
  obtain ⟨w, -, hw, rfl | rfl⟩ := h
  · intro hm
    have := hw _ hm
    rw [hl] at this
    simp at this
  · intro hm
    rcases List.mem_append.1 hm with hm | hm
    · have := hw _ hm
      rw [hl] at this
      simp at this
    · revert hm; decide

theorem path_chars (hl : letter ':' = false) {d : Str} (h : Path letter d) : ':' ∉ d := by
  rcases h with rfl | ⟨t, rfl, ht⟩
  · simp
  · intro hm
    rcases List.mem_cons.1 hm with hm | hm
    · revert hm; decide
    · have := ht _ hm
      rw [hl] at this
      revert this; decide

theorem split_colon {v w a b : Str} (hv : ':' ∉ v) (hw : ':' ∉ w)
    (h : v ++ ':' :: a = w ++ ':' :: b) : v = w ∧ a = b := by
  induction v generalizing w with
  | nil =>
    cases w with
    | nil => simpa using h
    | cons c cs => simp at h hw; exact absurd h.1 hw.1
  | cons c cs ih =>
    cases w with
    | nil => simp at h hv; exact absurd h.1.symm hv.1
    | cons d ds =>
      simp only [List.cons_append, List.cons.injEq] at h
      obtain ⟨h1, h2⟩ := ih (by simp at hv; exact hv.2) (by simp at hw; exact hw.2) h.2
      exact ⟨by rw [h.1, h1], h2⟩

theorem schemePart_colon {w : Str} (h : SchemePart w) :
    ∃ v x, w = v ++ ':' :: x ∧ ':' ∉ v ∧ (x = [] ∨ x = "//".toList) := by
  obtain ⟨v, -, hv, rfl | rfl⟩ := h
  all_goals
    have : ':' ∉ v := by
      intro hm
      have := hv _ hm
      revert this; decide
  · exact ⟨v, [], rfl, this, .inl rfl⟩
  · exact ⟨v, "//".toList, rfl, this, .inr rfl⟩

/-- The preferred match of a scheme takes slashes. -/
theorem scheme_head {t : St} (h : (run letter reScheme s).head? = some t) :
    ∃ v, ':' ∉ v ∧ (Moves s t (v ++ "://".toList) ∨
      (Moves s t (v ++ [':']) ∧ ¬"//".toList <+: t.rest)) := by
  rw [reScheme, run_cat] at h
  obtain ⟨a, ha, h⟩ := head?_flatMap h
  obtain ⟨v, hv, m1, c1, p1⟩ := (mem_plus_one run_cls).1 ha
  have hnc : ':' ∉ v := by
    intro hm
    have := has_alpha (p1 _ hm)
    revert this; decide
  refine ⟨v, hnc, ?_⟩
  rw [run_cat] at h
  obtain ⟨b, hb, h⟩ := head?_flatMap h
  obtain ⟨m2, c2⟩ := mem_lit'.1 hb
  rw [run_opt, List.head?_append] at h
  cases hg : (run letter (.group 2 (.cat (.lit '/') (.lit '/'))) b).head? with
  | some y =>
    rw [hg] at h
    simp only [Option.some_or, Option.some.injEq] at h
    subst h
    left
    have hy : y ∈ run letter (.group 2 (.cat (.lit '/') (.lit '/'))) b := List.mem_of_head? hg
    obtain ⟨z, hz, rfl⟩ := mem_group.1 hy
    obtain ⟨x, hx1, hx2⟩ := mem_cat.1 hz
    obtain ⟨m3, -⟩ := mem_lit'.1 hx1
    obtain ⟨m4, -⟩ := mem_lit'.1 hx2
    have := (m1.trans m2).trans (m3.trans m4)
    have e4 : v ++ [':'] ++ (['/'] ++ ['/']) = v ++ "://".toList := by simp
    rw [e4] at this
    exact this
  | none =>
    rw [hg] at h
    simp only [List.head?_cons, Option.none_or, Option.some.injEq] at h
    subst h
    right
    refine ⟨m1.trans m2, ?_⟩
    rintro ⟨r, hr⟩
    have : run letter (.group 2 (.cat (.lit '/') (.lit '/'))) b ≠ [] := by
      obtain ⟨bp, br, bc⟩ := b
      simp only at hr
      subst hr
      simp [run, one]
    rw [List.head?_eq_none_iff] at hg
    exact this hg

/-- Links of a word are not bare schemes. -/
theorem wordLinks_not_scheme (hl : letter ':' = false) {word : Str} {l : Link}
    (h : l ∈ wordLinks letter word) : ¬SchemePart l.url := by
  obtain ⟨m, hm, rfl⟩ := List.mem_map.1 h
  obtain ⟨hm, hu⟩ := List.mem_filter.1 hm
  obtain ⟨s, s', rfl, hhead, hc⟩ := findAll_head hm
  rw [reUrl_eq] at hhead
  rw [run_cat] at hhead
  obtain ⟨t1, h1, h2⟩ := head?_flatMap_of_ne (fun a _ => by
    rw [run_cat]
    intro h0
    rw [List.flatMap_eq_nil_iff] at h0
    obtain ⟨y, hy⟩ := List.exists_mem_of_ne_nil _ (opt_ne (letter := letter) (lz := false)
      (r := .group 3 (.cat (.rep 0 16 rePart) (.group 4 reTop))) (s := a))
    exact opt_ne (h0 y hy)) hhead
  obtain ⟨sch, dom, path, ms, mv, ht, hs1, -, hsch, hpath, h4⟩ := url_match' hc
    (List.mem_of_head? h1) (List.mem_of_head? h2)
  have n1 : sch ≠ sch ++ dom ++ path := by
    intro h0
    have hg := reUrl_groups
    unfold matchIsUrl at hu
    rw [getElem?_subs (i := 0) (by omega), getElem?_subs (i := 1) (by omega)] at hu
    have h0' : (mkMatch s s').sub 0 = (mkMatch s s').text := rfl
    simp only [h0', Option.some.injEq, ht, hs1] at hu
    rw [← h0] at hu
    simp at hu
  show ¬SchemePart (mkMatch s s').text
  rw [ht]
  intro hsp
  obtain ⟨w, x, hx, hw, hxx⟩ := schemePart_colon hsp
  have hdom : ':' ∉ dom := by
    rcases h4 with ⟨rfl, -⟩ | ⟨dots, top, rfl, hd, htop, -⟩
    · simp
    · intro hm
      rcases List.mem_append.1 hm with hm | hm
      · exact dotted_chars hl hd hm
      · exact top_chars hl htop hm
  rcases hsch with rfl | hsch
  · have : ':' ∈ [] ++ dom ++ path := by rw [hx]; simp
    simp only [List.nil_append, List.mem_append] at this
    rcases this with h | h
    · exact hdom h
    · exact path_chars hl hpath h
  · obtain ⟨v, y, hy, hv, hyy⟩ := schemePart_colon hsch
    rw [hy, List.append_assoc, List.append_assoc, List.cons_append] at hx
    obtain ⟨-, hrest⟩ := split_colon hv hw hx
    rcases hyy with rfl | rfl
    · rcases hxx with rfl | rfl
      · simp only [List.nil_append] at hrest
        apply n1
        rw [List.append_assoc, hrest, List.append_nil]
      · simp only [List.nil_append] at hrest
        -- two slashes follow the scheme
        have hfollow : "//".toList <+: t1.rest := by
          refine ⟨s'.rest, ?_⟩
          have e1 := ms.1
          have e2 := mv.1
          rw [e1, List.append_assoc, List.append_assoc, List.append_cancel_left_eq] at e2
          rw [e2, ← List.append_assoc, hrest]
        rw [run_opt, List.head?_append] at h1
        cases hg : (run letter (.group 1 reScheme) s).head? with
        | none =>
          rw [hg] at h1
          simp only [List.head?_cons, Option.none_or, Option.some.injEq] at h1
          subst h1
          have := ms.unique (.refl _)
          rw [this] at hy
          simp at hy
        | some u =>
          rw [hg] at h1
          simp only [Option.some_or, Option.some.injEq] at h1
          subst h1
          rw [run_group, List.head?_map] at hg
          obtain ⟨z, hz, rfl⟩ := Option.map_eq_some_iff.1 hg
          obtain ⟨v', hv', hcase⟩ := scheme_head hz
          rcases hcase with mz | ⟨mz, hno⟩
          · have := ms.unique mz
            rw [hy] at this
            have h5 := split_colon hv hv' (show v ++ ':' :: [] = v' ++ ':' :: "//".toList from this)
            simp at h5
          · exact hno hfollow
    · rcases hxx with rfl | rfl
      · simp at hrest
      · apply n1
        have : dom ++ path = [] := by
          have := congrArg List.length hrest
          simp only [List.length_append] at this
          apply List.eq_nil_of_length_eq_zero
          simp only [List.length_append]
          omega
        rw [List.append_assoc, this, List.append_nil]

end Burl.Links
