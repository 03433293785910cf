import Verif.Links.PlainLemmas
import Verif.Links.TxtLemmas
/-! The first match of the expression of addresses in text files. -/
namespace Burl.Links
open Burl.Regex Spec Burl.Tree.Spec

/-! ### Loops -/

theorem head?_cat {α β : Type} {l : List α} {f : α → List β} {y : α} {x : β}
    (h : l.head? = some y) (hx : (f y).head? = some x) : (l.flatMap f).head? = some x := by
  cases l with
  | nil => simp at h
  | cons a as =>
    simp only [List.head?_cons, Option.some.injEq] at h
    subst h
    rw [List.flatMap_cons, List.head?_append, hx]
    rfl

theorem loop_stop {f : St → List St} {n : Nat} {s : St} (h : f s = []) :
    (loop false f n s).head? = some s := by
  cases n with
  | zero => rfl
  | succ n => simp [loop, h]

theorem loop_step {f : St → List St} {n : Nat} {s t u : St} (h : (f s).head? = some t)
    (hlt : t.rest.length < s.rest.length) (ht : (loop false f n t).head? = some u) :
    (loop false f (n + 1) s).head? = some u := by
  cases hf : f s with
  | nil => rw [hf] at h; simp at h
  | cons a as =>
    rw [hf] at h
    simp only [List.head?_cons, Option.some.injEq] at h
    subst h
    simp only [loop, hf]
    rw [List.filter_cons_of_pos (by simpa using hlt), List.flatMap_cons]
    simp only [Bool.false_eq_true, if_false]
    rw [List.append_assoc, List.head?_append, ht]
    rfl

section
variable {letter : Char → Bool} {pre : List Char} {rest : Str} {caps : List (Nat × Str)}

theorem one_yes {p : Char → Bool} {c : Char} (h : p c = true) :
    one p ⟨pre, c :: rest, caps⟩ = [⟨c :: pre, rest, caps⟩] := by
  simp [one, h]

theorem one_no {p : Char → Bool} (h : ∀ c, rest.head? = some c → p c = false) :
    one p ⟨pre, rest, caps⟩ = [] := by
  cases rest with
  | nil => rfl
  | cons c t => simp [one, h c rfl]

theorem loop_one {p : Char → Bool} (hr : ∀ c, rest.head? = some c → p c = false) {w : Str} :
    ∀ {n : Nat} {pre : List Char}, w.length ≤ n → (∀ c ∈ w, p c = true) →
    (loop false (one p) n ⟨pre, w ++ rest, caps⟩).head? = some ⟨w.reverse ++ pre, rest, caps⟩ := by
  induction w with
  | nil => intro n pre _ _; exact loop_stop (one_no hr)
  | cons c w ih =>
    intro n pre hn hw
    cases n with
    | zero => simp at hn
    | succ n =>
      have := ih (n := n) (pre := c :: pre) (by simpa using hn) fun d hd => hw d (by simp [hd])
      refine loop_step (t := ⟨c :: pre, w ++ rest, caps⟩) ?_ (by simp) (by simpa using this)
      rw [List.cons_append, one_yes (hw c (by simp))]
      rfl

theorem times_one {p : Char → Bool} {w : Str} : ∀ {pre : List Char}, (∀ c ∈ w, p c = true) →
    times (one p) w.length ⟨pre, w ++ rest, caps⟩ = [⟨w.reverse ++ pre, rest, caps⟩] := by
  induction w with
  | nil => intro pre _; rfl
  | cons c w ih =>
    intro pre hw
    show (one p ⟨pre, c :: (w ++ rest), caps⟩).flatMap _ = _
    rw [one_yes (hw c (by simp))]
    simp only [List.flatMap_cons, List.flatMap_nil, List.append_nil]
    rw [ih fun d hd => hw d (by simp [hd])]
    simp

/-! ### Schemes -/

theorem delim_unique {d : Char} {a b x y : Str} (ha : d ∉ a) (hb : d ∉ b)
    (h : a ++ d :: x = b ++ d :: y) : a = b ∧ x = y := by
  induction a generalizing b with
  | nil =>
    cases b with
    | nil => simpa using h
    | cons c b =>
      simp only [List.nil_append, List.cons_append, List.cons.injEq] at h
      rw [← h.1] at hb
      simp at hb
  | cons e a ih =>
    cases b with
    | nil =>
      simp only [List.nil_append, List.cons_append, List.cons.injEq] at h
      rw [h.1] at ha
      simp at ha
    | cons c b =>
      simp only [List.cons_append, List.cons.injEq] at h
      obtain ⟨g1, g2⟩ := ih (by simp at ha; exact ha.2) (by simp at hb; exact hb.2) h.2
      exact ⟨by rw [h.1, g1], g2⟩

theorem alpha_has {c : Char} (h : ('A' ≤ c ∧ c ≤ 'Z') ∨ ('a' ≤ c ∧ c ≤ 'z')) :
    clsAlpha.has letter c = true := by
  simpa [Cls.has, clsAlpha, Item.has, isAlpha] using h

/-- A scheme is read up to the colon, with two slashes after it if they are there. -/
theorem scheme_first {w : Str} {slashes : Str} (hw : w ≠ [])
    (ha : ∀ c ∈ w, ('A' ≤ c ∧ c ≤ 'Z') ∨ ('a' ≤ c ∧ c ≤ 'z'))
    (hs : slashes = "//".toList ∨ (slashes = [] ∧ ¬"//".toList <+: rest)) :
    ∃ c2, (run letter reScheme ⟨pre, w ++ ':' :: (slashes ++ rest), caps⟩).head? =
      some ⟨slashes.reverse ++ ':' :: (w.reverse ++ pre), rest, c2 ++ caps⟩ ∧ ∀ p ∈ c2, p.1 = 2 := by
  have hrun : ∃ c2, (run letter (.cat (.lit ':') (.opt false (.group 2 (.cat (.lit '/') (.lit '/')))))
      ⟨w.reverse ++ pre, ':' :: (slashes ++ rest), caps⟩).head? =
      some ⟨slashes.reverse ++ ':' :: (w.reverse ++ pre), rest, c2 ++ caps⟩ ∧ ∀ p ∈ c2, p.1 = 2 := by
    rw [run_cat, run_lit_cons]
    simp only [List.flatMap_cons, List.flatMap_nil, List.append_nil]
    rw [run_opt]
    rcases hs with rfl | ⟨rfl, hr⟩
    · refine ⟨[(2, "//".toList)], ?_, by simp⟩
      rw [List.head?_append, run_group]
      have : run letter (.cat (.lit '/') (.lit '/'))
          ⟨':' :: (w.reverse ++ pre), "//".toList ++ rest, caps⟩ =
          [⟨'/' :: '/' :: ':' :: (w.reverse ++ pre), rest, caps⟩] := by
        rw [run_cat]
        show (run letter (.lit '/') ⟨_, '/' :: '/' :: rest, caps⟩).flatMap _ = _
        rw [run_lit_cons]
        simp only [List.flatMap_cons, List.flatMap_nil, List.append_nil]
        rw [run_lit_cons]
      rw [this]
      simp only [List.map_cons, List.map_nil, List.head?_cons, Option.some_or]
      rw [Moves.between (w := "//".toList) ⟨rfl, rfl⟩]
      rfl
    · refine ⟨[], ?_, by simp⟩
      have : run letter (.cat (.lit '/') (.lit '/'))
          ⟨':' :: (w.reverse ++ pre), [] ++ rest, caps⟩ = [] := by
        apply Classical.byContradiction
        intro hne
        obtain ⟨y, hy⟩ := List.exists_mem_of_ne_nil _ hne
        obtain ⟨t, h1, h2⟩ := mem_cat.1 hy
        have m := (mem_lit'.1 h1).1.trans (mem_lit'.1 h2).1
        have e := m.1
        simp only [List.nil_append] at e
        exact hr ⟨y.rest, e.symm⟩
      rw [run_group, this]
      rfl
  obtain ⟨c2, h1, h2⟩ := hrun
  refine ⟨c2, ?_, h2⟩
  unfold reScheme
  rw [run_cat]
  refine head?_flatMap_det (a := ⟨w.reverse ++ pre, ':' :: (slashes ++ rest), caps⟩) ?_ ?_ h1
  · intro y hy hne
    obtain ⟨v, hv, m, hc, hp⟩ := (mem_plus_one rfl).1 hy
    obtain ⟨z, hz⟩ := List.exists_mem_of_ne_nil _ hne
    obtain ⟨u, hz1, -⟩ := mem_cat.1 hz
    have e := (mem_lit'.1 hz1).1.1
    have e1 := m.1
    simp only at e1
    rw [e] at e1
    have hcolon : ∀ {x : Str}, (∀ c ∈ x, ('A' ≤ c ∧ c ≤ 'Z') ∨ ('a' ≤ c ∧ c ≤ 'z')) → ':' ∉ x := by
      intro x hx hm
      exact absurd (hx _ hm) (by decide)
    obtain ⟨rfl, e2⟩ := delim_unique (hcolon ha) (hcolon fun c hc => has_alpha (hp c hc)) e1
    have p := m.2
    cases y
    simp only at p hc e
    subst p hc e
    rw [e2]
    rfl
  · exact (mem_plus_one rfl).2 ⟨w, hw, ⟨rfl, rfl⟩, rfl, fun c hc => alpha_has (ha c hc)⟩

/-- There is no scheme before a character that is neither a letter of a scheme nor a colon. -/
theorem scheme_none {v : Str} {d : Char} (hv : ':' ∉ v) (hd : d ≠ ':')
    (hd' : ¬(('A' ≤ d ∧ d ≤ 'Z') ∨ ('a' ≤ d ∧ d ≤ 'z'))) :
    run letter reScheme ⟨pre, v ++ d :: rest, caps⟩ = [] := by
  apply Classical.byContradiction
  intro hne
  obtain ⟨s', h⟩ := List.exists_mem_of_ne_nil _ hne
  obtain ⟨w, m, ⟨x, hx, ha, hw⟩, -⟩ := mem_scheme h
  have e := m.1
  simp only at e
  have key : ∀ {a v : Str} {y : Str}, ':' ∉ v →
      (∀ c ∈ a, ('A' ≤ c ∧ c ≤ 'Z') ∨ ('a' ≤ c ∧ c ≤ 'z')) → v ++ d :: rest = a ++ ':' :: y → False := by
    intro a
    induction a with
    | nil =>
      intro v y hv _ e
      cases v with
      | nil =>
        simp only [List.nil_append, List.cons.injEq] at e
        exact hd e.1
      | cons c v =>
        simp only [List.nil_append, List.cons_append, List.cons.injEq] at e
        rw [e.1] at hv
        simp at hv
    | cons b a ih =>
      intro v y hv ha e
      cases v with
      | nil =>
        simp only [List.nil_append, List.cons_append, List.cons.injEq] at e
        rw [← e.1] at ha
        exact hd' (ha d (by simp))
      | cons c v =>
        simp only [List.cons_append, List.cons.injEq] at e
        exact ih (by simp at hv; exact hv.2) (fun c hc => ha c (by simp [hc])) e.2
  rcases hw with rfl | rfl
  · exact key hv ha (by rw [e]; simp; rfl)
  · exact key hv ha (by rw [e]; simp; rfl)

/-! ### Domain names -/

theorem part_has {c : Char} (h : DomainChar letter c) : clsPart.has letter c = true := by
  unfold DomainChar at h
  simpa [Cls.has, clsPart, Item.has] using h

theorem inner_has {c : Char} (h : DomainChar letter c ∨ c = '_' ∨ c = '-') :
    clsInner.has letter c = true := by
  have : letter c = true ∨ ('0' ≤ c ∧ c ≤ '9') ∨ ('_' ≤ c ∧ c ≤ '_') ∨ ('-' ≤ c ∧ c ≤ '-') := by
    rcases h with (h | h) | rfl | rfl
    · exact .inl h
    · exact .inr (.inl h)
    · exact .inr (.inr (.inl (by decide)))
    · exact .inr (.inr (.inr (by decide)))
  simpa [Cls.has, clsInner, Item.has] using this

theorem dot_not_in (hl : letter '.' = false) {p : Str}
    (h : ∀ c ∈ p, letter c = true ∨ ('0' ≤ c ∧ c ≤ '9') ∨ c = '_' ∨ c = '-') : '.' ∉ p := by
  intro hm
  have := h _ hm
  rw [hl] at this
  revert this
  decide

/-- A part of a domain name is read with the dot after it. -/
theorem part_first (hl : letter '.' = false) {p : Str} (hp : DomainPart letter p) :
    (run letter rePart ⟨pre, p ++ '.' :: rest, caps⟩).head? =
      some ⟨'.' :: (p.reverse ++ pre), rest, caps⟩ := by
  obtain ⟨hlen, ⟨a, ha, hac⟩, ⟨z, hz, hzc⟩, hall⟩ := hp
  have hall' : ∀ c ∈ p, letter c = true ∨ ('0' ≤ c ∧ c ≤ '9') ∨ c = '_' ∨ c = '-' := by
    intro c hc
    rcases hall c hc with (h | h) | h
    · exact .inl h
    · exact .inr (.inl h)
    · exact .inr (.inr h)
  apply head?_of_all_eq
  · intro x hx
    obtain ⟨part, hne, hpc, m, hc⟩ := mem_part hx
    have e := m.1
    simp only [List.append_assoc, List.singleton_append] at e
    obtain ⟨rfl, e2⟩ := delim_unique (dot_not_in hl hall') (dot_not_in hl hpc) e
    have pp := m.2
    cases x
    simp only at pp hc e2
    subst pp hc e2
    simp
  · unfold rePart
    obtain ⟨q, rfl⟩ := List.getLast?_eq_some_iff.1 hz
    refine mem_cat.2 ⟨⟨q.reverse ++ pre, z :: '.' :: rest, caps⟩, ?_, mem_cat.2
      ⟨⟨z :: (q.reverse ++ pre), '.' :: rest, caps⟩, ?_, ?_⟩⟩
    · rw [mem_opt]
      cases q with
      | nil => exact .inr (by simp)
      | cons b q =>
        simp only [List.cons_append, List.head?_cons, Option.some.injEq] at ha
        subst ha
        refine .inl (mem_cat.2 ⟨⟨b :: pre, q ++ z :: '.' :: rest, caps⟩, ?_, ?_⟩)
        · show _ ∈ one _ _
          rw [List.append_assoc, List.cons_append, one_yes (part_has hac)]
          simp
        · show _ ∈ (times _ 0 _).flatMap _
          simp only [times, List.flatMap_cons, List.flatMap_nil, List.append_nil]
          have hq : ∀ c ∈ q, clsInner.has letter c = true :=
            fun c hc => inner_has (hall c (by simp [hc]))
          have hqn : q.length ≤ 62 := by simp at hlen; omega
          have : ∀ (q : Str) (n : Nat) (pre : List Char) (rest : Str), q.length ≤ n →
              (∀ c ∈ q, clsInner.has letter c = true) →
              (⟨q.reverse ++ pre, rest, caps⟩ : St) ∈
                loop false (run letter (.cls clsInner)) n ⟨pre, q ++ rest, caps⟩ := by
            intro q
            induction q with
            | nil =>
              intro n pre rest _ _
              cases n with
              | zero => simp [loop]
              | succ n => simp [loop]
            | cons c q ih =>
              intro n pre rest hn hq
              cases n with
              | zero => simp at hn
              | succ n =>
                have h1 := ih n (c :: pre) rest (by simpa using hn) fun d hd => hq d (by simp [hd])
                have h2 : run letter (.cls clsInner) ⟨pre, c :: q ++ rest, caps⟩ =
                    [⟨c :: pre, q ++ rest, caps⟩] := one_yes (hq c (by simp))
                simp only [loop, h2]
                rw [List.filter_cons_of_pos (by simp)]
                simp only [Bool.false_eq_true, if_false, List.filter_nil, List.flatMap_cons,
                  List.flatMap_nil, List.append_nil, List.mem_append]
                left
                simpa using h1
          have := this q 62 (b :: pre) (z :: '.' :: rest) hqn hq
          simpa using this
    · show _ ∈ one _ _
      rw [one_yes (part_has hzc)]
      simp
    · refine mem_lit'.2 ⟨⟨rfl, ?_⟩, rfl⟩
      simp

/-- The character after a domain name. -/
def DomainEnds (letter : Char → Bool) (rest : Str) : Prop :=
  ∀ c, rest.head? = some c →
    ¬(letter c = true ∨ ('0' ≤ c ∧ c ≤ '9') ∨ c = '_' ∨ c = '-') ∧ c ≠ '.'

theorem part_none {top : Str} (ht : '.' ∉ top) (hr : DomainEnds letter rest) :
    run letter rePart ⟨pre, top ++ rest, caps⟩ = [] := by
  apply Classical.byContradiction
  intro hne
  obtain ⟨s', h⟩ := List.exists_mem_of_ne_nil _ hne
  obtain ⟨part, -, hpc, m, -⟩ := mem_part h
  have e := m.1
  simp only [List.append_assoc, List.singleton_append] at e
  rcases List.append_eq_append_iff.1 e with ⟨a, h1, h2⟩ | ⟨b, h1, h2⟩
  · cases a with
    | nil =>
      simp only [List.nil_append] at h2
      exact (hr '.' (by rw [h2]; rfl)).2 rfl
    | cons c a =>
      refine (hr c (by rw [h2]; rfl)).1 (hpc c (by rw [h1]; simp))
  · cases b with
    | nil =>
      simp only [List.nil_append] at h2
      exact (hr '.' (by rw [← h2]; rfl)).2 rfl
    | cons c b =>
      simp only [List.cons_append, List.cons.injEq] at h2
      exact ht (by rw [h1, h2.1]; simp)

theorem L_has {c : Char} : clsL.has letter c = letter c := by
  simp [Cls.has, clsL, Item.has]

theorem top_first {top : Str} (h2 : 2 ≤ top.length) (h64 : top.length ≤ 64)
    (ht : ∀ c ∈ top, letter c = true) (hr : DomainEnds letter rest) :
    (run letter reTop ⟨pre, top ++ rest, caps⟩).head? = some ⟨top.reverse ++ pre, rest, caps⟩ := by
  unfold reTop
  rw [run_cat]
  refine head?_cat (y := ⟨top.reverse ++ pre, rest, caps⟩) ?_ ?_
  · show ((times (one (clsL.has letter)) 2 _).flatMap (loop false (one (clsL.has letter)) 62)).head? = _
    cases top with
    | nil => simp at h2
    | cons a top =>
      cases top with
      | nil => simp at h2
      | cons b t =>
        have e1 := times_one (p := clsL.has letter) (w := [a, b]) (rest := t ++ rest) (caps := caps)
          (pre := pre) (by intro c hc; rw [L_has]; exact ht c (by simp only [List.mem_cons] at hc ⊢; rcases hc with h | h | h <;> simp_all))
        have e2 := loop_one (p := clsL.has letter) (rest := rest) (caps := caps) (w := t) (n := 62)
          (pre := [a, b].reverse ++ pre)
          (fun c hc => by
            rw [L_has, ← Bool.not_eq_true]
            exact fun h => (hr c hc).1 (.inl h))
          (by simp at h64; omega)
          (fun c hc => by rw [L_has]; exact ht c (by simp [hc]))
        show ((times (one (clsL.has letter)) [a, b].length ⟨pre, [a, b] ++ (t ++ rest), caps⟩).flatMap
          _).head? = _
        rw [e1]
        simp only [List.flatMap_cons, List.flatMap_nil, List.append_nil]
        rw [e2]
        simp
  · rw [run_opt]
    have : run letter (.lit '.') ⟨top.reverse ++ pre, rest, caps⟩ = [] := by
      apply one_no
      intro c hc
      simpa using (hr c hc).2
    rw [this]
    rfl

theorem parts_first (hl : letter '.' = false) {top : Str} (ht : '.' ∉ top)
    (hr : DomainEnds letter rest) {parts : List Str} (hp : ∀ p ∈ parts, DomainPart letter p) :
    ∀ {n : Nat} {pre : List Char}, parts.length ≤ n →
    (loop false (run letter rePart) n ⟨pre, domainText parts top ++ rest, caps⟩).head? =
      some ⟨(parts.flatMap (· ++ ['.'])).reverse ++ pre, top ++ rest, caps⟩ := by
  induction parts with
  | nil =>
    intro n pre _
    exact loop_stop (part_none ht hr)
  | cons p ps ih =>
    intro n pre hn
    cases n with
    | zero => simp at hn
    | succ n =>
      have := ih (fun q hq => hp q (by simp [hq])) (n := n) (pre := '.' :: (p.reverse ++ pre))
        (by simpa using hn)
      have e : domainText (p :: ps) top ++ rest = p ++ '.' :: (domainText ps top ++ rest) := by
        simp [domainText]
      rw [e]
      refine loop_step (part_first hl (hp p (by simp))) ?_ ?_
      · simp only [List.length_append, List.length_cons]
        omega
      · rw [this]
        simp

theorem domain_first (hl : letter '.' = false) {parts : List Str} {top : Str}
    (hd : Domain letter parts top) (hr : DomainEnds letter rest) :
    (run letter (.group 3 (.cat (.rep 0 16 rePart) (.group 4 reTop)))
      ⟨pre, domainText parts top ++ rest, caps⟩).head? =
      some ⟨(domainText parts top).reverse ++ pre, rest,
        (3, domainText parts top) :: (4, top) :: caps⟩ := by
  obtain ⟨h1, h2, h3, h4, h5⟩ := hd
  have hdot : '.' ∉ top := by
    intro hm
    rw [h5 _ hm] at hl
    simp at hl
  rw [run_group, List.head?_map]
  have : (run letter (.cat (.rep 0 16 rePart) (.group 4 reTop))
      ⟨pre, domainText parts top ++ rest, caps⟩).head? =
      some ⟨(domainText parts top).reverse ++ pre, rest, (4, top) :: caps⟩ := by
    rw [run_cat]
    refine head?_cat (y := ⟨(parts.flatMap (· ++ ['.'])).reverse ++ pre, top ++ rest, caps⟩) ?_ ?_
    · show ((times _ 0 _).flatMap (loop false (run letter rePart) 16)).head? = _
      simp only [times, List.flatMap_cons, List.flatMap_nil, List.append_nil]
      exact parts_first hl hdot hr h2 h1
    · rw [run_group, List.head?_map, top_first h3 h4 h5 hr]
      simp only [Option.map_some, Option.some.injEq]
      rw [Moves.between (w := top) ⟨rfl, rfl⟩]
      simp [domainText]
  rw [this]
  simp only [Option.map_some, Option.some.injEq]
  rw [Moves.between (w := domainText parts top) ⟨rfl, rfl⟩]

theorem domain_none (hr : DomainEnds letter rest) :
    run letter (.group 3 (.cat (.rep 0 16 rePart) (.group 4 reTop))) ⟨pre, rest, caps⟩ = [] := by
  have h1 : run letter rePart ⟨pre, rest, caps⟩ = [] := by
    have := part_none (letter := letter) (pre := pre) (caps := caps) (top := []) (by simp) hr
    simpa using this
  have h2 : run letter reTop ⟨pre, rest, caps⟩ = [] := by
    unfold reTop
    rw [run_cat]
    have : run letter (.rep 2 64 (.cls clsL)) ⟨pre, rest, caps⟩ = [] := by
      show ((one (clsL.has letter) ⟨pre, rest, caps⟩).flatMap _).flatMap _ = _
      rw [one_no]
      · rfl
      · intro c hc
        rw [L_has, ← Bool.not_eq_true]
        exact fun h => (hr c hc).1 (.inl h)
    rw [this]
    rfl
  rw [run_group, run_cat]
  show (((times _ 0 _).flatMap (loop false (run letter rePart) 16)).flatMap _).map _ = _
  simp only [times, List.flatMap_cons, List.flatMap_nil, List.append_nil]
  rw [show (16 : Nat) = 15 + 1 from rfl, loop, h1]
  simp only [List.filter_nil, List.flatMap_nil, List.nil_append, Bool.false_eq_true, if_false,
    List.flatMap_cons, List.append_nil]
  rw [run_group, h2]
  rfl

/-! ### Paths -/

def reUnit : Re := .alt (.cls clsPath) (.cat (.lit '%') (.rep 2 2 (.cls clsHex)))

theorem path_has {c : Char} (h : letter c = true ∨ ('0' ≤ c ∧ c ≤ '9') ∨ c ∈ ".@,~_-".toList) :
    clsPath.has letter c = true := by
  have : letter c = true ∨ ('0' ≤ c ∧ c ≤ '9') ∨ ('.' ≤ c ∧ c ≤ '.') ∨ ('@' ≤ c ∧ c ≤ '@') ∨
      (',' ≤ c ∧ c ≤ ',') ∨ ('~' ≤ c ∧ c ≤ '~') ∨ ('_' ≤ c ∧ c ≤ '_') ∨ ('-' ≤ c ∧ c ≤ '-') := by
    rcases h with h | h | h
    · exact .inl h
    · exact .inr (.inl h)
    · have : c ∈ ['.', '@', ',', '~', '_', '-'] := h
      simp only [List.mem_cons, List.not_mem_nil, or_false] at this
      rcases this with rfl | rfl | rfl | rfl | rfl | rfl <;> exact .inr (.inr (by decide))
  simpa [Cls.has, clsPath, Item.has] using this

theorem has_path' {c : Char} (h : clsPath.has letter c = true) :
    letter c = true ∨ ('0' ≤ c ∧ c ≤ '9') ∨ c ∈ ".@,~_-".toList := by
  have : letter c = true ∨ ('0' ≤ c ∧ c ≤ '9') ∨ ('.' ≤ c ∧ c ≤ '.') ∨ ('@' ≤ c ∧ c ≤ '@') ∨
      (',' ≤ c ∧ c ≤ ',') ∨ ('~' ≤ c ∧ c ≤ '~') ∨ ('_' ≤ c ∧ c ≤ '_') ∨ ('-' ≤ c ∧ c ≤ '-') := by
    simpa [Cls.has, clsPath, Item.has] using h
  rcases this with h | h | h | h | h | h | h | h
  · exact .inl h
  · exact .inr (.inl h)
  all_goals (rw [eq_of_le_le h]; exact .inr (.inr (by decide)))

theorem hex_has {c : Char} (h : HexDigit c) : clsHex.has letter c = true := by
  unfold HexDigit at h
  simpa [Cls.has, clsHex, Item.has, or_assoc] using h

/-- The character after a part of a path. -/
def SegEnds (letter : Char → Bool) (rest : Str) : Prop :=
  ∀ c, rest.head? = some c →
    ¬(letter c = true ∨ ('0' ≤ c ∧ c ≤ '9') ∨ c ∈ ".@,~_-".toList) ∧ c ≠ '%'

theorem unit_none (hr : SegEnds letter rest) : run letter reUnit ⟨pre, rest, caps⟩ = [] := by
  show one (clsPath.has letter) _ ++ (run letter (.lit '%') _).flatMap _ = _
  rw [one_no, show run letter (.lit '%') ⟨pre, rest, caps⟩ = [] from one_no fun c hc => ?_]
  · rfl
  · simpa using (hr c hc).2
  · intro c hc
    rw [← Bool.not_eq_true]
    exact fun h => (hr c hc).1 (has_path' h)

theorem seg_first (hp : letter '%' = false) (hr : SegEnds letter rest) {s : Str}
    (hs : Segment letter s) : ∀ {n : Nat} {pre : List Char}, s.length ≤ n →
    (loop false (run letter reUnit) n ⟨pre, s ++ rest, caps⟩).head? =
      some ⟨s.reverse ++ pre, rest, caps⟩ := by
  induction hs with
  | nil => intro n pre _; exact loop_stop (unit_none hr)
  | char hc _ ih =>
    rename_i c s _
    intro n pre hn
    cases n with
    | zero => simp at hn
    | succ n =>
      have := ih (n := n) (pre := c :: pre) (by simpa using hn)
      refine loop_step (t := ⟨c :: pre, s ++ rest, caps⟩) ?_ (by simp) (by simpa using this)
      show (one (clsPath.has letter) ⟨pre, c :: (s ++ rest), caps⟩ ++ _).head? = _
      rw [one_yes (path_has hc)]
      rfl
  | hex ha hb _ ih =>
    rename_i a b s _
    intro n pre hn
    cases n with
    | zero => simp at hn
    | succ n =>
      have := ih (n := n) (pre := b :: a :: '%' :: pre) (by simp at hn; omega)
      refine loop_step (t := ⟨b :: a :: '%' :: pre, s ++ rest, caps⟩) ?_ (by simp; omega)
        (by simpa using this)
      show (one (clsPath.has letter) ⟨pre, '%' :: (a :: b :: (s ++ rest)), caps⟩ ++
        (run letter (.lit '%') ⟨pre, '%' :: (a :: b :: (s ++ rest)), caps⟩).flatMap _).head? = _
      have h1 : one (clsPath.has letter) ⟨pre, '%' :: (a :: b :: (s ++ rest)), caps⟩ = [] := by
        apply one_no
        intro c hc
        simp only [List.head?_cons, Option.some.injEq] at hc
        subst hc
        rw [← Bool.not_eq_true]
        intro h
        rcases has_path' h with h | h | h
        · rw [hp] at h; simp at h
        · revert h; decide
        · revert h; decide
      rw [h1, List.nil_append, run_lit_cons]
      simp only [List.flatMap_cons, List.flatMap_nil, List.append_nil]
      show ((times (one (clsHex.has letter)) [a, b].length ⟨'%' :: pre, [a, b] ++ (s ++ rest),
        caps⟩).flatMap (loop false (one (clsHex.has letter)) 0)).head? = _
      rw [times_one (by
        intro c hc
        simp only [List.mem_cons, List.not_mem_nil, or_false] at hc
        rcases hc with rfl | rfl
        · exact hex_has ha
        · exact hex_has hb)]
      rfl

/-- The character after a path. -/
def PathEnds (letter : Char → Bool) (rest : Str) : Prop :=
  SegEnds letter rest ∧ rest.head? ≠ some '/'

theorem slash_ends (hl : letter '/' = false) (t : Str) : SegEnds letter ('/' :: t) := by
  intro c hc
  simp only [List.head?_cons, Option.some.injEq] at hc
  subst hc
  rw [hl]
  decide

theorem path_first (hp : letter '%' = false) (hl : letter '/' = false) (hr : PathEnds letter rest)
    {p : Str} (h : FullPath letter p) : ∀ {n : Nat} {pre : List Char}, p.length ≤ n →
    (loop false (run letter reSeg) n ⟨pre, p ++ rest, caps⟩).head? =
      some ⟨p.reverse ++ pre, rest, caps⟩ := by
  induction h with
  | nil =>
    intro n pre _
    refine loop_stop ?_
    unfold reSeg
    rw [run_cat]
    have : run letter (.lit '/') ⟨pre, [] ++ rest, caps⟩ = [] := by
      apply one_no
      intro c hc
      simp only [List.nil_append] at hc
      have : c ≠ '/' := by rintro rfl; exact hr.2 hc
      simpa using this
    rw [this]
    rfl
  | cons hs h ih =>
    rename_i s p
    intro n pre hn
    cases n with
    | zero => simp at hn
    | succ n =>
      have := ih (n := n) (pre := s.reverse ++ '/' :: pre) (by simp at hn ⊢; omega)
      refine loop_step (t := ⟨s.reverse ++ '/' :: pre, p ++ rest, caps⟩) ?_ (by simp; omega)
        (by simpa using this)
      have hends : SegEnds letter (p ++ rest) := by
        cases h with
        | nil => exact hr.1
        | cons _ _ => exact slash_ends hl _
      unfold reSeg
      rw [run_cat]
      have e : '/' :: s ++ p ++ rest = '/' :: (s ++ (p ++ rest)) := by simp
      rw [e, run_lit_cons]
      simp only [List.flatMap_cons, List.flatMap_nil, List.append_nil]
      exact seg_first hp hends hs (by simp)

theorem pathGroup_first (hp : letter '%' = false) (hl : letter '/' = false)
    (hr : PathEnds letter rest) {p : Str} (h : FullPath letter p) :
    (run letter (.opt false (.group 5 (.star false reSeg))) ⟨pre, p ++ rest, caps⟩).head? =
      some ⟨p.reverse ++ pre, rest, (5, p) :: caps⟩ := by
  rw [run_opt, List.head?_append, run_group, List.head?_map]
  show Option.or (Option.map _ (loop false (run letter reSeg) (p ++ rest).length _).head?) _ = _
  rw [path_first hp hl hr h (by simp)]
  simp only [Option.map_some, Option.some_or, Option.some.injEq]
  rw [Moves.between (w := p) ⟨rfl, rfl⟩]

end

end Burl.Links
