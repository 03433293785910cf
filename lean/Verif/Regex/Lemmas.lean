import Verif.Regex.Model
/-! Facts about the matcher that hold for every expression. -/
namespace Burl.Regex

/-- `w` is the text between two positions. -/
def Moves (s s' : St) (w : Str) : Prop := s.rest = w ++ s'.rest ∧ s'.pre = w.reverse ++ s.pre

theorem Moves.refl (s : St) : Moves s s [] := by simp [Moves]

theorem Moves.trans {s t u : St} {v w : Str} (h : Moves s t v) (h' : Moves t u w) :
    Moves s u (v ++ w) := by
  obtain ⟨h1, h2⟩ := h
  obtain ⟨h3, h4⟩ := h'
  exact ⟨by rw [h1, h3, List.append_assoc], by rw [h4, h2]; simp⟩

theorem Moves.between {s s' : St} {w : Str} (h : Moves s s' w) : between s s' = w := by
  unfold Burl.Regex.between
  rw [h.2]
  simp

theorem Moves.unique {s s' : St} {v w : Str} (h : Moves s s' v) (h' : Moves s s' w) : v = w := by
  rw [← h.between, ← h'.between]

/-- The whole text. -/
def St.text (s : St) : Str := s.pre.reverse ++ s.rest

theorem Moves.text {s s' : St} {w : Str} (h : Moves s s' w) : s'.text = s.text := by
  unfold St.text
  rw [h.1, h.2]
  simp

/-- Numbers of groups of an expression. -/
def idxs : Re → List Nat
  | .group i r => i :: idxs r
  | .cat a b => idxs a ++ idxs b
  | .alt a b => idxs a ++ idxs b
  | .star _ r => idxs r
  | .plus _ r => idxs r
  | .opt _ r => idxs r
  | .rep _ _ r => idxs r
  | _ => []

/-- What a match may do: move forward and record groups of the set `I`. -/
def Good (I : List Nat) (s s' : St) : Prop :=
  (∃ w, Moves s s' w) ∧ ∃ d, s'.caps = d ++ s.caps ∧ ∀ p ∈ d, p.1 ∈ I

theorem Good.refl (I : List Nat) (s : St) : Good I s s := ⟨⟨[], .refl s⟩, [], by simp⟩

theorem Good.trans {I : List Nat} {s t u : St} (h : Good I s t) (h' : Good I t u) : Good I s u := by
  obtain ⟨⟨w, hw⟩, d, hd, hI⟩ := h
  obtain ⟨⟨w', hw'⟩, d', hd', hI'⟩ := h'
  refine ⟨⟨_, hw.trans hw'⟩, d' ++ d, by rw [hd', hd, List.append_assoc], ?_⟩
  intro p hp
  rcases List.mem_append.1 hp with h1 | h1
  · exact hI' p h1
  · exact hI p h1

theorem Good.mono {I J : List Nat} {s s' : St} (h : Good I s s') (hIJ : ∀ i ∈ I, i ∈ J) :
    Good J s s' := by
  obtain ⟨hw, d, hd, hI⟩ := h
  exact ⟨hw, d, hd, fun p hp => hIJ _ (hI p hp)⟩

theorem mem_one {p : Char → Bool} {s s' : St} :
    s' ∈ one p s ↔ ∃ c cs, s.rest = c :: cs ∧ p c = true ∧ s' = ⟨c :: s.pre, cs, s.caps⟩ := by
  unfold one
  cases h : s.rest with
  | nil => simp
  | cons c cs =>
    simp only [List.cons.injEq]
    constructor
    · intro hs
      split at hs
      · rename_i hp; exact ⟨c, cs, ⟨rfl, rfl⟩, hp, by simpa using hs⟩
      · simp at hs
    · rintro ⟨_, _, ⟨rfl, rfl⟩, hp, rfl⟩
      simp [hp]

theorem one_good {I : List Nat} {p : Char → Bool} {s s' : St} (h : s' ∈ one p s) : Good I s s' := by
  obtain ⟨c, cs, hr, _, rfl⟩ := mem_one.1 h
  exact ⟨⟨[c], by simp [Moves, hr]⟩, [], by simp⟩

/-- A relation closed under composition that holds of each iteration holds of the loop. -/
theorem loop_induct {P : St → St → Prop} (hr : ∀ s, P s s) (ht : ∀ s t u, P s t → P t u → P s u)
    {lz : Bool} {f : St → List St} (hf : ∀ s s', s' ∈ f s → P s s') (n : Nat) :
    ∀ {s s' : St}, s' ∈ loop lz f n s → P s s' := by
  induction n with
  | zero => intro s s' h; simp only [loop, List.mem_singleton] at h; subst h; exact hr s'
  | succ n ih =>
    intro s s' h
    have key : s' = s ∨ s' ∈ ((f s).filter fun s' => decide (s'.rest.length < s.rest.length)).flatMap
        (loop lz f n) := by
      simp only [loop] at h
      split at h
      · simpa using h
      · rcases List.mem_append.1 h with h1 | h1
        · exact .inr h1
        · exact .inl (by simpa using h1)
    rcases key with rfl | h1
    · exact hr _
    · obtain ⟨t, ht1, ht2⟩ := List.mem_flatMap.1 h1
      exact ht _ _ _ (hf _ _ (List.mem_filter.1 ht1).1) (ih ht2)

theorem times_induct {P : St → St → Prop} (hr : ∀ s, P s s) (ht : ∀ s t u, P s t → P t u → P s u)
    {f : St → List St} (hf : ∀ s s', s' ∈ f s → P s s') (n : Nat) :
    ∀ {s s' : St}, s' ∈ times f n s → P s s' := by
  induction n with
  | zero => intro s s' h; simp only [times, List.mem_singleton] at h; subst h; exact hr s'
  | succ n ih =>
    intro s s' h
    obtain ⟨t, ht1, ht2⟩ := List.mem_flatMap.1 h
    exact ht _ _ _ (hf _ _ ht1) (ih ht2)

theorem run_good (letter : Char → Bool) (r : Re) : ∀ {s s' : St}, s' ∈ run letter r s →
    Good (idxs r) s s' := by
  induction r with
  | never => intro s s' h; simp [run] at h
  | empty => intro s s' h; simp [run] at h; subst h; exact .refl _ _
  | lit c => intro s s' h; exact one_good h
  | cls k => intro s s' h; exact one_good h
  | any => intro s s' h; exact one_good h
  | space k => intro s s' h; exact one_good h
  | bol => intro s s' h; simp only [run] at h; split at h <;> simp at h; subst h; exact .refl _ _
  | eol => intro s s' h; simp only [run] at h; split at h <;> simp at h; subst h; exact .refl _ _
  | wordB => intro s s' h; simp only [run] at h; split at h <;> simp at h; subst h; exact .refl _ _
  | cat a b iha ihb =>
    intro s s' h
    obtain ⟨t, h1, h2⟩ := List.mem_flatMap.1 h
    exact ((iha h1).mono fun i hi => by simp [idxs, hi]).trans
      ((ihb h2).mono fun i hi => by simp [idxs, hi])
  | alt a b iha ihb =>
    intro s s' h
    rcases List.mem_append.1 h with h1 | h1
    · exact (iha h1).mono fun i hi => by simp [idxs, hi]
    · exact (ihb h1).mono fun i hi => by simp [idxs, hi]
  | star lz r ih =>
    intro s s' h
    exact loop_induct (Good.refl _) (fun _ _ _ => Good.trans) (fun _ _ => ih) _ h
  | plus lz r ih =>
    intro s s' h
    obtain ⟨t, h1, h2⟩ := List.mem_flatMap.1 h
    exact (ih h1).trans
      (loop_induct (Good.refl _) (fun _ _ _ => Good.trans) (fun _ _ => ih) _ h2)
  | opt lz r ih =>
    intro s s' h
    have : s' = s ∨ s' ∈ run letter r s := by
      simp only [run] at h
      split at h
      · simpa using h
      · rcases List.mem_append.1 h with h1 | h1
        · exact .inr h1
        · exact .inl (by simpa using h1)
    rcases this with rfl | h1
    · exact .refl _ _
    · exact ih h1
  | rep lo hi r ih =>
    intro s s' h
    obtain ⟨t, h1, h2⟩ := List.mem_flatMap.1 h
    exact (times_induct (Good.refl _) (fun _ _ _ => Good.trans) (fun _ _ => ih) _ h1).trans
      (loop_induct (Good.refl _) (fun _ _ _ => Good.trans) (fun _ _ => ih) _ h2)
  | group i r ih =>
    intro s s' h
    obtain ⟨t, h1, rfl⟩ := List.mem_map.1 h
    obtain ⟨⟨w, hw⟩, d, hd, hI⟩ := ih h1
    refine ⟨⟨w, hw⟩, (i, between s t) :: d, by simp [hd], ?_⟩
    intro p hp
    rcases List.mem_cons.1 hp with rfl | h2
    · simp [idxs]
    · simp [idxs, hI p h2]

/-! ### Membership by the shape of an expression -/

section
variable {letter : Char → Bool} {s s' : St}

theorem mem_lit {c : Char} : s' ∈ run letter (.lit c) s ↔
    ∃ cs, s.rest = c :: cs ∧ s' = ⟨c :: s.pre, cs, s.caps⟩ := by
  simp only [run, mem_one]
  constructor
  · rintro ⟨d, cs, h1, h2, h3⟩
    simp at h2; subst h2
    exact ⟨cs, h1, h3⟩
  · rintro ⟨cs, h1, h2⟩
    exact ⟨c, cs, h1, by simp, h2⟩

theorem mem_cat {a b : Re} : s' ∈ run letter (.cat a b) s ↔
    ∃ t, t ∈ run letter a s ∧ s' ∈ run letter b t := List.mem_flatMap

theorem mem_alt {a b : Re} : s' ∈ run letter (.alt a b) s ↔
    s' ∈ run letter a s ∨ s' ∈ run letter b s := List.mem_append

theorem mem_opt {lz : Bool} {r : Re} : s' ∈ run letter (.opt lz r) s ↔
    s' ∈ run letter r s ∨ s' = s := by
  simp only [run]
  split <;> simp [or_comm]

theorem mem_group {i : Nat} {r : Re} : s' ∈ run letter (.group i r) s ↔
    ∃ t, t ∈ run letter r s ∧ s' = { t with caps := (i, between s t) :: t.caps } := by
  simp only [run, List.mem_map]
  constructor
  · rintro ⟨t, h1, h2⟩; exact ⟨t, h1, h2.symm⟩
  · rintro ⟨t, h1, h2⟩; exact ⟨t, h1, h2.symm⟩

theorem mem_cats_cons {r : Re} {rs : List Re} (h : rs ≠ []) :
    s' ∈ run letter (cats (r :: rs)) s ↔ s' ∈ run letter (.cat r (cats rs)) s := by
  cases rs with
  | nil => exact absurd rfl h
  | cons a as => rfl

theorem mem_alts {rs : List Re} : s' ∈ run letter (alts rs) s ↔ ∃ r ∈ rs, s' ∈ run letter r s := by
  induction rs with
  | nil => simp [alts, run]
  | cons r rs ih =>
    cases rs with
    | nil => simp [alts]
    | cons a as =>
      have : alts (r :: a :: as) = .alt r (alts (a :: as)) := rfl
      rw [this, mem_alt, ih]
      simp

/-- A sequence of literals matches exactly that text. -/
theorem mem_lits {w : Str} : s' ∈ run letter (cats (w.map .lit)) s ↔
    Moves s s' w ∧ s'.caps = s.caps := by
  induction w generalizing s with
  | nil =>
    simp only [List.map_nil, cats, run, List.mem_singleton, Moves, List.nil_append,
      List.reverse_nil]
    constructor
    · rintro rfl; simp
    · rintro ⟨⟨h1, h2⟩, h3⟩; cases s; cases s'; simp_all
  | cons c cs ih =>
    have key : s' ∈ run letter (cats ((c :: cs).map .lit)) s ↔
        ∃ t, t ∈ run letter (.lit c) s ∧ s' ∈ run letter (cats (cs.map .lit)) t := by
      cases cs with
      | nil => simp [cats, run]
      | cons d ds => exact mem_cat
    rw [key]
    constructor
    · rintro ⟨t, h1, h2⟩
      obtain ⟨rest, hr, rfl⟩ := mem_lit.1 h1
      obtain ⟨⟨h3, h4⟩, h5⟩ := ih.1 h2
      refine ⟨⟨?_, ?_⟩, by simpa using h5⟩
      · rw [hr]; simp only at h3; rw [h3]; rfl
      · rw [h4]; simp
    · rintro ⟨⟨h1, h2⟩, h3⟩
      refine ⟨⟨c :: s.pre, cs ++ s'.rest, s.caps⟩, mem_lit.2 ⟨_, by simpa using h1, rfl⟩, ?_⟩
      exact ih.2 ⟨⟨rfl, by rw [h2]; simp⟩, h3⟩

end

/-! ### Searching -/

theorem findFrom_spec {letter : Char → Bool} {r : Re} {rest : Str} :
    ∀ {pre : List Char} {s s' : St}, findFrom letter r pre rest = some (s, s') →
      s' ∈ run letter r s ∧ s.caps = [] ∧ ∃ w, Moves ⟨pre, rest, []⟩ s w := by
  induction rest with
  | nil =>
    intro pre s s' h
    simp only [findFrom] at h
    split at h
    · rename_i x xs hx
      simp only [Option.some.injEq, Prod.mk.injEq] at h
      obtain ⟨rfl, rfl⟩ := h
      exact ⟨by rw [hx]; simp, rfl, [], .refl _⟩
    · simp at h
  | cons c cs ih =>
    intro pre s s' h
    simp only [findFrom] at h
    split at h
    · rename_i x xs hx
      simp only [Option.some.injEq, Prod.mk.injEq] at h
      obtain ⟨rfl, rfl⟩ := h
      exact ⟨by rw [hx]; simp, rfl, [], .refl _⟩
    · obtain ⟨h1, h2, w, hw⟩ := ih h
      refine ⟨h1, h2, c :: w, ?_⟩
      have : Moves ⟨pre, c :: cs, []⟩ ⟨c :: pre, cs, []⟩ [c] := by simp [Moves]
      exact this.trans hw

/-- An expression is found iff it matches at some position. -/
theorem findFrom_isSome {letter : Char → Bool} {r : Re} {rest : Str} : ∀ {pre : List Char},
    (findFrom letter r pre rest).isSome = true ↔
      ∃ w t, rest = w ++ t ∧ run letter r ⟨w.reverse ++ pre, t, []⟩ ≠ [] := by
  induction rest with
  | nil =>
    intro pre
    constructor
    · intro h
      refine ⟨[], [], rfl, ?_⟩
      simp only [findFrom] at h
      split at h
      · rename_i hx; simp [hx]
      · simp at h
    · rintro ⟨w, t, h1, h2⟩
      obtain ⟨rfl, rfl⟩ := List.append_eq_nil_iff.1 h1.symm
      simp only [findFrom]
      split
      · rfl
      · rename_i hx; exact absurd hx h2
  | cons c cs ih =>
    intro pre
    constructor
    · intro h
      simp only [findFrom] at h
      split at h
      · rename_i hx; exact ⟨[], c :: cs, rfl, by simp [hx]⟩
      · obtain ⟨w, t, h1, h2⟩ := ih.1 h
        exact ⟨c :: w, t, by simp [h1], by simpa using h2⟩
    · rintro ⟨w, t, h1, h2⟩
      simp only [findFrom]
      split
      · rfl
      · rename_i hx
        cases w with
        | nil =>
          have : t = c :: cs := by simpa using h1.symm
          subst this
          exact absurd hx h2
        | cons d ds =>
          have : c = d ∧ cs = ds ++ t := by simpa using h1
          obtain ⟨rfl, rfl⟩ := this
          exact ih.2 ⟨ds, t, rfl, by simpa using h2⟩

theorem findAllFrom_spec {letter : Char → Bool} {r : Re} : ∀ {n : Nat} {pre : List Char}
    {rest : Str} {pe : Option Nat} {m : Match}, m ∈ findAllFrom letter r n pre rest pe →
      ∃ s s', m = mkMatch s s' ∧ s' ∈ run letter r s ∧ s.caps = [] ∧
        s.text = pre.reverse ++ rest := by
  intro n
  induction n with
  | zero => intro pre rest pe m h; simp [findAllFrom] at h
  | succ n ih =>
    intro pre rest pe m h
    simp only [findAllFrom] at h
    split at h
    · simp at h
    · rename_i s s' hf
      obtain ⟨h1, h2, w, hw⟩ := findFrom_spec hf
      have htext : s.text = pre.reverse ++ rest := hw.text
      obtain ⟨⟨w', hw'⟩, -⟩ := run_good letter r h1
      split at h
      · have hout : ∀ x ∈ (if some s.pre.length = pe then [] else [mkMatch s s']),
            x = mkMatch s s' := by
          intro x hx
          split at hx
          · simp at hx
          · simpa using hx
        split at h
        · exact ⟨s, s', hout _ h, h1, h2, htext⟩
        · rename_i c cs
          rcases List.mem_append.1 h with h3 | h3
          · exact ⟨s, s', hout _ h3, h1, h2, htext⟩
          · obtain ⟨t, t', e1, e2, e3, e4⟩ := ih h3
            exact ⟨t, t', e1, e2, e3, by rw [e4]; simp⟩
      · rcases List.mem_cons.1 h with rfl | h3
        · exact ⟨s, s', rfl, h1, h2, htext⟩
        · obtain ⟨t, t', e1, e2, e3, e4⟩ := ih h3
          exact ⟨t, t', e1, e2, e3, by rw [e4, ← htext]; exact hw'.text⟩

/-- Every reported match is a match of the expression somewhere in the text. -/
theorem findAll_spec {letter : Char → Bool} {r : Re} {text : Str} {m : Match}
    (h : m ∈ findAll letter r text) :
    ∃ s s', m = mkMatch s s' ∧ s' ∈ run letter r s ∧ s.caps = [] ∧ s.text = text :=
  findAllFrom_spec h

/-- A group that is not in the expression is empty. -/
theorem sub_of_not_mem {m : Match} {i : Nat} (hi : i ≠ 0) (h : ∀ p ∈ m.caps, p.1 ≠ i) :
    m.sub i = [] := by
  unfold Match.sub
  rw [if_neg hi]
  have : m.caps.find? (fun p => p.1 == i) = none := by
    rw [List.find?_eq_none]
    intro p hp
    simpa using h p hp
  simp [this]

/-! ### Groups are parts of the text -/

/-- `w` is a part of a text. -/
def Part (w text : Str) : Prop := ∃ a b, text = a ++ w ++ b

/-- A match records only parts of the text. -/
def Inside (s s' : St) : Prop :=
  s'.text = s.text ∧ ∀ p ∈ s'.caps, p ∈ s.caps ∨ Part p.2 s.text

theorem Inside.refl (s : St) : Inside s s := ⟨rfl, fun _ h => .inl h⟩

theorem Inside.trans {s t u : St} (h : Inside s t) (h' : Inside t u) : Inside s u := by
  refine ⟨h'.1.trans h.1, fun p hp => ?_⟩
  rcases h'.2 p hp with h1 | h1
  · exact h.2 p h1
  · exact .inr (h.1 ▸ h1)

theorem one_inside {p : Char → Bool} {s s' : St} (h : s' ∈ one p s) : Inside s s' := by
  obtain ⟨⟨w, hw⟩, d, hd, hI⟩ := one_good (I := []) h
  refine ⟨hw.text, fun q hq => ?_⟩
  rw [hd] at hq
  rcases List.mem_append.1 hq with h1 | h1
  · exact absurd (hI q h1) (by simp)
  · exact .inl h1

theorem run_inside (letter : Char → Bool) (r : Re) : ∀ {s s' : St}, s' ∈ run letter r s →
    Inside s s' := by
  induction r with
  | never => intro s s' h; simp [run] at h
  | empty => intro s s' h; simp [run] at h; subst h; exact .refl _
  | lit c => intro s s' h; exact one_inside h
  | cls k => intro s s' h; exact one_inside h
  | any => intro s s' h; exact one_inside h
  | space k => intro s s' h; exact one_inside h
  | bol => intro s s' h; simp only [run] at h; split at h <;> simp at h; subst h; exact .refl _
  | eol => intro s s' h; simp only [run] at h; split at h <;> simp at h; subst h; exact .refl _
  | wordB => intro s s' h; simp only [run] at h; split at h <;> simp at h; subst h; exact .refl _
  | cat a b iha ihb =>
    intro s s' h
    obtain ⟨t, h1, h2⟩ := List.mem_flatMap.1 h
    exact (iha h1).trans (ihb h2)
  | alt a b iha ihb =>
    intro s s' h
    rcases List.mem_append.1 h with h1 | h1
    · exact iha h1
    · exact ihb h1
  | star lz r ih =>
    intro s s' h
    exact loop_induct Inside.refl (fun _ _ _ => Inside.trans) (fun _ _ => ih) _ h
  | plus lz r ih =>
    intro s s' h
    obtain ⟨t, h1, h2⟩ := List.mem_flatMap.1 h
    exact (ih h1).trans
      (loop_induct Inside.refl (fun _ _ _ => Inside.trans) (fun _ _ => ih) _ h2)
  | opt lz r ih =>
    intro s s' h
    rcases mem_opt.1 h with h1 | rfl
    · exact ih h1
    · exact .refl _
  | rep lo hi r ih =>
    intro s s' h
    obtain ⟨t, h1, h2⟩ := List.mem_flatMap.1 h
    exact (times_induct Inside.refl (fun _ _ _ => Inside.trans) (fun _ _ => ih) _ h1).trans
      (loop_induct Inside.refl (fun _ _ _ => Inside.trans) (fun _ _ => ih) _ h2)
  | group i r ih =>
    intro s s' h
    obtain ⟨t, h1, rfl⟩ := List.mem_map.1 h
    obtain ⟨ht, hc⟩ := ih h1
    refine ⟨ht, fun p hp => ?_⟩
    rcases List.mem_cons.1 hp with rfl | h2
    · obtain ⟨⟨w, hw⟩, -⟩ := run_good letter r h1
      refine .inr ⟨s.pre.reverse, t.rest, ?_⟩
      rw [hw.between]
      unfold St.text
      rw [hw.1, List.append_assoc]
    · exact hc p h2

/-- The text of a match and its groups are parts of the text searched. -/
theorem findAll_part {letter : Char → Bool} {r : Re} {text : Str} {m : Match}
    (h : m ∈ findAll letter r text) (i : Nat) : Part (m.sub i) text := by
  obtain ⟨s, s', rfl, h1, h2, rfl⟩ := findAll_spec h
  unfold Match.sub
  split
  · obtain ⟨⟨w, hw⟩, -⟩ := run_good letter r h1
    refine ⟨s.pre.reverse, s'.rest, ?_⟩
    show s.text = _ ++ between s s' ++ _
    rw [hw.between]
    unfold St.text
    rw [hw.1, List.append_assoc]
  · cases hf : (mkMatch s s').caps.find? (fun p => p.1 == i) with
    | none => exact ⟨[], s.text, by simp⟩
    | some p =>
      rcases (run_inside letter r h1).2 p (List.mem_of_find?_eq_some hf) with h3 | h3
      · rw [h2] at h3; simp at h3
      · exact h3

end Burl.Regex
