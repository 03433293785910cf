import Verif.Regex.Lemmas
/-! Loops of the matcher: exact descriptions of what they match. -/
namespace Burl.Regex

/-- Iterations that move forward. -/
inductive Iter (f : St → List St) : St → St → Prop where
  | refl {s} : Iter f s s
  | step {s t u} : t ∈ f s → t.rest.length < s.rest.length → Iter f t u → Iter f s u

theorem mem_loop_succ {lz : Bool} {f : St → List St} {n : Nat} {s s' : St} :
    s' ∈ loop lz f (n + 1) s ↔ s' = s ∨
      ∃ t ∈ f s, t.rest.length < s.rest.length ∧ s' ∈ loop lz f n t := by
  simp only [loop]
  split
  · simp only [List.mem_cons, List.mem_flatMap, List.mem_filter, decide_eq_true_eq, and_assoc]
  · simp only [List.mem_append, List.mem_singleton, List.mem_flatMap, List.mem_filter,
      decide_eq_true_eq, and_assoc, or_comm]

theorem mem_loop {lz : Bool} {f : St → List St} {n : Nat} {s s' : St} (hn : s.rest.length ≤ n) :
    s' ∈ loop lz f n s ↔ Iter f s s' := by
  induction n generalizing s with
  | zero =>
    simp only [loop, List.mem_singleton]
    constructor
    · rintro rfl; exact .refl
    · intro h
      cases h with
      | refl => rfl
      | step _ h2 _ => omega
  | succ n ih =>
    rw [mem_loop_succ]
    constructor
    · rintro (rfl | ⟨t, h1, h2, h3⟩)
      · exact .refl
      · exact .step h1 h2 ((ih (by omega)).1 h3)
    · intro h
      cases h with
      | refl => exact .inl rfl
      | step h1 h2 h3 => exact .inr ⟨_, h1, h2, (ih (by omega)).2 h3⟩

theorem loop_iter {lz : Bool} {f : St → List St} {n : Nat} {s s' : St}
    (h : s' ∈ loop lz f n s) : Iter f s s' := by
  induction n generalizing s with
  | zero => simp only [loop, List.mem_singleton] at h; subst h; exact .refl
  | succ n ih =>
    rcases mem_loop_succ.1 h with rfl | ⟨t, h1, h2, h3⟩
    · exact .refl
    · exact .step h1 h2 (ih h3)

/-- Text of characters satisfying a predicate was read. -/
def Reads (p : Char → Bool) (s s' : St) (w : Str) : Prop :=
  Moves s s' w ∧ s'.caps = s.caps ∧ ∀ c ∈ w, p c = true

theorem one_reads {p : Char → Bool} {s s' : St} :
    s' ∈ one p s ↔ ∃ c, Reads p s s' [c] := by
  rw [mem_one]
  constructor
  · rintro ⟨c, cs, h1, h2, rfl⟩
    exact ⟨c, ⟨by simp [h1], by simp⟩, rfl, by simpa using h2⟩
  · rintro ⟨c, ⟨h1, h2⟩, h3, h4⟩
    refine ⟨c, s'.rest, by simpa using h1, h4 c (by simp), ?_⟩
    cases s'
    simp_all

theorem iter_one {p : Char → Bool} {s s' : St} : Iter (one p) s s' ↔ ∃ w, Reads p s s' w := by
  constructor
  · intro h
    induction h with
    | refl => exact ⟨[], .refl _, rfl, by simp⟩
    | step h1 _ _ ih =>
      obtain ⟨c, m1, c1, p1⟩ := one_reads.1 h1
      obtain ⟨w, m2, c2, p2⟩ := ih
      refine ⟨[c] ++ w, m1.trans m2, by rw [c2, c1], ?_⟩
      intro d hd
      rcases List.mem_append.1 hd with h | h
      · exact p1 d h
      · exact p2 d h
  · rintro ⟨w, m, hc, hp⟩
    induction w generalizing s with
    | nil =>
      have : s' = s := by
        obtain ⟨h1, h2⟩ := m
        cases s; cases s'; simp_all
      subst this
      exact .refl
    | cons c cs ih =>
      have h1 : s.rest = c :: (cs ++ s'.rest) := by simpa using m.1
      refine .step (t := ⟨c :: s.pre, cs ++ s'.rest, s.caps⟩) ?_ (by simp [h1]) ?_
      · exact mem_one.2 ⟨c, _, h1, hp c (by simp), rfl⟩
      · refine ih ⟨rfl, by rw [m.2]; simp⟩ hc fun d hd => hp d (by simp [hd])

section
variable {letter : Char → Bool} {s s' : St} {r : Re} {p : Char → Bool} {lz : Bool}

theorem mem_star : s' ∈ run letter (.star lz r) s ↔ Iter (run letter r) s s' :=
  mem_loop (Nat.le_refl _)

theorem mem_plus : s' ∈ run letter (.plus lz r) s ↔
    ∃ t ∈ run letter r s, Iter (run letter r) t s' := by
  simp only [run, List.mem_flatMap]
  constructor
  · rintro ⟨t, h1, h2⟩; exact ⟨t, h1, (mem_loop (Nat.le_refl _)).1 h2⟩
  · rintro ⟨t, h1, h2⟩; exact ⟨t, h1, (mem_loop (Nat.le_refl _)).2 h2⟩

theorem mem_star_one (h : run letter r = one p) :
    s' ∈ run letter (.star lz r) s ↔ ∃ w, Reads p s s' w := by
  rw [mem_star, h, iter_one]

theorem mem_plus_one (h : run letter r = one p) :
    s' ∈ run letter (.plus lz r) s ↔ ∃ w, w ≠ [] ∧ Reads p s s' w := by
  rw [mem_plus, h]
  constructor
  · rintro ⟨t, h1, h2⟩
    obtain ⟨c, m1, c1, p1⟩ := one_reads.1 h1
    obtain ⟨w, m2, c2, p2⟩ := iter_one.1 h2
    refine ⟨[c] ++ w, by simp, m1.trans m2, by rw [c2, c1], ?_⟩
    intro d hd
    rcases List.mem_append.1 hd with h | h
    · exact p1 d h
    · exact p2 d h
  · rintro ⟨w, hw, m, hc, hp⟩
    obtain ⟨c, cs, rfl⟩ := List.exists_cons_of_ne_nil hw
    have h1 : s.rest = c :: (cs ++ s'.rest) := by simpa using m.1
    refine ⟨⟨c :: s.pre, cs ++ s'.rest, s.caps⟩, mem_one.2 ⟨c, _, h1, hp c (by simp), rfl⟩, ?_⟩
    exact iter_one.2 ⟨cs, ⟨rfl, by rw [m.2]; simp⟩, hc, fun d hd => hp d (by simp [hd])⟩

theorem mem_bol : s' ∈ run letter .bol s ↔ s' = s ∧ s.pre = [] := by
  simp only [run]
  split
  · rename_i h
    simp only [List.isEmpty_iff] at h
    simp [h]
  · rename_i h
    simp only [List.isEmpty_iff] at h
    simp [h]

theorem mem_eol : s' ∈ run letter .eol s ↔ s' = s ∧ s.rest = [] := by
  simp only [run]
  split
  · rename_i h
    simp only [List.isEmpty_iff] at h
    simp [h]
  · rename_i h
    simp only [List.isEmpty_iff] at h
    simp [h]

theorem mem_wordB : s' ∈ run letter .wordB s ↔ s' = s ∧ atBoundary s = true := by
  simp only [run]
  split
  · rename_i h; simp [h]
  · rename_i h; simp [h]

theorem mem_cls {k : Cls} : s' ∈ run letter (.cls k) s ↔ ∃ c, Reads (k.has letter) s s' [c] :=
  one_reads

theorem mem_lit' {c : Char} : s' ∈ run letter (.lit c) s ↔ Moves s s' [c] ∧ s'.caps = s.caps := by
  have := mem_lits (letter := letter) (s := s) (s' := s') (w := [c])
  simpa [cats] using this

end

/-- A state moved forward over a text. -/
def St.over (s : St) (w t : Str) : St := ⟨w.reverse ++ s.pre, t, s.caps⟩

theorem moves_over {s : St} {w t : Str} (h : s.rest = w ++ t) : Moves s (s.over w t) w :=
  ⟨h, rfl⟩

end Burl.Regex
