import Verif.Regex.LoopLemmas
/-! Preference among matches: the reported match is the first in the list of successes. -/
namespace Burl.Regex

theorem findFrom_head {letter : Char → Bool} {r : Re} {rest : Str} :
    ∀ {pre : List Char} {s s' : St}, findFrom letter r pre rest = some (s, s') →
      (run letter r s).head? = some s' := by
  induction rest with
  | nil =>
    intro pre s s' h
    simp only [findFrom] at h
    split at h
    · rename_i x xs hx
      simp only [Option.some.injEq, Prod.mk.injEq] at h
      obtain ⟨rfl, rfl⟩ := h
      rw [hx]; rfl
    · simp at h
  | cons c cs ih =>
    intro pre s s' h
    simp only [findFrom] at h
    split at h
    · rename_i x xs hx
      simp only [Option.some.injEq, Prod.mk.injEq] at h
      obtain ⟨rfl, rfl⟩ := h
      rw [hx]; rfl
    · exact ih h

theorem findAllFrom_head {letter : Char → Bool} {r : Re} : ∀ {n : Nat} {pre : List Char}
    {rest : Str} {pe : Option Nat} {m : Match}, m ∈ findAllFrom letter r n pre rest pe →
      ∃ s s', m = mkMatch s s' ∧ (run letter r s).head? = some s' ∧ s.caps = [] := by
  intro n
  induction n with
  | zero => intro pre rest pe m h; simp [findAllFrom] at h
  | succ n ih =>
    intro pre rest pe m h
    simp only [findAllFrom] at h
    split at h
    · simp at h
    · rename_i s s' hf
      have h1 := findFrom_head hf
      have h2 := (findFrom_spec hf).2.1
      split at h
      · have hout : ∀ x ∈ (if some s.pre.length = pe then [] else [mkMatch s s']),
            x = mkMatch s s' := by
          intro x hx
          split at hx
          · simp at hx
          · simpa using hx
        split at h
        · exact ⟨s, s', hout _ h, h1, h2⟩
        · rcases List.mem_append.1 h with h3 | h3
          · exact ⟨s, s', hout _ h3, h1, h2⟩
          · exact ih h3
      · rcases List.mem_cons.1 h with rfl | h3
        · exact ⟨s, s', rfl, h1, h2⟩
        · exact ih h3

theorem findAll_head {letter : Char → Bool} {r : Re} {text : Str} {m : Match}
    (h : m ∈ findAll letter r text) :
    ∃ s s', m = mkMatch s s' ∧ (run letter r s).head? = some s' ∧ s.caps = [] :=
  findAllFrom_head h

theorem head?_flatMap {α β : Type} {l : List α} {f : α → List β} {x : β}
    (h : (l.flatMap f).head? = some x) : ∃ a ∈ l, (f a).head? = some x := by
  induction l with
  | nil => simp at h
  | cons a as ih =>
    rw [List.flatMap_cons, List.head?_append] at h
    cases hf : (f a).head? with
    | none =>
      rw [hf] at h
      obtain ⟨b, hb, e⟩ := ih h
      exact ⟨b, by simp [hb], e⟩
    | some y =>
      rw [hf] at h
      refine ⟨a, by simp, ?_⟩
      rw [hf]; exact h

theorem head?_flatMap_of_ne {α β : Type} {l : List α} {f : α → List β} {x : β}
    (hf : ∀ a ∈ l, f a ≠ []) (h : (l.flatMap f).head? = some x) :
    ∃ a, l.head? = some a ∧ (f a).head? = some x := by
  cases l with
  | nil => simp at h
  | cons a as =>
    refine ⟨a, rfl, ?_⟩
    rw [List.flatMap_cons, List.head?_append] at h
    cases hfa : f a with
    | nil => exact absurd hfa (hf a (by simp))
    | cons y ys => rw [hfa] at h; exact h

theorem opt_ne {letter : Char → Bool} {lz : Bool} {r : Re} {s : St} :
    run letter (.opt lz r) s ≠ [] := by
  simp only [run]
  split <;> simp

theorem run_cat {letter : Char → Bool} {a b : Re} {s : St} :
    run letter (.cat a b) s = (run letter a s).flatMap (run letter b) := rfl

theorem run_opt {letter : Char → Bool} {r : Re} {s : St} :
    run letter (.opt false r) s = run letter r s ++ [s] := rfl

theorem run_group {letter : Char → Bool} {i : Nat} {r : Re} {s : St} :
    run letter (.group i r) s =
      (run letter r s).map fun s' => { s' with caps := (i, between s s') :: s'.caps } := rfl

theorem run_cls {letter : Char → Bool} {k : Cls} :
    run letter (.cls k) = one (k.has letter) := rfl

end Burl.Regex
