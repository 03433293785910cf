import Verif.Base
/-! `for` loops as relations: a loop may finish, panic or (having no outcome) run forever. -/
namespace Burl

/-- `Loop done body s r`: the loop `for !done(s) { s = body(s) }` started in `s` ends with `r`. -/
inductive Loop {σ : Type} (done : σ → Bool) (body : σ → Res Empty σ) : σ → Res Empty σ → Prop where
  | done {s} : done s = true → Loop done body s (.ok s)
  | step {s s' r} : done s = false → body s = .ok s' → Loop done body s' r → Loop done body s r
  | panic {s} : done s = false → body s = .panic → Loop done body s .panic

theorem Loop.unique {σ : Type} {done : σ → Bool} {body : σ → Res Empty σ} {s : σ}
    {r r' : Res Empty σ} (h : Loop done body s r) (h' : Loop done body s r') : r = r' := by
  induction h with
  | done hd => cases h' with
    | done _ => rfl
    | step h1 _ _ => rw [hd] at h1; simp at h1
    | panic h1 _ => rw [hd] at h1; simp at h1
  | step hd hb _ ih => cases h' with
    | done h1 => rw [hd] at h1; simp at h1
    | step _ h2 h3 => rw [hb] at h2; cases h2; exact ih h3
    | panic _ h2 => rw [hb] at h2; simp at h2
  | panic hd hb => cases h' with
    | done h1 => rw [hd] at h1; simp at h1
    | step _ h2 _ => rw [hb] at h2; simp at h2
    | panic _ _ => rfl

/-- Some iterations of a loop. -/
inductive Steps {σ : Type} (done : σ → Bool) (body : σ → Res Empty σ) : σ → σ → Prop where
  | refl {s} : Steps done body s s
  | cons {s s' s''} : done s = false → body s = .ok s' → Steps done body s' s'' →
      Steps done body s s''

theorem Steps.trans {σ : Type} {done : σ → Bool} {body : σ → Res Empty σ} {s s' s'' : σ}
    (h : Steps done body s s') (h' : Steps done body s' s'') : Steps done body s s'' := by
  induction h with
  | refl => exact h'
  | cons hd hb _ ih => exact .cons hd hb (ih h')

theorem Steps.one {σ : Type} {done : σ → Bool} {body : σ → Res Empty σ} {s s' : σ}
    (hd : done s = false) (hb : body s = .ok s') : Steps done body s s' := .cons hd hb .refl

theorem Steps.loop {σ : Type} {done : σ → Bool} {body : σ → Res Empty σ} {s s' : σ}
    {r : Res Empty σ} (h : Steps done body s s') (h' : Loop done body s' r) :
    Loop done body s r := by
  induction h with
  | refl => exact h'
  | cons hd hb _ ih => exact .step hd hb (ih h')

end Burl
