import Verif.Backend.Model
import Verif.Extract.Props
/-! C38 and C39. -/
namespace Burl.Backend

/-! ### C38: the invariant -/

section
variable {γ ε : Type}

/-- The initializer has done nothing yet. -/
def Untouched (s : State γ ε) : Prop :=
  s.started = 0 ∧ s.scans = [] ∧ s.group = none ∧ s.err = none

/-- The initializer has finished. -/
def Concluded (noFiles : Bool) (s : State γ ε) : Prop :=
  (noFiles = true ∧ s.started = 0 ∧ s.scans = [] ∧ s.group = none ∧ s.err = some .noFiles) ∨
  (noFiles = false ∧ s.started = 1 ∧ ∃ g e, s.scans = [(g, e)] ∧ s.group = g ∧
    s.err = (match e with
      | some e => some (.file e)
      | none => if g.isNone then some .noLinks else none))

def answerOf (s : State γ ε) : Answer γ ε :=
  match s.err with
  | some e => .error e
  | none => .tree s.group

/-- What is known when the call `j` is at a given place. -/
def CallOk (noFiles : Bool) (s : State γ ε) (j : Nat) : Pc γ ε → Prop
  | .entry _ _ => True
  | .fast => True
  | .lock => True
  | .check => s.owner = some j ∧ (s.done = false → Untouched s)
  | .init => s.owner = some j ∧ s.done = false ∧ Untouched s
  | .scanning => s.owner = some j ∧ s.done = false ∧ noFiles = false ∧ s.started = 1 ∧
      s.scans = [] ∧ s.group = none ∧ s.err = none
  | .assigned => s.owner = some j ∧ s.done = false ∧ noFiles = false ∧ s.started = 1 ∧
      ∃ g e, s.scans = [(g, e)] ∧ s.group = g ∧ s.err = e.map .file
  | .store => s.owner = some j ∧ s.done = false ∧ Concluded noFiles s
  | .unlock => s.owner = some j ∧ s.done = true
  | .read => s.done = true
  | .answered a => a = .noUrls ∨ (s.done = true ∧ a = answerOf s)

def inOnce : Pc γ ε → Bool
  | .check | .init | .scanning | .assigned | .store | .unlock => true
  | _ => false

structure Inv (noFiles : Bool) (s : State γ ε) : Prop where
  calls : ∀ j p, s.calls[j]? = some p → CallOk noFiles s j p
  finished : s.done = true → Concluded noFiles s
  idle : s.done = false → s.owner = none → Untouched s
  holder : ∀ j, s.owner = some j → ∃ p, s.calls[j]? = some p ∧ inOnce p = true

theorem get_set {α} {l : List α} {i j : Nat} {a b : α} (h : (l.set i a)[j]? = some b) :
    (j = i ∧ b = a) ∨ (j ≠ i ∧ l[j]? = some b) := by
  by_cases e : j = i
  · subst e
    left
    refine ⟨rfl, ?_⟩
    rw [List.getElem?_set] at h
    simp only [if_true] at h
    split at h
    · exact (Option.some.inj h).symm
    · cases h
  · right
    rw [List.getElem?_set_ne (Ne.symm e)] at h
    exact ⟨e, h⟩

/-- A step of the call that does not change anything shared. -/
theorem Inv.quiet {noFiles : Bool} {s : State γ ε} {i : Nat} {p q : Pc γ ε}
    (h : Inv noFiles s) (hi : s.calls[i]? = some p) (hq : CallOk noFiles s i q)
    (hin : inOnce p = true → inOnce q = true) :
    Inv noFiles { s with calls := s.calls.set i q } := by
  have hlt : i < s.calls.length := (List.getElem?_eq_some_iff.mp hi).1
  refine ⟨?_, h.finished, h.idle, ?_⟩
  · intro j r hj
    rcases get_set hj with ⟨rfl, rfl⟩ | ⟨_, hj⟩
    · exact hq
    · exact h.calls j r hj
  · intro j hj
    by_cases e : j = i
    · subst e
      obtain ⟨r, hr, hri⟩ := h.holder j hj
      rw [hi] at hr
      obtain rfl := Option.some.inj hr
      exact ⟨q, List.getElem?_set_self hlt, hin hri⟩
    · obtain ⟨r, hr, hri⟩ := h.holder j hj
      exact ⟨r, by rw [List.getElem?_set_ne (Ne.symm e)]; exact hr, hri⟩

/-- A step of the holder of the mutex while `done` is not set. -/
theorem Inv.holderStep {noFiles : Bool} {s s' : State γ ε} {i : Nat} {p q : Pc γ ε}
    (h : Inv noFiles s) (hi : s.calls[i]? = some p) (hown : s.owner = some i)
    (hdone : s.done = false) (ho : s'.owner = s.owner) (hc : s'.calls = s.calls.set i q)
    (hfin : s'.done = true → Concluded noFiles s') (hqi : inOnce q = true)
    (hq : CallOk noFiles s' i q) : Inv noFiles s' := by
  have hlt : i < s.calls.length := (List.getElem?_eq_some_iff.mp hi).1
  refine ⟨?_, hfin, ?_, ?_⟩
  · intro j r hj
    rw [hc] at hj
    rcases get_set hj with ⟨rfl, rfl⟩ | ⟨hne, hj⟩
    · exact hq
    · have := h.calls j r hj
      have other : s.owner ≠ some j := by
        rw [hown]
        intro e
        exact hne (Option.some.inj e).symm
      cases r with
      | entry m u => trivial
      | fast => trivial
      | lock => trivial
      | check => exact absurd this.1 other
      | init => exact absurd this.1 other
      | scanning => exact absurd this.1 other
      | assigned => exact absurd this.1 other
      | store => exact absurd this.1 other
      | unlock => exact absurd this.1 other
      | read => rw [show s.done = true from this] at hdone; cases hdone
      | answered a =>
        rcases this with h1 | ⟨h1, _⟩
        · exact .inl h1
        · rw [h1] at hdone; cases hdone
  · intro _ hn
    rw [ho, hown] at hn
    cases hn
  · intro j hj
    rw [ho, hown] at hj
    obtain rfl := Option.some.inj hj
    exact ⟨q, by rw [hc]; exact List.getElem?_set_self hlt, hqi⟩

theorem Inv.step {noFiles : Bool} {s s' : State γ ε} (h : Inv noFiles s)
    (hs : Step noFiles s s') : Inv noFiles s' := by
  cases hs with
  | call m u =>
    refine ⟨?_, h.finished, h.idle, ?_⟩
    · intro j p hj
      change (s.calls ++ [.entry m u])[j]? = some p at hj
      rw [List.getElem?_append] at hj
      split at hj
      · exact h.calls j p hj
      · rw [List.getElem?_singleton] at hj
        split at hj
        · rw [← Option.some.inj hj]
          trivial
        · cases hj
    · intro j hj
      obtain ⟨p, hp, hin⟩ := h.holder j hj
      refine ⟨p, ?_, hin⟩
      show (s.calls ++ [.entry m u])[j]? = some p
      rw [List.getElem?_append_left (List.getElem?_eq_some_iff.mp hp).1]
      exact hp
  | @refuse i hi => exact h.quiet hi (.inl rfl) (by simp [inOnce])
  | @enter i m u hi _ => exact h.quiet hi trivial (by simp [inOnce])
  | @fastDone i hi hd => exact h.quiet hi hd (by simp [inOnce])
  | @slow i hi hd => exact h.quiet hi trivial (by simp [inOnce])
  | @lock i hi hn =>
    have hlt : i < s.calls.length := (List.getElem?_eq_some_iff.mp hi).1
    refine ⟨?_, h.finished, (by intro _ hx; cases hx), ?_⟩
    · intro j r hj
      rcases get_set hj with ⟨rfl, rfl⟩ | ⟨hne, hj⟩
      · exact ⟨rfl, fun hd => h.idle hd hn⟩
      · have := h.calls j r hj
        have other : s.owner ≠ some j := by rw [hn]; intro e; cases e
        cases r with
        | entry m u => trivial
        | fast => trivial
        | lock => trivial
        | check => exact absurd this.1 other
        | init => exact absurd this.1 other
        | scanning => exact absurd this.1 other
        | assigned => exact absurd this.1 other
        | store => exact absurd this.1 other
        | unlock => exact absurd this.1 other
        | read => exact this
        | answered a => exact this
    · intro j hj
      obtain rfl := Option.some.inj (show some i = some j from hj)
      exact ⟨.check, List.getElem?_set_self hlt, rfl⟩
  | @checkDone i hi hd =>
    have := h.calls i _ hi
    exact h.quiet hi ⟨this.1, hd⟩ (by simp [inOnce])
  | @checkNot i hi hd =>
    have := h.calls i _ hi
    exact h.quiet hi ⟨this.1, hd, this.2 hd⟩ (by simp [inOnce])
  | @noFiles i hi hn =>
    obtain ⟨ho, hd, h1, h2, h3, h4⟩ := h.calls i _ hi
    refine h.holderStep hi ho hd rfl rfl (fun hx => ?_) rfl
      ⟨ho, hd, .inl ⟨hn, h1, h2, h3, rfl⟩⟩
    change s.done = true at hx
    rw [hd] at hx
    cases hx
  | @scan i hi hn =>
    obtain ⟨ho, hd, h1, h2, h3, h4⟩ := h.calls i _ hi
    refine h.holderStep hi ho hd rfl rfl (fun hx => ?_) rfl
      ⟨ho, hd, hn, by show s.started + 1 = 1; rw [h1], h2, h3, h4⟩
    change s.done = true at hx
    rw [hd] at hx
    cases hx
  | @assign i g e hi =>
    obtain ⟨ho, hd, hn, h1, h2, h3, h4⟩ := h.calls i _ hi
    refine h.holderStep hi ho hd rfl rfl (fun hx => ?_) rfl
      ⟨ho, hd, hn, h1, g, e, by show s.scans ++ [(g, e)] = _; rw [h2]; rfl, rfl, rfl⟩
    change s.done = true at hx
    rw [hd] at hx
    cases hx
  | @conclude i hi =>
    obtain ⟨ho, hd, hn, h1, g, e, h2, h3, h4⟩ := h.calls i _ hi
    refine h.holderStep hi ho hd rfl rfl (fun hx => ?_) rfl
      ⟨ho, hd, .inr ⟨hn, h1, g, e, h2, h3, ?_⟩⟩
    · change s.done = true at hx
      rw [hd] at hx
      cases hx
    · show (if s.err.isNone && s.group.isNone then some .noLinks else s.err) = _
      rw [h4, h3]
      cases e with
      | some e => rfl
      | none => rfl
  | @store i hi =>
    obtain ⟨ho, hd, hf⟩ := h.calls i _ hi
    exact h.holderStep hi ho hd rfl rfl (fun _ => hf) rfl ⟨ho, rfl⟩
  | @unlock i hi =>
    obtain ⟨ho, hd⟩ := h.calls i _ hi
    refine ⟨?_, h.finished, fun hx => ?_, (by intro j hj; cases hj)⟩
    · intro j r hj
      rcases get_set hj with ⟨rfl, rfl⟩ | ⟨hne, hj⟩
      · exact hd
      · have := h.calls j r hj
        have other : s.owner ≠ some j := by
          rw [ho]
          intro e
          exact hne (Option.some.inj e).symm
        cases r with
        | entry m u => trivial
        | fast => trivial
        | lock => trivial
        | check => exact absurd this.1 other
        | init => exact absurd this.1 other
        | scanning => exact absurd this.1 other
        | assigned => exact absurd this.1 other
        | store => exact absurd this.1 other
        | unlock => exact absurd this.1 other
        | read => exact this
        | answered a => exact this
    · change s.done = false at hx
      rw [hd] at hx
      cases hx
  | @answer i hi =>
    have hd : s.done = true := h.calls i _ hi
    exact h.quiet hi (.inr ⟨hd, rfl⟩) (by simp [inOnce])

theorem inv_of_steps {noFiles : Bool} {s : State γ ε} (h : Steps noFiles fresh s) :
    Inv noFiles s := by
  generalize hf : (fresh : State γ ε) = s0 at h
  induction h with
  | refl =>
    subst hf
    refine ⟨?_, ?_, fun _ _ => ⟨rfl, rfl, rfl, rfl⟩, ?_⟩
    · intro j p hj; simp [fresh] at hj
    · intro hx; cases hx
    · intro j hj; cases hj
  | step _ hs ih => exact ih.step hs

theorem answered_spec {noFiles : Bool} {s : State γ ε} (h : Steps noFiles fresh s) {i : Nat}
    {a : Answer γ ε} (ha : s.calls[i]? = some (.answered a)) (hn : a ≠ .noUrls) :
    s.done = true ∧ a = answerOf s := by
  rcases (inv_of_steps h).calls i _ ha with h1 | h1
  · exact absurd h1 hn
  · exact h1

/-! ### C38: theorems -/

/-- Under every schedule the files are scanned at most once. -/
theorem c38_once (noFiles : Bool) (s : State γ ε) (h : Steps noFiles fresh s) :
    s.started ≤ 1 ∧ s.scans.length ≤ 1 := by
  have inv := inv_of_steps h
  have conc : Concluded noFiles s → s.started ≤ 1 ∧ s.scans.length ≤ 1 := by
    rintro (⟨_, h1, h2, _⟩ | ⟨_, h1, g, e, h2, _⟩)
    · rw [h1, h2]; simp
    · rw [h1, h2]; simp
  have unt : Untouched s → s.started ≤ 1 ∧ s.scans.length ≤ 1 := by
    rintro ⟨h1, h2, _⟩
    rw [h1, h2]; simp
  cases hd : s.done with
  | true => exact conc (inv.finished hd)
  | false =>
    cases ho : s.owner with
    | none => exact unt (inv.idle hd ho)
    | some j =>
      obtain ⟨p, hp, hin⟩ := inv.holder j ho
      have := inv.calls j p hp
      cases p with
      | entry m u => cases hin
      | fast => cases hin
      | lock => cases hin
      | check => exact unt (this.2 hd)
      | init => exact unt this.2.2
      | scanning =>
        obtain ⟨_, _, _, h1, h2, _⟩ := this
        rw [h1, h2]; simp
      | assigned =>
        obtain ⟨_, _, _, h1, g, e, h2, _⟩ := this
        rw [h1, h2]; simp
      | store => exact conc this.2.2
      | unlock => rw [this.2] at hd; cases hd
      | read => cases hin
      | answered a => cases hin

/-- When a call has been answered from the index, the scan is over: it has a result unless there are
no files, and no call is scanning or going to scan. -/
theorem c38_complete (noFiles : Bool) (s : State γ ε) (h : Steps noFiles fresh s) (i : Nat)
    (a : Answer γ ε) (ha : s.calls[i]? = some (.answered a)) (hn : a ≠ .noUrls) :
    (noFiles = false → s.started = 1 ∧ s.scans.length = 1) ∧
    ∀ (j : Nat) (p : Pc γ ε), s.calls[j]? = some p → p ≠ .init ∧ p ≠ .scanning ∧ p ≠ .assigned := by
  obtain ⟨hd, _⟩ := answered_spec h ha hn
  have inv := inv_of_steps h
  refine ⟨fun hf => ?_, fun j p hp => ?_⟩
  · rcases inv.finished hd with ⟨h1, _⟩ | ⟨_, h1, g, e, h2, _⟩
    · rw [hf] at h1; cases h1
    · rw [h1, h2]
      exact ⟨rfl, rfl⟩
  · have := inv.calls j p hp
    refine ⟨?_, ?_, ?_⟩
    · rintro rfl; rw [this.2.1] at hd; cases hd
    · rintro rfl; rw [this.2.1] at hd; cases hd
    · rintro rfl; rw [this.2.1] at hd; cases hd

/-- The answer is determined by the only scan: its error, or its tree which is not nil, or the
message that there are no links or no files. -/
theorem c38_result (noFiles : Bool) (s : State γ ε) (h : Steps noFiles fresh s) (i : Nat)
    (a : Answer γ ε) (ha : s.calls[i]? = some (.answered a)) (hn : a ≠ .noUrls) :
    (noFiles = true ∧ a = .error .noFiles) ∨
    (noFiles = false ∧ ((∃ g e, s.scans = [(g, some e)] ∧ a = .error (.file e)) ∨
      (s.scans = [(none, none)] ∧ a = .error .noLinks) ∨
      (∃ g, s.scans = [(some g, none)] ∧ a = .tree (some g)))) := by
  obtain ⟨hd, ha'⟩ := answered_spec h ha hn
  rw [ha']
  unfold answerOf
  rcases (inv_of_steps h).finished hd with ⟨h1, _, _, _, h2⟩ | ⟨hf, _, g, e, h2, h3, h4⟩
  · left
    rw [h2]
    exact ⟨h1, rfl⟩
  · right
    refine ⟨hf, ?_⟩
    rw [h4, h3]
    cases e with
    | some e => exact .inl ⟨g, e, h2, rfl⟩
    | none =>
      cases g with
      | none => exact .inr (.inl ⟨h2, rfl⟩)
      | some g => exact .inr (.inr ⟨g, h2, rfl⟩)

/-- All calls see the same. -/
theorem c38_same (noFiles : Bool) (s : State γ ε) (h : Steps noFiles fresh s) (i j : Nat)
    (a b : Answer γ ε) (ha : s.calls[i]? = some (.answered a))
    (hb : s.calls[j]? = some (.answered b)) (hna : a ≠ .noUrls) (hnb : b ≠ .noUrls) : a = b := by
  rw [(answered_spec h ha hna).2, (answered_spec h hb hnb).2]

/-- An answer does not change later, so `c38_same` applies to answers given at different times. -/
theorem c38_stable (noFiles : Bool) (s s' : State γ ε) (h : Steps noFiles s s') (i : Nat)
    (a : Answer γ ε) (ha : s.calls[i]? = some (.answered a)) :
    s'.calls[i]? = some (.answered a) := by
  induction h with
  | refl => exact ha
  | step _ hs ih =>
    have other : ∀ {l : List (Pc γ ε)} {j : Nat} {p q : Pc γ ε}, l[i]? = some (.answered a) →
        l[j]? = some p → (∀ a, p ≠ .answered a) → (l.set j q)[i]? = some (.answered a) := by
      intro l j p q h1 h2 h3
      have e : j ≠ i := by
        rintro rfl
        rw [h1] at h2
        exact h3 a (Option.some.inj h2).symm
      rw [List.getElem?_set_ne e]
      exact h1
    cases hs with
    | call m u =>
      show (_ ++ [_])[i]? = _
      rw [List.getElem?_append_left (List.getElem?_eq_some_iff.mp ih).1]
      exact ih
    | refuse hi => exact other ih hi (by intros; simp)
    | enter hi _ => exact other ih hi (by intros; simp)
    | fastDone hi _ => exact other ih hi (by intros; simp)
    | slow hi _ => exact other ih hi (by intros; simp)
    | lock hi _ => exact other ih hi (by intros; simp)
    | checkDone hi _ => exact other ih hi (by intros; simp)
    | checkNot hi _ => exact other ih hi (by intros; simp)
    | noFiles hi _ => exact other ih hi (by intros; simp)
    | scan hi _ => exact other ih hi (by intros; simp)
    | assign g e hi => exact other ih hi (by intros; simp)
    | conclude hi => exact other ih hi (by intros; simp)
    | store hi => exact other ih hi (by intros; simp)
    | unlock hi => exact other ih hi (by intros; simp)
    | answer hi => exact other ih hi (by intros; simp)

/-- Only a query of mentions without URLs is answered without the index. -/
theorem c38_refused (noFiles : Bool) (s : State γ ε) (i : Nat)
    (p : Pc γ ε) (ha : s.calls[i]? = some p) (m u : Bool) (s' : State γ ε)
    (hp : p = .entry m u) (hmu : m = true → u = true) (h' : Steps noFiles s s') :
    s'.calls[i]? ≠ some (.answered .noUrls) := by
  subst hp
  have main : ∃ q, s'.calls[i]? = some q ∧ q ≠ .answered .noUrls ∧
      (∀ m u, q = .entry m u → (m = true → u = true)) := by
    induction h' with
    | refl =>
      refine ⟨_, ha, by simp, ?_⟩
      intro m' u' e
      cases e
      exact hmu
    | step _ hs ih =>
      obtain ⟨q, hq, h1, h2⟩ := ih
      have other : ∀ {l : List (Pc γ ε)} {j : Nat} {q'' q' : Pc γ ε}, l[i]? = some q →
          l[j]? = some q'' → (q'' ≠ .entry true false → q' ≠ .answered .noUrls) →
          (∀ m u, q' ≠ .entry m u) →
          ∃ x, (l.set j q')[i]? = some x ∧ x ≠ .answered .noUrls ∧
            (∀ m u, x = .entry m u → (m = true → u = true)) := by
        intro l j q'' q' g1 g2 g3 g4
        by_cases e : j = i
        · subst e
          rw [g1] at g2
          obtain rfl := Option.some.inj g2
          refine ⟨q', List.getElem?_set_self (List.getElem?_eq_some_iff.mp g1).1, g3 ?_, ?_⟩
          · intro hx
            have := h2 true false hx rfl
            cases this
          · intro m' u' hx
            exact absurd hx (g4 m' u')
        · refine ⟨q, by rw [List.getElem?_set_ne e]; exact g1, h1, h2⟩
      cases hs with
      | call m' u' =>
        refine ⟨q, ?_, h1, h2⟩
        show (_ ++ [_])[i]? = _
        rw [List.getElem?_append_left (List.getElem?_eq_some_iff.mp hq).1]
        exact hq
      | refuse hi => exact other hq hi (by intro hx; exact absurd rfl hx) (by intros; simp)
      | enter hi _ => exact other hq hi (by intro _; simp) (by intros; simp)
      | fastDone hi _ => exact other hq hi (by intro _; simp) (by intros; simp)
      | slow hi _ => exact other hq hi (by intro _; simp) (by intros; simp)
      | lock hi _ => exact other hq hi (by intro _; simp) (by intros; simp)
      | checkDone hi _ => exact other hq hi (by intro _; simp) (by intros; simp)
      | checkNot hi _ => exact other hq hi (by intro _; simp) (by intros; simp)
      | noFiles hi _ => exact other hq hi (by intro _; simp) (by intros; simp)
      | scan hi _ => exact other hq hi (by intro _; simp) (by intros; simp)
      | assign g e hi => exact other hq hi (by intro _; simp) (by intros; simp)
      | conclude hi => exact other hq hi (by intro _; simp) (by intros; simp)
      | store hi => exact other hq hi (by intro _; simp) (by intros; simp)
      | unlock hi => exact other hq hi (by intro _; simp) (by intros; simp)
      | answer hi =>
        refine other hq hi (fun _ => ?_) (by intros; simp)
        intro hx
        injection hx with hx
        split at hx <;> cases hx
  obtain ⟨q, hq, h1, _⟩ := main
  rw [hq]
  intro hx
  exact h1 (Option.some.inj hx)

/-- No deadlock: unless all calls are answered, some call can make a step. -/
theorem c38_no_deadlock (noFiles : Bool) (s : State γ ε) (h : Steps noFiles fresh s) (i : Nat)
    (p : Pc γ ε) (hp : s.calls[i]? = some p) (hna : ∀ a, p ≠ .answered a) :
    ∃ s', Step noFiles s s' ∧ s'.calls.length = s.calls.length := by
  have inv := inv_of_steps h
  -- a call that holds the mutex can always go on
  have go : ∀ (j : Nat) (q : Pc γ ε), s.calls[j]? = some q → inOnce q = true →
      ∃ s', Step noFiles s s' ∧ s'.calls.length = s.calls.length := by
    intro j q hq hin
    cases q with
    | entry m u => cases hin
    | fast => cases hin
    | lock => cases hin
    | check =>
      cases hd : s.done with
      | true => exact ⟨_, .checkDone hq hd, by simp⟩
      | false => exact ⟨_, .checkNot hq hd, by simp⟩
    | init =>
      cases hn : noFiles with
      | true => exact ⟨_, .noFiles hq rfl, by simp⟩
      | false => exact ⟨_, .scan hq rfl, by simp⟩
    | scanning => exact ⟨_, .assign none none hq, by simp⟩
    | assigned => exact ⟨_, .conclude hq, by simp⟩
    | store => exact ⟨_, .store hq, by simp⟩
    | unlock => exact ⟨_, .unlock hq, by simp⟩
    | read => cases hin
    | answered a => cases hin
  cases p with
  | entry m u =>
    by_cases hmu : m = true ∧ u = false
    · obtain ⟨rfl, rfl⟩ := hmu
      exact ⟨_, .refuse hp, by simp⟩
    · exact ⟨_, .enter hp hmu, by simp⟩
  | fast =>
    cases hd : s.done with
    | true => exact ⟨_, .fastDone hp hd, by simp⟩
    | false => exact ⟨_, .slow hp hd, by simp⟩
  | lock =>
    cases ho : s.owner with
    | none => exact ⟨_, .lock hp ho, by simp⟩
    | some j =>
      obtain ⟨q, hq, hin⟩ := inv.holder j ho
      exact go j q hq hin
  | check => exact go i _ hp rfl
  | init => exact go i _ hp rfl
  | scanning => exact go i _ hp rfl
  | assigned => exact go i _ hp rfl
  | store => exact go i _ hp rfl
  | unlock => exact go i _ hp rfl
  | read => exact ⟨_, .answer hp, by simp⟩
  | answered a => exact absurd rfl (hna a)

end

/-- Two calls: the first one scans, the second one waits for it; both see the tree. -/
example : ∃ s : State Nat Empty, Steps false fresh s ∧
    s.calls = [.answered (.tree (some 7)), .answered (.tree (some 7))] ∧ s.started = 1 := by
  have h0 : Steps false (fresh : State Nat Empty) fresh := .refl
  have h1 : Steps false fresh (⟨false, none, none, none,
      [.entry true true], 0, []⟩ : State Nat Empty) := h0.step (.call true true)
  have h2 : Steps false fresh (⟨false, none, none, none,
      [.entry true true, .entry false false], 0, []⟩ : State Nat Empty) := h1.step (.call false false)
  have h3 : Steps false fresh (⟨false, none, none, none,
      [.fast, .entry false false], 0, []⟩ : State Nat Empty) := h2.step (.enter (i := 0) rfl (by decide))
  have h4 : Steps false fresh (⟨false, none, none, none,
      [.fast, .fast], 0, []⟩ : State Nat Empty) := h3.step (.enter (i := 1) rfl (by decide))
  have h5 : Steps false fresh (⟨false, none, none, none,
      [.lock, .fast], 0, []⟩ : State Nat Empty) := h4.step (.slow (i := 0) rfl rfl)
  have h6 : Steps false fresh (⟨false, none, none, none,
      [.lock, .lock], 0, []⟩ : State Nat Empty) := h5.step (.slow (i := 1) rfl rfl)
  have h7 : Steps false fresh (⟨false, some 0, none, none,
      [.check, .lock], 0, []⟩ : State Nat Empty) := h6.step (.lock (i := 0) rfl rfl)
  have h8 : Steps false fresh (⟨false, some 0, none, none,
      [.init, .lock], 0, []⟩ : State Nat Empty) := h7.step (.checkNot (i := 0) rfl rfl)
  have h9 : Steps false fresh (⟨false, some 0, none, none,
      [.scanning, .lock], 1, []⟩ : State Nat Empty) := h8.step (.scan (i := 0) rfl rfl)
  have h10 : Steps false fresh (⟨false, some 0, some 7, none,
      [.assigned, .lock], 1, [(some 7, none)]⟩ : State Nat Empty) := h9.step (.assign (i := 0) (some 7) none rfl)
  have h11 : Steps false fresh (⟨false, some 0, some 7, none,
      [.store, .lock], 1, [(some 7, none)]⟩ : State Nat Empty) := h10.step (.conclude (i := 0) rfl)
  have h12 : Steps false fresh (⟨true, some 0, some 7, none,
      [.unlock, .lock], 1, [(some 7, none)]⟩ : State Nat Empty) := h11.step (.store (i := 0) rfl)
  have h13 : Steps false fresh (⟨true, none, some 7, none,
      [.read, .lock], 1, [(some 7, none)]⟩ : State Nat Empty) := h12.step (.unlock (i := 0) rfl)
  have h14 : Steps false fresh (⟨true, some 1, some 7, none,
      [.read, .check], 1, [(some 7, none)]⟩ : State Nat Empty) := h13.step (.lock (i := 1) rfl rfl)
  have h15 : Steps false fresh (⟨true, some 1, some 7, none,
      [.read, .unlock], 1, [(some 7, none)]⟩ : State Nat Empty) := h14.step (.checkDone (i := 1) rfl rfl)
  have h16 : Steps false fresh (⟨true, none, some 7, none,
      [.read, .read], 1, [(some 7, none)]⟩ : State Nat Empty) := h15.step (.unlock (i := 1) rfl)
  have h17 : Steps false fresh (⟨true, none, some 7, none,
      [.answered (.tree (some 7)), .read], 1, [(some 7, none)]⟩ : State Nat Empty) := h16.step (.answer (i := 0) rfl)
  have h18 : Steps false fresh (⟨true, none, some 7, none,
      [.answered (.tree (some 7)), .answered (.tree (some 7))], 1, [(some 7, none)]⟩ : State Nat Empty) := h17.step (.answer (i := 1) rfl)
  exact ⟨_, h18, rfl, rfl⟩

/-! ### C39 -/

/-- `f` is the first offered format of the protocol. -/
def FirstOffered (formats : List HelloFormat) (f : HelloFormat) : Prop :=
  ∃ before after, formats = before ++ f :: after ∧ f.format = "org-protocol".toList ∧
    ∀ g ∈ before, g.format ≠ "org-protocol".toList

theorem helloVersion_of_first {formats : List HelloFormat} {f : HelloFormat}
    (h : FirstOffered formats f) : helloVersion "org-protocol".toList formats = f.version := by
  obtain ⟨before, after, rfl, hf, hb⟩ := h
  induction before with
  | nil =>
    show helloVersion _ (f :: after) = _
    rw [helloVersion, if_neg (fun h => h hf)]
  | cons g gs ih =>
    show helloVersion _ (g :: (gs ++ f :: after)) = _
    rw [helloVersion, if_pos (hb g List.mem_cons_self)]
    exact ih fun x hx => hb x (List.mem_cons_of_mem _ hx)

theorem first_of_helloVersion {formats : List HelloFormat}
    (h : helloVersion "org-protocol".toList formats ≠ []) : ∃ f, FirstOffered formats f := by
  induction formats with
  | nil => exact absurd rfl h
  | cons g gs ih =>
    rw [helloVersion] at h
    split at h
    · rename_i hg
      obtain ⟨f, before, after, e, hf, hb⟩ := ih h
      refine ⟨f, g :: before, after, by rw [e]; rfl, hf, ?_⟩
      intro x hx
      rcases List.mem_cons.mp hx with rfl | hx
      · exact hg
      · exact hb x hx
    · rename_i hg
      exact ⟨g, [], gs, rfl, Decidable.not_not.mp hg, by simp⟩

/-- `hello` succeeds exactly if the first format of the protocol has a version. -/
theorem c39_succeeds (b : Backend) (formats : List HelloFormat) :
    (∃ r, hello b formats = .ok r) ↔ ∃ f, FirstOffered formats f ∧ f.version ≠ [] := by
  unfold hello
  constructor
  · rintro ⟨r, hr⟩
    by_cases hv : helloVersion "org-protocol".toList formats = []
    · rw [if_pos hv] at hr
      cases hr
    · obtain ⟨f, hf⟩ := first_of_helloVersion hv
      exact ⟨f, hf, by rw [← helloVersion_of_first hf]; exact hv⟩
  · rintro ⟨f, hf, hv⟩
    rw [← helloVersion_of_first hf] at hv
    exact ⟨_, if_neg hv⟩

/-- Otherwise it is refused by an error. -/
theorem c39_refused (b : Backend) (formats : List HelloFormat)
    (h : ¬ ∃ f, FirstOffered formats f ∧ f.version ≠ []) :
    ∃ e, hello b formats = .err e := by
  unfold hello
  by_cases hv : helloVersion "org-protocol".toList formats = []
  · exact ⟨_, if_pos hv⟩
  · obtain ⟨f, hf⟩ := first_of_helloVersion hv
    exact absurd ⟨f, hf, by rw [← helloVersion_of_first hf]; exact hv⟩ h

/-- The reply echoes the version, and what it advertises is what is configured. -/
theorem c39_reply (sources : List Extract.Source) (disableLinkSet : Bool)
    (formats : List HelloFormat) (r : HelloResponse)
    (h : hello (newBackend sources disableLinkSet) formats = .ok r) :
    r.format = "org-protocol".toList ∧ r.clipboardForBody = false ∧
    (∃ f, FirstOffered formats f ∧ r.version = f.version) ∧
    ("visit".toList ∈ r.capabilities ↔ sources ≠ []) ∧
    ("urlMentions".toList ∈ r.capabilities ↔ sources ≠ []) ∧
    ("linkSet".toList ∈ r.capabilities ↔ sources ≠ [] ∧ disableLinkSet = false) ∧
    (∀ c ∈ r.capabilities, c ∈ ["visit".toList, "urlMentions".toList, "linkSet".toList]) ∧
    r.capabilities.Nodup := by
  unfold hello at h
  by_cases hv : helloVersion "org-protocol".toList formats = []
  · rw [if_pos hv] at h
    cases h
  · rw [if_neg hv] at h
    obtain ⟨f, hf⟩ := first_of_helloVersion hv
    obtain rfl := Res.ok.inj h
    refine ⟨rfl, rfl, ⟨f, hf, helloVersion_of_first hf⟩, ?_⟩
    show ("visit".toList ∈ capabilities _ ↔ _) ∧ ("urlMentions".toList ∈ capabilities _ ↔ _) ∧
      ("linkSet".toList ∈ capabilities _ ↔ _) ∧ (∀ c ∈ capabilities _, _) ∧ (capabilities _).Nodup
    cases sources with
    | nil =>
      have e : capabilities (newBackend [] disableLinkSet) = [] := rfl
      rw [e]
      exact ⟨⟨nofun, fun h => absurd rfl h⟩, ⟨nofun, fun h => absurd rfl h⟩,
        ⟨nofun, fun h => absurd rfl h.1⟩, nofun, .nil⟩
    | cons x xs =>
      cases disableLinkSet
      · have e : capabilities (newBackend (x :: xs) false) =
            ["visit".toList, "urlMentions".toList, "linkSet".toList] := rfl
        rw [e]
        exact ⟨⟨fun _ => nofun, fun _ => by decide⟩, ⟨fun _ => nofun, fun _ => by decide⟩,
          ⟨fun _ => ⟨nofun, rfl⟩, fun _ => by decide⟩, fun c hc => hc, by decide⟩
      · have e : capabilities (newBackend (x :: xs) true) =
            ["visit".toList, "urlMentions".toList] := rfl
        rw [e]
        exact ⟨⟨fun _ => nofun, fun _ => by decide⟩, ⟨fun _ => nofun, fun _ => by decide⟩,
          ⟨fun hm => absurd hm (by decide), fun hm => nomatch hm.2⟩,
          fun c hc => List.mem_of_mem_take (i := 2) hc, by decide⟩

theorem makeLinkSetBase_err (letter : Char → Bool) (filters : List Str) :
    Links.makeLinkSetBase letter filters ≠ .error .disabled := by
  unfold Links.makeLinkSetBase
  split
  · nofun
  · split <;> nofun

theorem extractSet_err (letter : Char → Bool) (k : Extract.Kind) (filters lines : List Str)
    (err : Option Extract.FileErr) (result x : List Str) :
    Links.extractSet letter k filters lines err result ≠ .ok (x, some .disabled) := by
  unfold Links.extractSet
  split
  · rename_i e he
    intro h
    cases h
    exact makeLinkSetBase_err letter filters he
  · split
    · nofun
    · split
      · nofun
      · cases Links.setLines letter _ _ lines result with
        | ok r =>
          intro h
          cases err with
          | none => cases h
          | some e => cases h
        | err e => exact e.elim
        | panic => nofun

theorem setGroup_err (letter : Char → Bool) (files : Extract.Files) (filters : List Str)
    (sources : List Extract.Source) : ∀ (result x y : List Str),
    Links.setGroup letter files filters sources result ≠ .ok (x, some .disabled, y) := by
  induction sources with
  | nil => intro result x y; nofun
  | cons src rest ih =>
    intro result x y
    unfold Links.setGroup
    split
    · nofun
    · rename_i lines err _
      cases he : Links.extractSet letter src.kind filters lines err result with
      | ok r =>
        obtain ⟨r1, r2⟩ := r
        cases r2 with
        | some e =>
          intro h
          cases h
          exact extractSet_err _ _ _ _ _ _ _ he
        | none =>
          rw [Res.bind_ok]
          simp only
          cases hg : Links.setGroup letter files filters rest r1 with
          | ok q =>
            obtain ⟨q1, q2, q3⟩ := q
            intro h
            rw [Res.bind_ok] at h
            cases h
            exact ih _ _ _ hg
          | err e => exact e.elim
          | panic => nofun
      | err e => exact e.elim
      | panic => nofun

/-- If `hello` advertises linkSet then `linkSet` is never refused as disabled. -/
theorem c39_linkSet (letter : Char → Bool) (files : Extract.Files)
    (sources : List Extract.Source) (disableLinkSet : Bool) (formats : List HelloFormat)
    (r : HelloResponse) (h : hello (newBackend sources disableLinkSet) formats = .ok r)
    (hl : "linkSet".toList ∈ r.capabilities) (prefixes : List Str)
    (res : Res Links.SetErr (List Str)) (opened : List Str)
    (hr : Links.LinkSet letter (newBackend sources disableLinkSet).linkSetImpl files
      (newBackend sources disableLinkSet).srcFiles prefixes res opened) :
    res ≠ .err .disabled := by
  have hd := ((c39_reply sources disableLinkSet formats r h).2.2.2.2.2.1.mp hl).2
  subst hd
  cases hr with
  | disabled he => cases he
  | tooMany _ _ => nofun
  | err _ _ hg =>
    intro he
    injection he with he
    subst he
    exact setGroup_err _ _ _ _ _ _ _ hg
  | ok _ _ _ _ => nofun
  | panic _ _ _ => nofun

/-- If linkSet is disabled then it is not advertised and every query is refused. -/
theorem c39_disabled (letter : Char → Bool) (files : Extract.Files)
    (sources : List Extract.Source) (prefixes : List Str)
    (res : Res Links.SetErr (List Str)) (opened : List Str)
    (hr : Links.LinkSet letter (newBackend sources true).linkSetImpl files
      (newBackend sources true).srcFiles prefixes res opened) :
    res = .err .disabled ∧ opened = [] := by
  cases hr with
  | disabled _ => exact ⟨rfl, rfl⟩
  | tooMany he _ => cases he
  | err he _ _ => cases he
  | ok he _ _ _ => cases he
  | panic he _ _ => cases he

/-- A new extension and a backend with an Org file. -/
example : hello (newBackend [⟨.org, "a.org".toList⟩] false)
    [⟨"object".toList, "0.1".toList⟩, ⟨"org-protocol".toList, "0.2".toList⟩,
     ⟨"org-protocol".toList, "0.3".toList⟩] =
    .ok ⟨"org-protocol".toList, "0.2".toList,
      ["visit".toList, "urlMentions".toList, "linkSet".toList], false⟩ := by decide +kernel

example : hello (newBackend [] false) [⟨"org-protocol".toList, []⟩] = .err .tooOld := by
  decide +kernel

end Burl.Backend
