import Verif.File.Spec
/-! The invariant of `WriteFile`. -/
namespace Burl.File
open Burl

theorem FS.set_same (fs : FS) (p : Str) (e : Option Entry) : fs.set p e p = e := by
  simp [FS.set]

theorem FS.set_other (fs : FS) {p r : Str} (e : Option Entry) (h : r ≠ p) :
    fs.set p e r = fs r := by
  simp [FS.set, h]

theorem FS.set_set (fs : FS) (p : Str) (e e' : Option Entry) :
    (fs.set p e).set p e' = fs.set p e' := by
  funext r
  by_cases h : r = p <;> simp [FS.set, h]

theorem FS.set_self (fs : FS) (p : Str) : fs.set p (fs p) = fs := by
  funext r
  by_cases h : r = p <;> simp [FS.set, h]

theorem FS.set_comm (fs : FS) {p r : Str} (e e' : Option Entry) (h : p ≠ r) :
    (fs.set p e).set r e' = (fs.set r e').set p e := by
  funext x
  by_cases h1 : x = p
  · have h2 : x ≠ r := fun hh => h (h1.symm.trans hh)
    simp [FS.set, h1, h]
  · simp [FS.set, h1]

/-- The write goes on: a new file is created or an old one is replaced as allowed. -/
def MayReplace (q : Req) (fs : FS) : Prop :=
  fs q.path = none ∨
    (q.force = true ∧ ∃ f, fs q.path = some (.reg f) ∧ f.content.take (bufLen q.content) ≠ q.content)

/-- The file found is taken for one with the requested content. -/
def Accepted (q : Req) (fs : FS) (f : Reg) : Prop :=
  fs q.path = some (.reg f) ∧ f.content ≠ [] ∧ f.content.take (bufLen q.content) = q.content ∧
    (q.force = false → f.content.length < bufLen q.content)

def needsChmod (mode perm : Perm) : Bool := mode &&& 0o500#9 != 0 && perm &&& 0o500#9 == 0

/-- What is known at every place of the code. -/
def Inv (q : Req) (fs : FS) (s : St) : Prop :=
  match s.pc with
  | .start => s.fs = fs ∧ s.out = []
  | .openOld st => q.path ≠ dash ∧ s.fs = fs ∧ s.out = [] ∧
      ∀ p, st = some p → ∃ e, fs q.path = some e ∧ e.perm = p
  | .readOld st => q.path ≠ dash ∧ s.fs = fs ∧ s.out = [] ∧
      ∀ p, st = some p → ∃ e, fs q.path = some e ∧ e.perm = p
  | .chmodOld perm => q.path ≠ dash ∧ s.fs = fs ∧ s.out = [] ∧
      ∃ f, Accepted q fs f ∧ f.perm = perm ∧ needsChmod q.mode perm = true
  | .temp => q.path ≠ dash ∧ s.fs = fs ∧ s.out = [] ∧ MayReplace q fs
  | .chmodTemp t => q.path ≠ dash ∧ t ≠ q.path ∧ fs t = none ∧ s.out = [] ∧ MayReplace q fs ∧
      s.fs = fs.set t (some (.reg ⟨[], 0o600#9⟩))
  | .writeTemp t k => q.path ≠ dash ∧ t ≠ q.path ∧ fs t = none ∧ s.out = [] ∧ MayReplace q fs ∧
      s.fs = fs.set t (some (.reg ⟨q.content.take k, q.mode⟩))
  | .rename t => q.path ≠ dash ∧ t ≠ q.path ∧ fs t = none ∧ s.out = [] ∧ MayReplace q fs ∧
      s.fs = fs.set t (some (.reg ⟨q.content, q.mode⟩))
  | .remove t => q.path ≠ dash ∧ t ≠ q.path ∧ fs t = none ∧ s.out = [] ∧ MayReplace q fs ∧
      ∃ f, f.content <+: q.content ∧ s.fs = fs.set t (some (.reg f))
  | .done .ok =>
      (q.path = dash ∧ s.fs = fs ∧ s.out = q.content) ∨
      (q.path ≠ dash ∧ s.out = [] ∧
        ((MayReplace q fs ∧ s.fs = fs.set q.path (some (.reg ⟨q.content, q.mode⟩))) ∨
         ∃ f, Accepted q fs f ∧
          s.fs = fs.set q.path (some (.reg ⟨f.content,
            if needsChmod q.mode f.perm then f.perm ||| 0o500#9 else f.perm⟩))))
  | .done .err => s.fs = fs ∧ (q.path ≠ dash → s.out = []) ∧ s.out <+: q.content
  | .done .errLeft => q.path ≠ dash ∧ s.out = [] ∧ MayReplace q fs ∧
      ∃ t f, t ≠ q.path ∧ fs t = none ∧ f.content <+: q.content ∧
        s.fs = fs.set t (some (.reg f))
  | .done .panic => q.path ≠ dash ∧ s.fs = fs ∧ s.out = []

theorem take_drop_append (l : Bytes) {k k' : Nat} (h : k ≤ k') :
    l.take k ++ (l.take k').drop k = l.take k' := by
  have h1 := List.take_append_drop k (l.take k')
  rw [List.take_take, Nat.min_eq_left h] at h1
  exact h1

theorem inv_afterRead {q : Req} {fs : FS} {st : Option Perm} {f : Reg} (hd : q.path ≠ dash)
    (hst : ∀ p, st = some p → ∃ e, fs q.path = some e ∧ e.perm = p)
    (hf : fs q.path = some (.reg f)) (hne : f.content ≠ []) :
    Inv q fs ⟨fs, [], afterRead q st (f.content.take (bufLen q.content))⟩ := by
  unfold afterRead
  by_cases h1 : (!q.force && (f.content.take (bufLen q.content)).length == bufLen q.content) = true
  · rw [if_pos h1]
    exact ⟨rfl, fun _ => rfl, List.nil_prefix⟩
  rw [if_neg h1]
  by_cases h2 : (!q.force && (shebang.isPrefixOf q.content &&
      !shebang.isPrefixOf (f.content.take (bufLen q.content)))) = true
  · rw [if_pos h2]
    exact ⟨rfl, fun _ => rfl, List.nil_prefix⟩
  rw [if_neg h2]
  by_cases h3 : (f.content.take (bufLen q.content) == q.content) = true
  · rw [if_pos h3]
    have h3' : f.content.take (bufLen q.content) = q.content := by simpa using h3
    have hacc : Accepted q fs f := by
      refine ⟨hf, hne, h3', fun hforce => ?_⟩
      simp only [hforce, Bool.not_false, Bool.true_and, beq_iff_eq, List.length_take] at h1
      omega
    cases st with
    | none => exact ⟨hd, rfl, rfl⟩
    | some p =>
      obtain ⟨e, he, hep⟩ := hst p rfl
      have hee : e = .reg f := by rw [hf] at he; cases he; rfl
      have hp : f.perm = p := by rw [← hep, hee]; rfl
      show Inv q fs ⟨fs, [], if needsChmod q.mode p = true then .chmodOld p else .done .ok⟩
      by_cases h4 : needsChmod q.mode p = true
      · rw [if_pos h4]
        exact ⟨hd, rfl, rfl, f, hacc, hp, h4⟩
      · rw [if_neg h4]
        refine .inr ⟨hd, rfl, .inr ⟨f, hacc, ?_⟩⟩
        rw [hp, if_neg h4, ← hp]
        exact (by rw [← hf, FS.set_self] : fs = fs.set q.path (some (.reg f)))
  · rw [if_neg h3]
    by_cases h4 : (!q.force) = true
    · rw [if_pos h4]
      exact ⟨rfl, fun _ => rfl, List.nil_prefix⟩
    · rw [if_neg h4]
      refine ⟨hd, rfl, rfl, .inr ⟨by simpa using h4, f, hf, fun hh => h3 (by simpa using hh)⟩⟩

theorem inv_step {q : Req} {fs : FS} {b : Bool} {s s' : St} (h : Inv q fs s) (hs : Step q b s s') :
    Inv q fs s' := by
  cases hs with
  | stdoutOk hp =>
    obtain ⟨rfl, ho⟩ := h
    simp only at ho
    subst ho
    exact .inl ⟨hp, rfl, rfl⟩
  | stdoutFail hp =>
    obtain ⟨rfl, ho⟩ := h
    simp only at ho
    subst ho
    exact ⟨rfl, fun hh => absurd hp hh, List.take_prefix _ _⟩
  | statMissing hp hm =>
    obtain ⟨rfl, ho⟩ := h
    exact ⟨hp, rfl, ho, .inl hm⟩
  | statFound hp hm =>
    obtain ⟨rfl, ho⟩ := h
    exact ⟨hp, rfl, ho, fun p hh => ⟨_, hm, by cases hh; rfl⟩⟩
  | statFail hp =>
    obtain ⟨rfl, ho⟩ := h
    exact ⟨hp, rfl, ho, nofun⟩
  | openOk _ => exact h
  | openFail =>
    obtain ⟨hp, rfl, ho, _⟩ := h
    exact ⟨rfl, fun _ => ho, by rw [ho]; exact List.nil_prefix⟩
  | readOk hf hne =>
    obtain ⟨hp, rfl, ho, hst⟩ := h
    simp only at ho hf
    subst ho
    exact inv_afterRead hp hst hf hne
  | readEmpty _ _ =>
    obtain ⟨hp, rfl, ho, _⟩ := h
    exact ⟨rfl, fun _ => ho, by rw [ho]; exact List.nil_prefix⟩
  | readDir _ =>
    obtain ⟨hp, rfl, ho, _⟩ := h
    exact ⟨rfl, fun _ => ho, by rw [ho]; exact List.nil_prefix⟩
  | readFail =>
    obtain ⟨hp, rfl, ho, _⟩ := h
    exact ⟨rfl, fun _ => ho, by rw [ho]; exact List.nil_prefix⟩
  | chmodOk hf =>
    obtain ⟨hp, rfl, ho, f, hacc, rfl, hn⟩ := h
    have hff := hacc.1
    simp only at hf hff
    rw [hf] at hff
    cases hff
    refine .inr ⟨hp, ho, .inr ⟨_, hacc, ?_⟩⟩
    rw [if_pos hn]
  | chmodFail =>
    obtain ⟨hp, rfl, ho, _⟩ := h
    exact ⟨rfl, fun _ => ho, by rw [ho]; exact List.nil_prefix⟩
  | tempOk ht hm =>
    obtain ⟨hp, rfl, ho, hr⟩ := h
    exact ⟨hp, ht, hm, ho, hr, rfl⟩
  | tempFail =>
    obtain ⟨hp, rfl, ho, _⟩ := h
    exact ⟨rfl, fun _ => ho, by rw [ho]; exact List.nil_prefix⟩
  | chmodTempOk hf =>
    obtain ⟨hp, ht, hm, ho, hr, hfs⟩ := h
    simp only at hfs hf
    rw [hfs, FS.set_same] at hf
    cases hf
    refine ⟨hp, ht, hm, ho, hr, ?_⟩
    show FS.set _ _ _ = _
    rw [hfs, FS.set_set]
    simp
  | chmodTempFail =>
    obtain ⟨hp, ht, hm, ho, hr, hfs⟩ := h
    exact ⟨hp, ht, hm, ho, hr, ⟨[], 0o600#9⟩, List.nil_prefix, hfs⟩
  | writeSome hf hk _ =>
    obtain ⟨hp, ht, hm, ho, hr, hfs⟩ := h
    simp only at hfs hf
    rw [hfs, FS.set_same] at hf
    cases hf
    refine ⟨hp, ht, hm, ho, hr, ?_⟩
    show FS.set _ _ _ = _
    rw [hfs, FS.set_set]
    simp only
    rw [take_drop_append _ (Nat.le_of_lt hk)]
  | writeAll =>
    obtain ⟨hp, ht, hm, ho, hr, hfs⟩ := h
    refine ⟨hp, ht, hm, ho, hr, ?_⟩
    rw [List.take_length] at hfs
    exact hfs
  | writeFail =>
    obtain ⟨hp, ht, hm, ho, hr, hfs⟩ := h
    exact ⟨hp, ht, hm, ho, hr, _, List.take_prefix _ _, hfs⟩
  | renameOk hnd =>
    obtain ⟨hp, ht, hm, ho, hr, hfs⟩ := h
    simp only at hfs
    refine .inr ⟨hp, ho, .inl ⟨hr, ?_⟩⟩
    show FS.set (FS.set _ _ _) _ _ = _
    rw [hfs, FS.set_same, FS.set_comm _ _ _ (Ne.symm ht), FS.set_set, ← hm, FS.set_self]
  | renameFail =>
    obtain ⟨hp, ht, hm, ho, hr, hfs⟩ := h
    exact ⟨hp, ht, hm, ho, hr, _, List.prefix_rfl, hfs⟩
  | removeOk =>
    obtain ⟨hp, ht, hm, ho, hr, f, _, hfs⟩ := h
    simp only at hfs
    refine ⟨?_, fun _ => ho, by rw [ho]; exact List.nil_prefix⟩
    show FS.set _ _ _ = _
    rw [hfs, FS.set_set, ← hm, FS.set_self]
  | removeFail =>
    obtain ⟨hp, ht, hm, ho, hr, f, hpre, hfs⟩ := h
    exact ⟨hp, ho, hr, _, f, ht, hm, hpre, hfs⟩

theorem inv_run {q : Req} {fs : FS} {b : Bool} {s : St} (h : Run q b (.init fs) s) :
    Inv q fs s := by
  generalize he : St.init fs = s0 at h
  induction h with
  | refl => subst he; exact ⟨rfl, rfl⟩
  | step _ hs ih => exact inv_step (ih he) hs

theorem Run.trans {q : Req} {a b : Bool} {s s' s'' : St} (h : Run q a s s') (h' : Run q b s' s'') :
    Run q (a || b) s s'' := by
  induction h' with
  | refl => rw [Bool.or_false]; exact h
  | step _ hs ih =>
    rw [← Bool.or_assoc]
    exact (ih h).step hs

end Burl.File
