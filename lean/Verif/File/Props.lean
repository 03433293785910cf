import Verif.File.Lemmas
/-! C40-C43: the effects of `WriteFile` on the file system. -/
namespace Burl.File
open Burl

theorem contentAt_set_same (fs : FS) (p : Str) (f : Reg) :
    contentAt (fs.set p (some (.reg f))) p = some f.content := by
  simp [contentAt, FS.set_same]

theorem permAt_set_same (fs : FS) (p : Str) (f : Reg) :
    permAt (fs.set p (some (.reg f))) p = some f.perm := by
  simp [permAt, FS.set_same]

theorem contentAt_congr {fs fs' : FS} {p : Str} (h : fs p = fs' p) :
    contentAt fs p = contentAt fs' p := by
  simp [contentAt, h]

theorem take_eq_of_short {l c : Bytes} {n : Nat} (h : l.take n = c) (hl : c.length < n) : l = c := by
  have h1 : (l.take n).length = c.length := by rw [h]
  rw [List.length_take] at h1
  rw [← h, List.take_of_length_le (by omega)]

theorem length_lt_bufLen {c : Bytes} (h : c.length ≠ 4096) : c.length < bufLen c := by
  unfold bufLen
  split <;> omega

/-! ## C40 -/

/-- What the target names at any moment of a call, including the moments when some calls have
failed: it is what it was, or a regular file with the complete new content, or the old file with
its content and other permissions. -/
theorem c40_entry {q : Req} {fs : FS} {b : Bool} {s : St} (h : Run q b (.init fs) s) :
    s.fs q.path = fs q.path ∨
      ∃ f, s.fs q.path = some (.reg f) ∧
        (f.content = q.content ∨ contentAt fs q.path = some f.content) := by
  have hi := inv_run h
  obtain ⟨sfs, out, pc⟩ := s
  cases pc with
  | start => exact .inl (by rw [hi.1])
  | openOld st => exact .inl (by rw [hi.2.1])
  | readOld st => exact .inl (by rw [hi.2.1])
  | chmodOld st => exact .inl (by rw [hi.2.1])
  | temp => exact .inl (by rw [hi.2.1])
  | chmodTemp t =>
    obtain ⟨_, ht, _, _, _, hfs⟩ := hi
    exact .inl (by rw [hfs, FS.set_other _ _ (Ne.symm ht)])
  | writeTemp t k =>
    obtain ⟨_, ht, _, _, _, hfs⟩ := hi
    exact .inl (by rw [hfs, FS.set_other _ _ (Ne.symm ht)])
  | rename t =>
    obtain ⟨_, ht, _, _, _, hfs⟩ := hi
    exact .inl (by rw [hfs, FS.set_other _ _ (Ne.symm ht)])
  | remove t =>
    obtain ⟨_, ht, _, _, _, f, _, hfs⟩ := hi
    exact .inl (by rw [hfs, FS.set_other _ _ (Ne.symm ht)])
  | done r =>
    cases r with
    | ok =>
      rcases hi with ⟨_, hfs, _⟩ | ⟨_, _, ⟨_, hfs⟩ | ⟨f, hacc, hfs⟩⟩
      · exact .inl (by rw [hfs])
      · exact .inr ⟨_, by rw [hfs, FS.set_same], .inl rfl⟩
      · refine .inr ⟨_, by rw [hfs, FS.set_same], .inr ?_⟩
        simp [contentAt, hacc.1]
    | err => exact .inl (by rw [hi.1])
    | errLeft =>
      obtain ⟨_, _, _, t, f, ht, _, _, hfs⟩ := hi
      exact .inl (by rw [hfs, FS.set_other _ _ (Ne.symm ht)])
    | panic => exact .inl (by rw [hi.2.1])

/-- **C40.** After any number of steps of a call, whichever of them failed, the target holds
either its previous content or the complete new content. -/
theorem c40_atomic {q : Req} {fs : FS} {b : Bool} {s : St} (h : Run q b (.init fs) s) :
    contentAt s.fs q.path = contentAt fs q.path ∨ contentAt s.fs q.path = some q.content := by
  rcases c40_entry h with h1 | ⟨f, h1, h2 | h2⟩
  · exact .inl (contentAt_congr h1)
  · exact .inr (by simp [contentAt, h1, h2])
  · exact .inl (by rw [h2]; simp [contentAt, h1])

/-- **C40.** A call that does not return nil has not changed what the target names. -/
theorem c40_error {q : Req} {fs : FS} {b : Bool} {s : St} {r : Outcome}
    (h : Run q b (.init fs) s) (hd : s.pc = .done r) (hr : r ≠ .ok) :
    s.fs q.path = fs q.path := by
  have hi := inv_run h
  obtain ⟨sfs, out, pc⟩ := s
  simp only at hd
  subst hd
  cases r with
  | ok => exact absurd rfl hr
  | err => rw [hi.1]
  | errLeft =>
    obtain ⟨_, _, _, t, f, ht, _, _, hfs⟩ := hi
    rw [hfs, FS.set_other _ _ (Ne.symm ht)]
  | panic => rw [hi.2.1]

/-- **C40.** Nothing but the target and at most one new file, with a part of the new content, is
affected at any moment. -/
theorem c40_others {q : Req} {fs : FS} {b : Bool} {s : St} (h : Run q b (.init fs) s) :
    ∃ tmp, tmp ≠ q.path ∧ (∀ p, p ≠ q.path → p ≠ tmp → s.fs p = fs p) ∧
      (s.fs tmp = fs tmp ∨
        fs tmp = none ∧ ∃ c, contentAt s.fs tmp = some c ∧ c <+: q.content) := by
  have hi := inv_run h
  have key : ∀ (t : Str) (f : Reg), t ≠ q.path → fs t = none → f.content <+: q.content →
      s.fs = fs.set t (some (.reg f)) →
      ∃ tmp, tmp ≠ q.path ∧ (∀ p, p ≠ q.path → p ≠ tmp → s.fs p = fs p) ∧
      (s.fs tmp = fs tmp ∨
        fs tmp = none ∧ ∃ c, contentAt s.fs tmp = some c ∧ c <+: q.content) := by
    intro t f ht hm hp hfs
    refine ⟨t, ht, fun p _ hpt => by rw [hfs, FS.set_other _ _ hpt], .inr ⟨hm, f.content, ?_, hp⟩⟩
    rw [hfs, contentAt_set_same]
  have same : (∀ p, p ≠ q.path → s.fs p = fs p) →
      ∃ tmp, tmp ≠ q.path ∧ (∀ p, p ≠ q.path → p ≠ tmp → s.fs p = fs p) ∧
      (s.fs tmp = fs tmp ∨
        fs tmp = none ∧ ∃ c, contentAt s.fs tmp = some c ∧ c <+: q.content) := by
    intro hsame
    have hne : 'x' :: q.path ≠ q.path := fun hh => by
      have := congrArg List.length hh
      simp at this
    exact ⟨'x' :: q.path, hne, fun p hp _ => hsame p hp, .inl (hsame _ hne)⟩
  obtain ⟨sfs, out, pc⟩ := s
  cases pc with
  | start => exact same (fun p _ => by rw [hi.1])
  | openOld st => exact same (fun p _ => by rw [hi.2.1])
  | readOld st => exact same (fun p _ => by rw [hi.2.1])
  | chmodOld st => exact same (fun p _ => by rw [hi.2.1])
  | temp => exact same (fun p _ => by rw [hi.2.1])
  | chmodTemp t =>
    obtain ⟨_, ht, hm, _, _, hfs⟩ := hi
    exact key t _ ht hm List.nil_prefix hfs
  | writeTemp t k =>
    obtain ⟨_, ht, hm, _, _, hfs⟩ := hi
    exact key t _ ht hm (List.take_prefix _ _) hfs
  | rename t =>
    obtain ⟨_, ht, hm, _, _, hfs⟩ := hi
    exact key t _ ht hm List.prefix_rfl hfs
  | remove t =>
    obtain ⟨_, ht, hm, _, _, f, hp, hfs⟩ := hi
    exact key t f ht hm hp hfs
  | done r =>
    cases r with
    | ok =>
      rcases hi with ⟨_, hfs, _⟩ | ⟨_, _, ⟨_, hfs⟩ | ⟨f, hacc, hfs⟩⟩
      · exact same (fun p _ => by rw [hfs])
      · exact same (fun p hp => by rw [hfs, FS.set_other _ _ hp])
      · exact same (fun p hp => by rw [hfs, FS.set_other _ _ hp])
    | err => exact same (fun p _ => by rw [hi.1])
    | errLeft =>
      obtain ⟨_, _, _, t, f, ht, hm, hp, hfs⟩ := hi
      exact key t f ht hm hp hfs
    | panic => exact same (fun p _ => by rw [hi.2.1])

/-- **C40.** A call that returns leaves no other file behind, unless removal of the temporary
file is what failed. -/
theorem c40_no_litter {q : Req} {fs : FS} {b : Bool} {s : St} {r : Outcome}
    (h : Run q b (.init fs) s) (hd : s.pc = .done r) (hr : r ≠ .errLeft) {p : Str}
    (hp : p ≠ q.path) : s.fs p = fs p := by
  have hi := inv_run h
  obtain ⟨sfs, out, pc⟩ := s
  simp only at hd
  subst hd
  cases r with
  | ok =>
    rcases hi with ⟨_, hfs, _⟩ | ⟨_, _, ⟨_, hfs⟩ | ⟨f, hacc, hfs⟩⟩
    · rw [hfs]
    · rw [hfs, FS.set_other _ _ hp]
    · rw [hfs, FS.set_other _ _ hp]
  | err => rw [hi.1]
  | errLeft => exact absurd rfl hr
  | panic => rw [hi.2.1]

/-! ## C41 -/

/-- **C41.** Without `force` the content of an existing file is the same at every moment. -/
theorem c41_unchanged {q : Req} {fs : FS} {b : Bool} {s : St} (hf : q.force = false) {e : Entry}
    (he : fs q.path = some e) (h : Run q b (.init fs) s) :
    contentAt s.fs q.path = contentAt fs q.path ∧ (s.fs q.path).isSome = true := by
  have hi := inv_run h
  have hno : ¬ MayReplace q fs := by
    rintro (h1 | ⟨h1, _⟩)
    · rw [he] at h1; cases h1
    · rw [hf] at h1; cases h1
  have same : s.fs = fs →
      contentAt s.fs q.path = contentAt fs q.path ∧ (s.fs q.path).isSome = true := by
    intro hs
    rw [hs, he]
    exact ⟨rfl, rfl⟩
  obtain ⟨sfs, out, pc⟩ := s
  cases pc with
  | start => exact same hi.1
  | openOld st => exact same hi.2.1
  | readOld st => exact same hi.2.1
  | chmodOld st => exact same hi.2.1
  | temp => exact absurd hi.2.2.2 hno
  | chmodTemp t => exact absurd hi.2.2.2.2.1 hno
  | writeTemp t k => exact absurd hi.2.2.2.2.1 hno
  | rename t => exact absurd hi.2.2.2.2.1 hno
  | remove t => exact absurd hi.2.2.2.2.1 hno
  | done r =>
    cases r with
    | ok =>
      rcases hi with ⟨_, hfs, _⟩ | ⟨_, _, ⟨hm, _⟩ | ⟨f, hacc, hfs⟩⟩
      · exact same hfs
      · exact absurd hm hno
      · simp only at hfs
        subst hfs
        refine ⟨?_, by simp [FS.set_same]⟩
        show contentAt (FS.set _ _ _) _ = _
        rw [contentAt_set_same]
        simp [contentAt, hacc.1]
    | err => exact same hi.1
    | errLeft => exact absurd hi.2.2.1 hno
    | panic => exact same hi.2.1

/-- **C41.** Without `force` a call succeeds on an existing file only if the file already has
exactly the requested content. -/
theorem c41_differs {q : Req} {fs : FS} {b : Bool} {s : St} {r : Outcome} (hf : q.force = false)
    (hp : q.path ≠ dash) {e : Entry} (he : fs q.path = some e)
    (hdiff : contentAt fs q.path ≠ some q.content)
    (h : Run q b (.init fs) s) (hd : s.pc = .done r) : r ≠ .ok := by
  rintro rfl
  have hi := inv_run h
  obtain ⟨sfs, out, pc⟩ := s
  simp only at hd
  subst hd
  rcases hi with ⟨h1, _⟩ | ⟨_, _, ⟨hm, _⟩ | ⟨f, ⟨hf1, _, hf2, hf3⟩, _⟩⟩
  · exact hp h1
  · rcases hm with h1 | ⟨h1, _⟩
    · rw [he] at h1; cases h1
    · rw [hf] at h1; cases h1
  · apply hdiff
    rw [List.take_of_length_le (Nat.le_of_lt (hf3 hf))] at hf2
    simp [contentAt, hf1, hf2]

/-- **C41.** Without `force` the only path that may get a file is one that had nothing: what a
path named before the call it names, up to permissions, at every moment of the call. -/
theorem c41_keeps_files {q : Req} {fs : FS} {b : Bool} {s : St} (hf : q.force = false)
    (h : Run q b (.init fs) s) {p : Str} {c : Bytes} (hc : contentAt fs p = some c) :
    contentAt s.fs p = some c := by
  have hne : fs p ≠ none := by
    intro hh
    simp [contentAt, hh] at hc
  by_cases hp : p = q.path
  · subst hp
    cases he : fs q.path with
    | none => exact absurd he hne
    | some e => rw [(c41_unchanged hf he h).1, hc]
  · obtain ⟨t, ht, hoth, htmp⟩ := c40_others h
    by_cases hpt : p = t
    · subst hpt
      rcases htmp with h1 | ⟨h1, _⟩
      · rw [contentAt_congr h1, hc]
      · exact absurd h1 hne
    · rw [contentAt_congr (hoth p hp hpt), hc]

/-! ## Calls without failures -/

/-- The result of a call when no system call fails. -/
def verdict (q : Req) (fs : FS) : Outcome :=
  if q.path = dash then .ok
  else match fs q.path with
  | none => .ok
  | some (.dir _) => .err
  | some (.reg f) =>
    if f.content = [] then .err
    else match afterRead q (some f.perm) (f.content.take (bufLen q.content)) with
    | .done r => r
    | _ => .ok

/-- What is known of `pc` when nothing has failed. -/
def Inv2 (q : Req) (fs : FS) (pc : Pc) : Prop :=
  match pc with
  | .start => True
  | .openOld st => q.path ≠ dash ∧ ∃ e, fs q.path = some e ∧ st = some e.perm
  | .readOld st => q.path ≠ dash ∧ ∃ e, fs q.path = some e ∧ st = some e.perm
  | .done r => r = verdict q fs
  | .remove _ => False
  | _ => verdict q fs = .ok

theorem afterRead_cases (q : Req) (st : Option Perm) (data : Bytes) :
    (∃ r, afterRead q st data = .done r) ∨ (∃ p, afterRead q st data = .chmodOld p) ∨
      afterRead q st data = .temp := by
  unfold afterRead
  split
  · exact .inl ⟨_, rfl⟩
  split
  · exact .inl ⟨_, rfl⟩
  split
  · cases st with
    | none => exact .inl ⟨_, rfl⟩
    | some p =>
      simp only
      split
      · exact .inr (.inl ⟨_, rfl⟩)
      · exact .inl ⟨_, rfl⟩
  · split
    · exact .inl ⟨_, rfl⟩
    · exact .inr (.inr rfl)

theorem inv2_step {q : Req} {fs : FS} {s s' : St} (hi : Inv q fs s) (h : Inv2 q fs s.pc)
    (hs : Step q false s s') : Inv2 q fs s'.pc := by
  cases hs with
  | stdoutOk hp =>
    show Outcome.ok = verdict q fs
    unfold verdict
    rw [if_pos hp]
  | statMissing hp hm =>
    obtain ⟨rfl, _⟩ := hi
    show verdict q _ = .ok
    unfold verdict
    simp only at hm ⊢
    rw [if_neg hp, hm]
  | statFound hp hm =>
    obtain ⟨rfl, _⟩ := hi
    exact ⟨hp, _, hm, rfl⟩
  | openOk _ => exact h
  | @readOk fs _ st f hf hne =>
    obtain ⟨hd, hfs, _, _⟩ := hi
    simp only at hfs
    subst hfs
    obtain ⟨_, e, he, hst⟩ := h
    rw [hf] at he
    cases he
    subst hst
    have hv : verdict q fs = match afterRead q (some f.perm) (f.content.take (bufLen q.content)) with
      | .done r => r
      | _ => .ok := by
      unfold verdict
      rw [if_neg hd, hf]
      simp only
      rw [if_neg hne]
    show Inv2 q _ (afterRead q (some f.perm) (f.content.take (bufLen q.content)))
    rcases afterRead_cases q (some f.perm) (f.content.take (bufLen q.content)) with
      ⟨r, hr⟩ | ⟨p, hr⟩ | hr
    · rw [hr] at hv ⊢
      exact hv.symm
    · rw [hr] at hv ⊢
      exact hv
    · rw [hr] at hv ⊢
      exact hv
  | readEmpty hf hne =>
    obtain ⟨hd, hfs, _, _⟩ := hi
    simp only at hfs
    subst hfs
    show Outcome.err = verdict q _
    unfold verdict
    rw [if_neg hd, hf]
    simp only
    rw [if_pos hne]
  | readDir hf =>
    obtain ⟨hd, hfs, _, _⟩ := hi
    simp only at hfs
    subst hfs
    show Outcome.err = verdict q _
    unfold verdict
    rw [if_neg hd, hf]
  | chmodOk _ => exact Eq.symm h
  | tempOk _ _ => exact h
  | chmodTempOk _ => exact h
  | writeSome _ _ _ => exact h
  | writeAll => exact h
  | renameOk _ => exact Eq.symm h
  | removeOk => exact absurd h id

theorem inv2_run {q : Req} {fs : FS} {b : Bool} {s : St} (h : Run q b (.init fs) s) (hb : b = false) :
    Inv2 q fs s.pc := by
  generalize he : St.init fs = s0 at h
  induction h with
  | refl => subst he; trivial
  | @step a b s s' s'' hr hs ih =>
    have ha : a = false := by cases a <;> simp_all
    have hb' : b = false := by cases b <;> simp_all
    subst hb'
    subst he
    exact inv2_step (inv_run hr) (ih ha rfl) hs

/-- A call without failures that returns gives the verdict. -/
theorem verdict_run {q : Req} {fs : FS} {s : St} {r : Outcome} (h : Run q false (.init fs) s)
    (hd : s.pc = .done r) : r = verdict q fs := by
  have := inv2_run h rfl
  rw [hd] at this
  exact this

/-- A call without failures does return, provided that there is a free name for the temporary
file. -/
theorem verdict_exists (q : Req) (fs : FS) {tmp : Str} (ht : tmp ≠ q.path) (hm : fs tmp = none) :
    ∃ s, Run q false (.init fs) s ∧ s.pc = .done (verdict q fs) := by
  have fin : ∀ {s : St} {r : Outcome}, Run q false (.init fs) s → s.pc = .done r →
      ∃ s, Run q false (.init fs) s ∧ s.pc = .done (verdict q fs) := by
    intro s r hr hd
    exact ⟨s, hr, by rw [← verdict_run hr hd, hd]⟩
  have hreplace : Run q false (.init fs) ⟨fs, [], .temp⟩ →
      (∀ p, fs q.path ≠ some (.dir p)) →
      ∃ s, Run q false (.init fs) s ∧ s.pc = .done (verdict q fs) := by
    intro h0 hnd
    have h1 := h0.step (.tempOk ht hm)
    have h2 := h1.step (.chmodTempOk (FS.set_same _ _ _))
    rw [FS.set_set] at h2
    have h3 : ∃ fs', Run q false (.init fs) ⟨fs', [], .writeTemp tmp q.content.length⟩ ∧
        fs' q.path = fs q.path := by
      by_cases hc : q.content.length = 0
      · rw [hc]
        exact ⟨_, h2, FS.set_other _ _ (Ne.symm ht)⟩
      · refine ⟨_, h2.step (.writeSome (k' := q.content.length) (FS.set_same _ _ _)
          (by omega) (Nat.le_refl _)), ?_⟩
        rw [FS.set_other _ _ (Ne.symm ht), FS.set_other _ _ (Ne.symm ht)]
    obtain ⟨fs', h3, hfs'⟩ := h3
    exact fin ((h3.step .writeAll).step (.renameOk (by rw [hfs']; exact hnd))) rfl
  have h0 : Run q false (.init fs) (.init fs) := .refl
  by_cases hp : q.path = dash
  · exact fin (h0.step (.stdoutOk hp)) rfl
  cases hf : fs q.path with
  | none =>
    exact hreplace (h0.step (.statMissing hp hf)) (by rw [hf]; nofun)
  | some e =>
    have h1 := (h0.step (.statFound hp hf)).step (.openOk hf)
    cases e with
    | dir p => exact fin (h1.step (.readDir hf)) rfl
    | reg f =>
      by_cases hne : f.content = []
      · exact fin (h1.step (.readEmpty hf hne)) rfl
      have h2 := h1.step (.readOk hf hne)
      rcases afterRead_cases q (some (Entry.reg f).perm) (f.content.take (bufLen q.content)) with
        ⟨r, hr⟩ | ⟨p, hr⟩ | hr
      · rw [hr] at h2
        exact fin h2 rfl
      · rw [hr] at h2
        exact fin (h2.step (.chmodOk hf)) rfl
      · rw [hr] at h2
        exact hreplace h2 (by rw [hf]; nofun)

theorem afterRead_no_panic (q : Req) (p : Perm) (data : Bytes) :
    afterRead q (some p) data ≠ .done .panic := by
  unfold afterRead
  split
  · nofun
  split
  · nofun
  split
  · simp only
    split <;> nofun
  · split <;> nofun

/-- A call without failed system calls does not panic.  (When `os.Stat` fails for a reason other
than a missing file and `os.Open` works nevertheless, `stat` is nil and a file with the requested
content makes the call panic; see `panic_reachable`.) -/
theorem c40_no_panic {q : Req} {fs : FS} {s : St} (h : Run q false (.init fs) s) :
    s.pc ≠ .done .panic := by
  intro hd
  have hv := verdict_run h hd
  unfold verdict at hv
  split at hv
  · cases hv
  · split at hv
    · cases hv
    · cases hv
    · split at hv
      · cases hv
      · split at hv
        · rename_i heq
          rw [← hv] at heq
          exact afterRead_no_panic _ _ _ heq
        · cases hv

/-! ## C42 -/

/-- **C42 (part).** When a call returns nil, the target holds exactly the given bytes, unless
4096 bytes are requested over an existing file with `force`. -/
theorem c42_written_partial {q : Req} {fs : FS} {b : Bool} {s : St} (hp : q.path ≠ dash)
    (hl : q.content.length ≠ 4096 ∨ q.force = false) (h : Run q b (.init fs) s)
    (hd : s.pc = .done .ok) : contentAt s.fs q.path = some q.content := by
  have hi := inv_run h
  obtain ⟨sfs, out, pc⟩ := s
  simp only at hd
  subst hd
  rcases hi with ⟨h1, _⟩ | ⟨_, _, ⟨_, hfs⟩ | ⟨f, ⟨hf1, _, hf2, hf3⟩, hfs⟩⟩
  · exact absurd h1 hp
  · simp only at hfs
    rw [hfs, contentAt_set_same]
  · simp only at hfs
    rw [hfs, contentAt_set_same]
    rcases hl with hl | hl
    · rw [take_eq_of_short hf2 (length_lt_bufLen hl)]
    · rw [List.take_of_length_le (Nat.le_of_lt (hf3 hl))] at hf2
      rw [hf2]

/-- **C42.** When the standard output is requested, nil means that exactly the given bytes are
sent there; no file is affected. -/
theorem c42_stdout {q : Req} {fs : FS} {b : Bool} {s : St} (hp : q.path = dash)
    (h : Run q b (.init fs) s) (hd : s.pc = .done .ok) : s.out = q.content ∧ s.fs = fs := by
  have hi := inv_run h
  obtain ⟨sfs, out, pc⟩ := s
  simp only at hd
  subst hd
  rcases hi with ⟨_, h2, h3⟩ | ⟨h1, _⟩
  · exact ⟨h3, h2⟩
  · exact absurd hp h1

theorem verdict_reg {q : Req} {fs : FS} {f : Reg} (hp : q.path ≠ dash)
    (hf : fs q.path = some (.reg f)) (hne : f.content ≠ []) :
    verdict q fs = match afterRead q (some f.perm) (f.content.take (bufLen q.content)) with
      | .done r => r
      | _ => .ok := by
  unfold verdict
  rw [if_neg hp, hf]
  simp only
  rw [if_neg hne]

/-- An accepted file. -/
theorem verdict_accepted {q : Req} {fs : FS} {f : Reg} (hp : q.path ≠ dash)
    (hacc : Accepted q fs f) : verdict q fs = .ok := by
  obtain ⟨hf, hne, hc, hs⟩ := hacc
  rw [verdict_reg hp hf hne, hc]
  unfold afterRead
  have h1 : ¬ ((!q.force && q.content.length == bufLen q.content) = true) := by
    intro hh
    simp only [Bool.and_eq_true, Bool.not_eq_true', beq_iff_eq] at hh
    have h2 := hs hh.1
    have h3 := congrArg List.length hc
    rw [List.length_take] at h3
    omega
  rw [if_neg h1]
  rw [if_neg (by cases shebang.isPrefixOf q.content <;> simp), if_pos (by simp)]
  simp only
  by_cases h : (q.mode &&& 0o500#9 != 0 && f.perm &&& 0o500#9 == 0) = true
  · rw [if_pos h]
  · rw [if_neg h]

/-- What a successful call does when the file found is accepted. -/
theorem accepted_final {q : Req} {fs : FS} {f : Reg} {b : Bool} {s : St} (hp : q.path ≠ dash)
    (hacc : Accepted q fs f) (h : Run q b (.init fs) s) (hd : s.pc = .done .ok) :
    s.fs = fs.set q.path (some (.reg ⟨f.content,
      if needsChmod q.mode f.perm then f.perm ||| 0o500#9 else f.perm⟩)) := by
  have hi := inv_run h
  obtain ⟨sfs, out, pc⟩ := s
  simp only at hd
  subst hd
  rcases hi with ⟨h1, _⟩ | ⟨_, _, ⟨hm, _⟩ | ⟨f', hacc', hfs⟩⟩
  · exact absurd h1 hp
  · rcases hm with h1 | ⟨_, f', h1, h2⟩
    · rw [hacc.1] at h1; cases h1
    · rw [hacc.1] at h1
      cases h1
      exact absurd hacc.2.2.1 h2
  · have h1 := hacc'.1
    rw [hacc.1] at h1
    cases h1
    exact hfs

/-- **C42 (part).** If the target already holds the requested bytes, a call without failures of
system calls succeeds and does not change any file (permissions aside), provided that the content
is neither empty nor, when `force` is not given, exactly 4096 bytes long. -/
theorem c42_same_partial {q : Req} {fs : FS} {s : St} {r : Outcome} (hp : q.path ≠ dash)
    (hc : contentAt fs q.path = some q.content) (hne : q.content ≠ [])
    (hl : q.content.length ≠ 4096 ∨ q.force = true)
    (h : Run q false (.init fs) s) (hd : s.pc = .done r) :
    r = .ok ∧ (∀ p, contentAt s.fs p = contentAt fs p) ∧
      ((∀ p, permAt fs q.path = some p → ownerRead p = true ∨ ownerExec p = true) →
        s.fs = fs) := by
  cases hf : fs q.path with
  | none => simp [contentAt, hf] at hc
  | some e =>
    cases e with
    | dir p => simp [contentAt, hf] at hc
    | reg f =>
      have hfc : f.content = q.content := by simpa [contentAt, hf] using hc
      have hlen : q.content.length ≤ bufLen q.content := by
        unfold bufLen
        split <;> omega
      have hacc : Accepted q fs f := by
        refine ⟨hf, by rw [hfc]; exact hne, ?_, fun hforce => ?_⟩
        · rw [hfc, List.take_of_length_le hlen]
        · rw [hfc]
          rcases hl with hl | hl
          · exact length_lt_bufLen hl
          · rw [hforce] at hl; cases hl
      have hr : r = .ok := by rw [verdict_run h hd, verdict_accepted hp hacc]
      subst hr
      have hfs := accepted_final hp hacc h hd
      refine ⟨rfl, fun p => ?_, fun hno => ?_⟩
      · by_cases hpp : p = q.path
        · subst hpp
          rw [hfs, contentAt_set_same, hc, hfc]
        · rw [contentAt_congr (show s.fs p = fs p by rw [hfs, FS.set_other _ _ hpp])]
      · have hn : needsChmod q.mode f.perm = false := by
          have hall : ∀ m : Perm, (ownerRead m = true ∨ ownerExec m = true) →
              (m &&& 0o500#9 == 0) = false := by decide +kernel
          unfold needsChmod
          rw [hall _ (hno f.perm (by simp [permAt, hf])), Bool.and_false]
        rw [hfs, hn]
        show fs.set q.path (some (.reg f)) = fs
        rw [← hf, FS.set_self]

/-- **C42 fails.** `WriteFile` with `force` returns nil and leaves the old file with more content
whenever exactly 4096 bytes are requested and the existing file starts with them: only 4096 bytes
of the existing file are compared. -/
theorem c42_violation_prefix {q : Req} {fs : FS} {extra : Bytes} {perm : Perm}
    (hp : q.path ≠ dash) (hforce : q.force = true) (hl : q.content.length = 4096)
    (hf : fs q.path = some (.reg ⟨q.content ++ extra, perm⟩)) :
    verdict q fs = .ok ∧ ∀ b s, Run q b (.init fs) s → s.pc = .done .ok →
      contentAt s.fs q.path = some (q.content ++ extra) := by
  have hb : bufLen q.content = 4096 := by
    unfold bufLen
    rw [if_neg (by omega)]
  have hne : q.content ++ extra ≠ [] := by
    intro hh
    have := congrArg List.length hh
    simp [hl] at this
  have hacc : Accepted q fs ⟨q.content ++ extra, perm⟩ := by
    refine ⟨hf, hne, ?_, fun hh => by rw [hforce] at hh; cases hh⟩
    rw [hb, ← hl]
    simp
  refine ⟨verdict_accepted hp hacc, fun b s h hd => ?_⟩
  rw [accepted_final hp hacc h hd, contentAt_set_same]

/-- **C42 fails.** A file that already has the requested 4096 bytes is refused without `force`. -/
theorem c42_violation_exact {q : Req} {fs : FS} {perm : Perm} (hp : q.path ≠ dash)
    (hforce : q.force = false) (hl : q.content.length = 4096)
    (hf : fs q.path = some (.reg ⟨q.content, perm⟩)) : verdict q fs = .err := by
  have hb : bufLen q.content = 4096 := by
    unfold bufLen
    rw [if_neg (by omega)]
  have hne : q.content ≠ [] := by
    intro hh
    rw [hh] at hl
    cases hl
  rw [verdict_reg hp hf hne]
  unfold afterRead
  rw [if_pos (by simp [hforce, hb, hl])]

/-- **C42 fails.** An existing empty file is never accepted and never replaced: a call fails even
if nothing is to be written, and even with `force`. -/
theorem c42_violation_empty {q : Req} {fs : FS} {perm : Perm} (hp : q.path ≠ dash)
    (hf : fs q.path = some (.reg ⟨[], perm⟩)) :
    verdict q fs = .err ∧ ∀ b s, Run q b (.init fs) s → s.pc ≠ .done .ok := by
  constructor
  · unfold verdict
    rw [if_neg hp, hf]
    rfl
  · intro b s h hd
    have key : ∀ {b s}, Run q b (.init fs) s → s.fs q.path = some (.reg ⟨[], perm⟩) ∧
        (s.pc = .start ∨ (∃ st, s.pc = .openOld st) ∨ (∃ st, s.pc = .readOld st) ∨
          s.pc = .done .err) := by
      intro b s h
      generalize he : St.init fs = s0 at h
      induction h with
      | refl => subst he; exact ⟨hf, .inl rfl⟩
      | step _ hs ih =>
        have ih := ih he
        cases hs with
        | stdoutOk h1 => exact absurd h1 hp
        | stdoutFail h1 => exact absurd h1 hp
        | statMissing _ h1 => have h2 := ih.1; simp only at h2; rw [h2] at h1; cases h1
        | statFound => exact ⟨ih.1, .inr (.inl ⟨_, rfl⟩)⟩
        | statFail => exact ⟨ih.1, .inr (.inl ⟨_, rfl⟩)⟩
        | openOk => exact ⟨ih.1, .inr (.inr (.inl ⟨_, rfl⟩))⟩
        | openFail => exact ⟨ih.1, .inr (.inr (.inr rfl))⟩
        | readOk h1 h2 =>
          have h3 := ih.1
          simp only at h3
          rw [h3] at h1
          cases h1
          exact absurd rfl h2
        | readEmpty => exact ⟨ih.1, .inr (.inr (.inr rfl))⟩
        | readDir => exact ⟨ih.1, .inr (.inr (.inr rfl))⟩
        | readFail => exact ⟨ih.1, .inr (.inr (.inr rfl))⟩
        | _ => rcases ih.2 with h1 | ⟨_, h1⟩ | ⟨_, h1⟩ | h1 <;> cases h1
    rcases (key h).2 with h1 | ⟨_, h1⟩ | ⟨_, h1⟩ | h1 <;> rw [hd] at h1 <;> cases h1

/-! ## C43 -/

/-- **C43.** A file that is created or replaced has exactly the requested permissions. -/
theorem c43_written {q : Req} {fs : FS} {b : Bool} {s : St} (hp : q.path ≠ dash)
    (hl : q.content.length ≠ 4096 ∨ q.force = false)
    (hdiff : contentAt fs q.path ≠ some q.content)
    (h : Run q b (.init fs) s) (hd : s.pc = .done .ok) :
    permAt s.fs q.path = some q.mode := by
  have hi := inv_run h
  obtain ⟨sfs, out, pc⟩ := s
  simp only at hd
  subst hd
  rcases hi with ⟨h1, _⟩ | ⟨_, _, ⟨_, hfs⟩ | ⟨f, ⟨hf1, _, hf2, hf3⟩, hfs⟩⟩
  · exact absurd h1 hp
  · simp only at hfs
    rw [hfs, permAt_set_same]
  · exfalso
    apply hdiff
    have : f.content = q.content := by
      rcases hl with hl | hl
      · exact take_eq_of_short hf2 (length_lt_bufLen hl)
      · rw [List.take_of_length_le (Nat.le_of_lt (hf3 hl))] at hf2
        exact hf2
    simp [contentAt, hf1, this]

theorem owner_of_0500 : ∀ p : Perm, ownerRead (p ||| 0o500#9) = true ∧
    ownerExec (p ||| 0o500#9) = true := by
  decide +kernel

/-- **C43 (part).** After a successful call with a mode that lets the owner read and execute the
file, the owner can do so, provided that an existing file with the same content is not one that
its owner could only read or only execute. -/
theorem c43_executable_partial {q : Req} {fs : FS} {b : Bool} {s : St} {perm : Perm}
    (hp : q.path ≠ dash) (hr : ownerRead q.mode = true) (hx : ownerExec q.mode = true)
    (hold : ∀ p, permAt fs q.path = some p → ownerRead p = ownerExec p)
    (h : Run q b (.init fs) s) (hd : s.pc = .done .ok) (hperm : permAt s.fs q.path = some perm) :
    ownerRead perm = true ∧ ownerExec perm = true := by
  have hi := inv_run h
  obtain ⟨sfs, out, pc⟩ := s
  simp only at hd
  subst hd
  rcases hi with ⟨h1, _⟩ | ⟨_, _, ⟨_, hfs⟩ | ⟨f, hacc, hfs⟩⟩
  · exact absurd h1 hp
  · simp only at hfs hperm
    rw [hfs, permAt_set_same] at hperm
    cases hperm
    exact ⟨hr, hx⟩
  · simp only at hfs hperm
    rw [hfs, permAt_set_same] at hperm
    cases hperm
    have hold' := hold f.perm (by simp [permAt, hacc.1])
    have hmode : (q.mode &&& 0o500#9 != 0) = true := by
      have : ∀ m : Perm, ownerRead m = true → (m &&& 0o500#9 != 0) = true := by decide +kernel
      exact this _ hr
    have hboth : ∀ m : Perm, ownerRead m = ownerExec m →
        ((m &&& 0o500#9 == 0) = false) → ownerRead m = true ∧ ownerExec m = true := by
      decide +kernel
    by_cases hn : needsChmod q.mode f.perm = true
    · simp only [hn, if_true]
      exact owner_of_0500 _
    · simp only [hn]
      refine hboth _ hold' ?_
      unfold needsChmod at hn
      rw [hmode] at hn
      simpa using hn

/-- **C43 fails.** If there is a file with the requested content that its owner may read but not
execute, a call with mode 0755 succeeds and leaves the file as it is: `(perm & 0500) == 0` asks
whether both bits are missing. -/
theorem c43_violation {q : Req} {fs : FS} {perm : Perm} (hp : q.path ≠ dash)
    (hc : q.content ≠ []) (hl : q.content.length ≠ 4096)
    (hperm : ownerRead perm = true) (hx : ownerExec perm = false)
    (hf : fs q.path = some (.reg ⟨q.content, perm⟩)) :
    verdict q fs = .ok ∧ ∀ b s, Run q b (.init fs) s → s.pc = .done .ok →
      permAt s.fs q.path = some perm ∧ ownerExec perm = false := by
  have hacc : Accepted q fs ⟨q.content, perm⟩ := by
    have := length_lt_bufLen hl
    exact ⟨hf, hc, List.take_of_length_le (Nat.le_of_lt this), fun _ => this⟩
  refine ⟨verdict_accepted hp hacc, fun b s h hd => ⟨?_, hx⟩⟩
  rw [accepted_final hp hacc h hd, permAt_set_same]
  have : ∀ m : Perm, ownerRead m = true → (m &&& 0o500#9 == 0) = false := by decide +kernel
  have hn : needsChmod q.mode perm = false := by
    unfold needsChmod
    rw [this perm hperm, Bool.and_false]
  simp only [hn]
  rfl

/-! ## Examples: the hypotheses are met -/

/-- A request for a wrapper script. -/
private def exReq : Req :=
  { path := "w".toList, content := [0x23, 0x21, 0x2f, 1], mode := 0o755#9, force := true }

/-- A directory with another script of that name. -/
private def exFs : FS := fun p => if p = "w".toList then some (.reg ⟨[0x23, 9], 0o644#9⟩) else none

/-- The process is killed in the middle of writing: the target is intact, there is a partial
temporary file. -/
private theorem exCrash : ∃ s, Run exReq false (.init exFs) s ∧ s.pc = .writeTemp "w1".toList 2 ∧
    contentAt s.fs "w".toList = some [0x23, 9] ∧ contentAt s.fs "w1".toList = some [0x23, 0x21] := by
  have h0 : Run exReq false (.init exFs) (.init exFs) := .refl
  have h1 : Run exReq false (.init exFs) ⟨exFs, [], .openOld (some 0o644#9)⟩ :=
    h0.step (.statFound (e := .reg ⟨[0x23, 9], 0o644#9⟩) (by decide) (by decide))
  have h2 : Run exReq false (.init exFs) ⟨exFs, [], .readOld (some 0o644#9)⟩ :=
    h1.step (.openOk (e := .reg ⟨[0x23, 9], 0o644#9⟩) (by decide))
  have h3 : Run exReq false (.init exFs) ⟨exFs, [], .temp⟩ :=
    h2.step (.readOk (f := ⟨[0x23, 9], 0o644#9⟩) (by decide) (by decide))
  have h4 := h3.step (.tempOk (tmp := "w1".toList) (by decide) (by decide))
  have h5 := h4.step (.chmodTempOk (FS.set_same _ _ _))
  have h6 := h5.step (.writeSome (k' := 2) (FS.set_same _ _ _) (by decide) (by decide))
  exact ⟨_, h6, rfl, by decide +kernel, by decide +kernel⟩

/-- The call goes through when nothing fails. -/
example : ∃ s, Run exReq false (.init exFs) s ∧ s.pc = .done .ok ∧
    contentAt s.fs "w".toList = some exReq.content ∧ permAt s.fs "w".toList = some 0o755#9 := by
  obtain ⟨s, h, hd⟩ := verdict_exists exReq exFs (tmp := "w1".toList) (by decide) (by decide)
  have hv : verdict exReq exFs = .ok := by decide +kernel
  rw [hv] at hd
  exact ⟨s, h, hd, c42_written_partial (by decide) (.inl (by decide)) h hd,
    c43_written (by decide) (.inl (by decide)) (by decide) h hd⟩

/-- Without `force` the file is kept. -/
example : verdict { exReq with force := false } exFs = .err := by decide +kernel

/-- A file with the requested content is accepted; its permissions are not fixed. -/
example : verdict { exReq with content := [0x23, 9] } exFs = .ok := by decide +kernel

/-- The nil dereference after a failed `os.Stat`. -/
theorem panic_reachable : ∃ (q : Req) (fs : FS) (s : St),
    Run q true (.init fs) s ∧ s.pc = .done .panic := by
  let q : Req := { exReq with content := [0x23, 9] }
  have h0 : Run q false (.init exFs) (.init exFs) := .refl
  have h1 : Run q true (.init exFs) ⟨exFs, [], .openOld none⟩ := h0.step (.statFail (by decide))
  have h2 : Run q true (.init exFs) ⟨exFs, [], .readOld none⟩ :=
    h1.step (.openOk (e := .reg ⟨[0x23, 9], 0o644#9⟩) (by decide))
  have h3 : Run q true (.init exFs) ⟨exFs, [], .done .panic⟩ :=
    h2.step (.readOk (f := ⟨[0x23, 9], 0o644#9⟩) (by decide) (by decide))
  exact ⟨_, _, _, h3, rfl⟩

private theorem append_ne (l : Bytes) (x : UInt8) : l ++ [x] ≠ l := by
  intro hh
  have := congrArg List.length hh
  simp at this

/-- A call for 4096 bytes over a longer file. -/
example : ∃ (q : Req) (fs : FS), q.force = true ∧ verdict q fs = .ok ∧
    ∀ b s, Run q b (.init fs) s → s.pc = .done .ok → contentAt s.fs q.path ≠ some q.content := by
  refine ⟨⟨"w".toList, List.replicate 4096 7, 0o644#9, true⟩,
    fun _ => some (.reg ⟨List.replicate 4096 7 ++ [8], 0o644#9⟩), rfl, ?_⟩
  have h := c42_violation_prefix (q := ⟨"w".toList, List.replicate 4096 7, 0o644#9, true⟩)
    (fs := fun _ => some (.reg ⟨List.replicate 4096 7 ++ [8], 0o644#9⟩)) (by decide) rfl
    List.length_replicate rfl
  refine ⟨h.1, fun b s hr hd => ?_⟩
  rw [h.2 b s hr hd]
  exact fun hh => append_ne _ _ (Option.some.inj hh)

end Burl.File
