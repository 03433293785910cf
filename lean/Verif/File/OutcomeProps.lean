import Verif.File.Props
/-! C42: which calls of `WriteFile` succeed, and that every call ends. -/
namespace Burl.File
open Burl

theorem afterRead_end (q : Req) (p : Perm) (data : Bytes) :
    afterRead q (some p) data = .done .ok ∨ afterRead q (some p) data = .done .err ∨
      (∃ p', afterRead q (some p) data = .chmodOld p') ∨ afterRead q (some p) data = .temp := by
  unfold afterRead
  split
  · exact .inr (.inl rfl)
  split
  · exact .inr (.inl rfl)
  split
  · simp only
    split
    · exact .inr (.inr (.inl ⟨_, rfl⟩))
    · exact .inl rfl
  · split
    · exact .inr (.inl rfl)
    · exact .inr (.inr (.inr rfl))

theorem afterRead_force {q : Req} (hf : q.force = true) (p : Perm) (data : Bytes) :
    afterRead q (some p) data ≠ .done .err := by
  unfold afterRead
  simp only [hf, Bool.not_true, Bool.false_and, Bool.false_eq_true, if_false]
  split
  · split <;> nofun
  · nofun

theorem verdict_iff (q : Req) (fs : FS) : verdict q fs = .ok ↔ CanSucceed q fs := by
  unfold CanSucceed
  by_cases hp : q.path = dash
  · have : verdict q fs = .ok := by unfold verdict; rw [if_pos hp]
    exact ⟨fun _ => .inl hp, fun _ => this⟩
  have hp' : q.path ≠ "-".toList := hp
  cases hf : fs q.path with
  | none =>
    have : verdict q fs = .ok := by unfold verdict; rw [if_neg hp, hf]
    simp [this]
  | some e =>
    cases e with
    | dir p =>
      have : verdict q fs = .err := by unfold verdict; rw [if_neg hp, hf]
      rw [this]
      constructor
      · nofun
      · rintro (h | h | ⟨f, h, _⟩)
        · exact absurd h hp'
        · cases h
        · cases h
    | reg f =>
      by_cases hne : f.content = []
      · have : verdict q fs = .err := by
          unfold verdict; rw [if_neg hp, hf]; simp only; rw [if_pos hne]
        rw [this]
        constructor
        · nofun
        · rintro (h | h | ⟨f', h, h', _⟩)
          · exact absurd h hp'
          · cases h
          · cases h
            exact absurd hne h'
      by_cases hforce : q.force = true
      · have : verdict q fs = .ok := by
          rw [verdict_reg hp hf hne]
          rcases afterRead_end q f.perm (f.content.take (bufLen q.content)) with
            h' | h' | ⟨p, h'⟩ | h'
          · rw [h']
          · exact absurd h' (afterRead_force hforce _ _)
          · rw [h']
          · rw [h']
        exact ⟨fun _ => .inr (.inr ⟨f, rfl, hne, .inl hforce⟩), fun _ => this⟩
      have hforce' : q.force = false := Bool.eq_false_iff.mpr hforce
      constructor
      · intro h
        refine .inr (.inr ⟨f, rfl, hne, .inr ?_⟩)
        rw [verdict_reg hp hf hne] at h
        unfold afterRead at h
        simp only [hforce', Bool.not_false, Bool.true_and] at h
        by_cases hl : ((f.content.take (bufLen q.content)).length == bufLen q.content) = true
        · rw [if_pos hl] at h; cases h
        rw [if_neg hl] at h
        by_cases hs : (shebang.isPrefixOf q.content &&
            !shebang.isPrefixOf (f.content.take (bufLen q.content))) = true
        · rw [if_pos hs] at h; cases h
        rw [if_neg hs] at h
        by_cases hd : (f.content.take (bufLen q.content) == q.content) = true
        · have hd' := beq_iff_eq.mp hd
          have hl' : (f.content.take (bufLen q.content)).length ≠ bufLen q.content := by
            simpa using hl
          have hlt : f.content.length < bufLen q.content := by
            rw [List.length_take] at hl'
            omega
          rw [List.take_of_length_le (by omega)] at hd'
          refine ⟨hd', fun h4 => ?_⟩
          have : bufLen q.content = 4096 := by unfold bufLen; rw [if_neg (by omega)]
          rw [hd', h4] at hlt
          omega
        · rw [if_neg hd] at h
          cases h
      · rintro (h | h | ⟨f', h, _, h' | ⟨hc, hl⟩⟩)
        · exact absurd h hp'
        · cases h
        · exact absurd h' hforce
        · cases h
          refine verdict_accepted hp ⟨hf, hne, ?_, fun _ => ?_⟩
          · rw [hc, List.take_of_length_le (Nat.le_of_lt (length_lt_bufLen hl))]
          · rw [hc]
            exact length_lt_bufLen hl

/-- If no system call fails then the call succeeds exactly if the request can be met; otherwise an
error is returned. -/
theorem c42_outcome {q : Req} {fs : FS} {s : St} {r : Outcome} (h : Run q false (.init fs) s)
    (hd : s.pc = .done r) : (CanSucceed q fs → r = .ok) ∧ (¬ CanSucceed q fs → r = .err) := by
  have hv := verdict_run h hd
  refine ⟨fun hc => hv.trans ((verdict_iff q fs).mpr hc), fun hc => ?_⟩
  have hnot : r ≠ .ok := fun hr => hc ((verdict_iff q fs).mp (hv ▸ hr))
  have hpanic : r ≠ .panic := fun hr => c40_no_panic h (hr ▸ hd)
  cases r with
  | ok => exact absurd rfl hnot
  | err => rfl
  | panic => exact absurd rfl hpanic
  | errLeft =>
    exfalso
    unfold verdict at hv
    split at hv
    · cases hv
    · split at hv
      · cases hv
      · cases hv
      · split at hv
        · cases hv
        · rename_i f _ _
          rcases afterRead_end q f.perm (f.content.take (bufLen q.content)) with h' | h' | ⟨p, h'⟩ | h' <;>
            rw [h'] at hv <;> cases hv

/-- Steps that are left at most. -/
def work (q : Req) : Pc → Nat
  | .start => q.content.length + 8
  | .openOld _ => q.content.length + 7
  | .readOld _ => q.content.length + 6
  | .temp => q.content.length + 5
  | .chmodTemp _ => q.content.length + 4
  | .writeTemp _ k => (q.content.length - k) + 3
  | .rename _ => 2
  | .remove _ => 1
  | .chmodOld _ => 1
  | .done _ => 0

theorem work_step {q : Req} {b : Bool} {s s' : St} (h : Step q b s s') :
    work q s'.pc < work q s.pc := by
  cases h
  case readOk st f hf hne =>
    show work q (afterRead q st _) < _
    rcases afterRead_cases q st (f.content.take (bufLen q.content)) with
      ⟨r, hr⟩ | ⟨p, hr⟩ | hr <;> rw [hr] <;> simp only [work] <;> omega
  all_goals simp only [work]
  all_goals omega

theorem calls_work {q : Req} {n : Nat} {s s' : St} (h : Calls q n s s') :
    n + work q s'.pc ≤ work q s.pc := by
  induction h with
  | none => omega
  | more _ hs ih =>
    have := work_step hs
    omega

/-- A call ends: whatever fails, there are at most eight system calls and one for each portion of
the content that is written. -/
theorem c42_ends {q : Req} {fs : FS} {n : Nat} {s : St} (h : Calls q n (.init fs) s) :
    n ≤ q.content.length + 8 := by
  have := calls_work h
  simp only [St.init, work] at this
  omega

/-- And it does not stop before: unless it has returned, a further system call is made. -/
theorem c42_goes_on {q : Req} {s : St} (hn : ∀ r, s.pc ≠ .done r) : ∃ s' b, Step q b s s' := by
  obtain ⟨f', out, pc⟩ := s
  cases pc with
  | done r => exact absurd rfl (hn r)
  | start =>
    by_cases hp : q.path = dash
    · exact ⟨_, _, .stdoutOk hp⟩
    · exact ⟨_, _, .statFail hp⟩
  | openOld st => exact ⟨_, _, .openFail⟩
  | readOld st => exact ⟨_, _, .readFail⟩
  | chmodOld p => exact ⟨_, _, .chmodFail⟩
  | temp => exact ⟨_, _, .tempFail⟩
  | chmodTemp t => exact ⟨_, _, .chmodTempFail⟩
  | writeTemp t k => exact ⟨_, _, .writeFail⟩
  | rename t => exact ⟨_, _, .renameFail⟩
  | remove t => exact ⟨_, _, .removeFail⟩

/-- A request that can be met is met if nothing fails: there is such a run, provided that there is
a free name for the temporary file. -/
theorem c42_succeeds {q : Req} {fs : FS} (hc : CanSucceed q fs) {tmp : Str} (ht : tmp ≠ q.path)
    (hm : fs tmp = none) : ∃ s, Run q false (.init fs) s ∧ s.pc = .done .ok := by
  obtain ⟨s, h, hd⟩ := verdict_exists q fs ht hm
  exact ⟨s, h, by rw [hd, (verdict_iff q fs).mpr hc]⟩

theorem accepted_iff {q : Req} {f : Reg} :
    f.content ≠ [] ∧ f.content.take (bufLen q.content) = q.content ↔ TakenFor q f := by
  unfold TakenFor
  refine and_congr_right fun _ => ⟨fun h => ?_, fun h => ?_⟩
  · by_cases hl : q.content.length = 4096
    · exact .inr ⟨hl, h ▸ List.take_prefix _ _⟩
    · exact .inl (take_eq_of_short h (length_lt_bufLen hl))
  · rcases h with h | ⟨hl, t, ht⟩
    · rw [h, List.take_of_length_le]
      unfold bufLen
      split <;> omega
    · have hb : bufLen q.content = q.content.length := by unfold bufLen; rw [if_neg (by omega), hl]
      rw [hb, ← ht, List.take_left]

theorem mended (mode old : Perm) :
    Mended mode old (if needsChmod mode old then old ||| 0o500#9 else old) := by
  have key : ∀ m : Perm, (m &&& 0o500#9 == 0) = (!(ownerRead m || ownerExec m)) := by decide +kernel
  unfold needsChmod bne
  rw [key, key]
  by_cases h : (ownerRead mode = true ∨ ownerExec mode = true) ∧ ownerRead old = false ∧
      ownerExec old = false
  · obtain ⟨h1, h2, h3⟩ := h
    refine .inl ⟨h1, h2, h3, ?_⟩
    rw [if_pos (by rcases h1 with h | h <;> simp [h, h2, h3])]
    refine ⟨(owner_of_0500 old).1, (owner_of_0500 old).2, fun i h8 h6 => ?_⟩
    have hz : ∀ i, i ≠ 8 → i ≠ 6 → (0o500#9).getLsbD i = false := by
      intro i h8 h6
      by_cases hi : i < 9
      · have : ∀ j : Fin 9, j.val ≠ 8 → j.val ≠ 6 → (0o500#9).getLsbD j.val = false := by decide
        exact this ⟨i, hi⟩ h8 h6
      · exact BitVec.getLsbD_of_ge _ _ (by omega)
    rw [BitVec.getLsbD_or, hz i h8 h6, Bool.or_false]
  · refine .inr ⟨h, if_neg fun hc => h ?_⟩
    simpa [Bool.and_eq_true] using hc

/-- **C42, C43.** What the file system is after a successful call, whatever it was: a file that is
taken for the requested one is kept, with permissions mended if need be; otherwise the path names a
file with the requested content and permissions.  Nothing else is changed. -/
theorem c42_exact {q : Req} {fs : FS} {b : Bool} {s : St} (hp : q.path ≠ "-".toList)
    (h : Run q b (.init fs) s) (hd : s.pc = .done .ok) :
    (∀ p, p ≠ q.path → s.fs p = fs p) ∧
    ((∃ f perm, fs q.path = some (.reg f) ∧ TakenFor q f ∧ Mended q.mode f.perm perm ∧
        s.fs q.path = some (.reg ⟨f.content, perm⟩)) ∨
      ((∀ f, fs q.path = some (.reg f) → ¬TakenFor q f) ∧
        s.fs q.path = some (.reg ⟨q.content, q.mode⟩))) := by
  have hi := inv_run h
  obtain ⟨sfs, out, pc⟩ := s
  simp only at hd
  subst hd
  rcases hi with ⟨h1, _⟩ | ⟨_, _, ⟨hm, hfs⟩ | ⟨f, ⟨hf1, hf0, hf2, _⟩, hfs⟩⟩
  · exact absurd h1 hp
  · simp only at hfs
    subst hfs
    refine ⟨fun p hpp => FS.set_other _ _ hpp, .inr ⟨fun f hf ht => ?_, FS.set_same _ _ _⟩⟩
    rcases hm with h1 | ⟨_, f', h1, h2⟩
    · rw [h1] at hf; cases hf
    · rw [hf] at h1
      cases h1
      exact h2 (accepted_iff.mpr ht).2
  · simp only at hfs
    subst hfs
    refine ⟨fun p hpp => FS.set_other _ _ hpp,
      .inl ⟨f, _, hf1, accepted_iff.mp ⟨hf0, hf2⟩, mended _ _, FS.set_same _ _ _⟩⟩

/-- **C42.** A call that returns nil has left the requested content at the path exactly if no longer
file was taken for the requested one. -/
theorem c42_content {q : Req} {fs : FS} {b : Bool} {s : St} (hp : q.path ≠ "-".toList)
    (h : Run q b (.init fs) s) (hd : s.pc = .done .ok) :
    contentAt s.fs q.path = some q.content ↔
      ∀ c, contentAt fs q.path = some c → q.content.length = 4096 → q.content <+: c →
        c = q.content := by
  have hc : ∀ {g : FS} {f : Reg}, g q.path = some (.reg f) → contentAt g q.path = some f.content :=
    fun h => by simp [contentAt, h]
  rcases (c42_exact hp h hd).2 with ⟨f, perm, hf, ⟨hne, ht⟩, _, hs⟩ | ⟨hn, hs⟩
  · rw [hc hs, hc hf]
    constructor
    · intro he c hcc _ _
      cases hcc
      exact Option.some.inj he
    · intro hall
      rcases ht with ht | ⟨hl, hpre⟩
      · exact congrArg some ht
      · exact congrArg some (hall _ rfl hl hpre)
  · rw [hc hs]
    refine ⟨fun _ c hcc hl hpre => ?_, fun _ => rfl⟩
    exfalso
    cases hf : fs q.path with
    | none => simp [contentAt, hf] at hcc
    | some e =>
      cases e with
      | dir p => simp [contentAt, hf] at hcc
      | reg f =>
        rw [hc hf] at hcc
        cases hcc
        refine hn f hf ⟨fun h0 => ?_, .inr ⟨hl, hpre⟩⟩
        have := hpre.length_le
        rw [h0] at this
        simp at this
        simp [this] at hl

/-- **C43.** After a successful call for a program its owner can read and execute it exactly if no
file that may only be read or only be executed was taken for the requested one. -/
theorem c43_exact {q : Req} {fs : FS} {b : Bool} {s : St} {perm : Perm}
    (hp : q.path ≠ "-".toList) (hr : ownerRead q.mode = true) (hx : ownerExec q.mode = true)
    (h : Run q b (.init fs) s) (hd : s.pc = .done .ok) (hperm : permAt s.fs q.path = some perm) :
    (ownerRead perm = true ∧ ownerExec perm = true) ↔
      ∀ f, fs q.path = some (.reg f) → TakenFor q f → ownerRead f.perm = ownerExec f.perm := by
  rcases (c42_exact hp h hd).2 with ⟨f, perm', hf, ht, hm, hs⟩ | ⟨hn, hs⟩
  · have hpe : perm' = perm := by simpa [permAt, hs] using hperm
    subst hpe
    rcases hm with ⟨_, h1, h2, h3, h4, _⟩ | ⟨hno, rfl⟩
    · refine ⟨fun _ f' hf' _ => ?_, fun _ => ⟨h3, h4⟩⟩
      rw [hf] at hf'
      cases hf'
      rw [h1, h2]
    · constructor
      · rintro ⟨h1, h2⟩ f' hf' _
        rw [hf] at hf'
        cases hf'
        rw [h1, h2]
      · intro hall
        have he := hall f hf ht
        cases hb : ownerRead f.perm with
        | true => exact ⟨rfl, by rw [← he, hb]⟩
        | false => exact absurd ⟨.inl hr, hb, by rw [← he, hb]⟩ hno
  · have hpe : q.mode = perm := by simpa [permAt, hs] using hperm
    subst hpe
    exact ⟨fun _ f hf ht => absurd ht (hn f hf), fun _ => ⟨hr, hx⟩⟩

/-- A script that may only be read is taken for the requested program. -/
example : TakenFor ⟨"w".toList, [1], 0o755#9, true⟩ ⟨[1], 0o644#9⟩ ∧
    Mended 0o755#9 0o644#9 0o644#9 ∧ ¬ Mended 0o755#9 0o644#9 0o744#9 := by
  refine ⟨⟨by decide, .inl rfl⟩, .inr ⟨by decide, rfl⟩, ?_⟩
  rintro (⟨_, h, _⟩ | ⟨_, h⟩)
  · revert h; decide
  · revert h; decide

/-- A file is replaced if this is allowed. -/
example : CanSucceed ⟨"w".toList, [1], 0o755#9, true⟩
    (fun p => if p = "w".toList then some (.reg ⟨[2], 0o644#9⟩) else none) :=
  .inr (.inr ⟨⟨[2], 0o644#9⟩, by decide, by decide, .inl rfl⟩)

/-- It is not replaced otherwise. -/
example : ¬ CanSucceed ⟨"w".toList, [1], 0o755#9, false⟩
    (fun p => if p = "w".toList then some (.reg ⟨[2], 0o644#9⟩) else none) := by
  rintro (h | h | ⟨f, h, _, h' | ⟨h', _⟩⟩)
  · revert h; decide
  · revert h; decide
  · cases h'
  · obtain rfl : (⟨[2], 0o644#9⟩ : Reg) = f := by simpa using h
    revert h'
    decide

end Burl.File
