import Verif.Emacs.Model
/-! C34, C35 and C36: what the editor is asked to do. -/
namespace Burl.Emacs
open Burl.Emacs.Spec

/-! ### Auxiliary facts -/

/-- Every call of a program satisfies `P`, whatever the outcomes are. -/
def Prog.Calls {α} (P : List Str → Prop) : Prog α → Prop
  | .ret _ => True
  | .exec args k => P args ∧ ∀ o, (k o).Calls P

theorem Prog.Calls.bind {α β} {P : List Str → Prop} {p : Prog α} {f : α → Prog β}
    (hp : p.Calls P) (hf : ∀ a, (f a).Calls P) : (p.bind f).Calls P := by
  induction p with
  | ret a => exact hf a
  | exec args k ih => exact ⟨hp.1, fun o => ih o (hp.2 o)⟩

theorem Prog.run_bind {α β} (ed : Editor) (cfg : Config) (p : Prog α) (f : α → Prog β)
    (w : List Proc) :
    (p.bind f).run ed cfg w = (f (p.run ed cfg w).1).run ed cfg (p.run ed cfg w).2 := by
  induction p generalizing w with
  | ret a => rfl
  | exec args k ih => exact ih _ _

theorem Prog.run_calls {α} {P : List Str → Prop} (ed : Editor) (cfg : Config) {p : Prog α}
    (hp : p.Calls P) (w : List Proc) :
    ∃ ps, (p.run ed cfg w).2 = w ++ ps ∧ ∀ q ∈ ps, q.command = cfg.command ∧
      ∃ rest, q.args = cfg.userArgs ++ Args ++ rest ∧ P rest := by
  induction p generalizing w with
  | ret a => exact ⟨[], by simp [Prog.run], by simp⟩
  | exec args k ih =>
    obtain ⟨ps, h1, h2⟩ := ih (ed w ⟨cfg.command, (cfg.userArgs ++ Args) ++ args⟩) (hp.2 _)
      (w ++ [⟨cfg.command, (cfg.userArgs ++ Args) ++ args⟩])
    refine ⟨_ :: ps, by rw [Prog.run, h1, List.append_assoc]; rfl, ?_⟩
    intro q hq
    rcases List.mem_cons.mp hq with rfl | hq
    · exact ⟨rfl, args, rfl, hp.1⟩
    · exact h2 q hq

/-- The process started for a call. -/
def proc (cfg : Config) (args : List Str) : Proc := ⟨cfg.command, (cfg.userArgs ++ Args) ++ args⟩

theorem judge_ok {o : Outcome} {out : Bytes} (h : judge o = .ok out) :
    o.status = .success ∧ out = o.out := by
  unfold judge at h
  split at h
  · rename_i hs
    exact ⟨hs, (Except.ok.inj h).symm⟩
  · split at h <;> cases h
  · cases h

theorem judge_success {o : Outcome} (h : o.status = .success) : judge o = .ok o.out := by
  unfold judge
  rw [h]

theorem judge_error {o : Outcome} {e : Err} (h : judge o = .error e) : o.status ≠ .success := by
  intro hs
  rw [judge_success hs] at h
  cases h

theorem judge_server {o : Outcome} {e : Err} (h : judge o = .error e) :
    e.isServerNotFound = true ↔ o.status = .exited 9 := by
  unfold judge at h
  split at h
  · cases h
  · rename_i code hs
    by_cases h9 : code = 9
    · subst h9
      rw [if_pos (beq_self_eq_true 9)] at h
      rw [← Except.error.inj h]
      exact ⟨fun _ => hs, fun _ => rfl⟩
    · rw [if_neg (by simpa using h9)] at h
      rw [← Except.error.inj h]
      constructor
      · intro hh; cases hh
      · intro hh
        rw [hs] at hh
        injection hh with hh
        exact absurd hh h9
  · rename_i hs
    rw [← Except.error.inj h]
    constructor
    · intro hh; cases hh
    · intro hh
      rw [hs] at hh
      cases hh

theorem run_execEmacs (ed : Editor) (cfg : Config) (args : List Str) (w : List Proc) :
    (execEmacs args).run ed cfg w = (judge (ed w (proc cfg args)), w ++ [proc cfg args]) := rfl

theorem run_ensureFrame (ed : Editor) (cfg : Config) (w : List Proc) :
    ensureFrame.run ed cfg w =
      ((match judge (ed w (proc cfg ["--eval".toList, EnsureFrameLisp])) with
        | .error e => .error (.wrap e)
        | .ok _ => .ok ()), w ++ [proc cfg ["--eval".toList, EnsureFrameLisp]]) := by
  unfold ensureFrame
  rw [Prog.run_bind, run_execEmacs]
  cases judge (ed w (proc cfg ["--eval".toList, EnsureFrameLisp])) <;> rfl

theorem run_check (ed : Editor) (cfg : Config) (w : List Proc) :
    checkOrgProtocol.run ed cfg w =
      ((match judge (ed w (proc cfg ["--eval".toList, CheckOrgProtocolLisp])) with
        | .error e => .error (.wrap e)
        | .ok out => if (bytesOf "org-protocol".toList).isPrefixOf out then .ok ()
            else .error .notLoaded), w ++ [proc cfg ["--eval".toList, CheckOrgProtocolLisp]]) := by
  unfold checkOrgProtocol
  rw [Prog.run_bind, run_execEmacs]
  rcases judge (ed w (proc cfg ["--eval".toList, CheckOrgProtocolLisp])) with e | out
  · rfl
  · simp only
    split <;> rfl

theorem calls_exec {P : List Str → Prop} {args : List Str} (h : P args) :
    (execEmacs args).Calls P := ⟨h, fun _ => trivial⟩

theorem calls_ensureFrame {P : List Str → Prop} (h : P ["--eval".toList, frameLisp]) :
    ensureFrame.Calls P :=
  (calls_exec h).bind fun a => by cases a <;> trivial

theorem calls_check {P : List Str → Prop} (h : P ["--eval".toList, checkLisp]) :
    checkOrgProtocol.Calls P :=
  (calls_exec h).bind fun a => by
    cases a with
    | error e => trivial
    | ok out => simp only; split <;> trivial

theorem calls_visitFile (files : List Str) {path : Str} (lineNo : Int) (hp : path ∈ files) :
    (visitFile path lineNo).Calls (Allowed files) := by
  refine (calls_ensureFrame .frame).bind fun a => ?_
  cases a with
  | error e => trivial
  | ok _ =>
    refine (calls_exec ?_).bind fun a => by cases a <;> trivial
    by_cases hl : lineNo > 0
    · obtain ⟨n, rfl⟩ := Int.eq_ofNat_of_zero_le (by omega : 0 ≤ lineNo)
      rw [if_pos hl]
      exact .line n (by omega) hp
    · rw [if_neg hl]
      exact .file hp

theorem calls_orgProtocol (files : List Str) (uri : Str) :
    (orgProtocol uri).Calls (Allowed files) := by
  unfold orgProtocol
  split
  · trivial
  · rename_i h
    refine (calls_check .check).bind fun a => ?_
    cases a with
    | error e => trivial
    | ok _ =>
      refine (calls_ensureFrame .frame).bind fun a => ?_
      cases a with
      | error e => trivial
      | ok _ =>
        refine (calls_exec ?_).bind fun a => by cases a <;> trivial
        obtain ⟨rest, rfl⟩ := List.isPrefixOf_iff_prefix.mp (Decidable.not_not.mp h)
        exact .uri rest

/-- Whatever a request is and whatever the editor does, only allowed arguments are added. -/
theorem calls_serve (files : List Str) (r : Request) : (serve files r).Calls (Allowed files) := by
  cases r with
  | capture q =>
    refine Prog.Calls.bind ?_ fun a => trivial
    unfold capture
    split
    · trivial
    · split
      · trivial
      · exact (calls_orgProtocol files q.url).bind fun a => by cases a <;> trivial
  | visit q =>
    refine Prog.Calls.bind ?_ fun a => trivial
    unfold visit
    simp only
    split
    · trivial
    · rename_i h
      have hm : q.filePath ∈ files := by
        obtain ⟨x, hx, he⟩ := List.any_eq_true.mp (Decidable.not_not.mp h)
        exact (beq_iff_eq.mp he) ▸ hx
      exact (calls_visitFile files q.lineNo hm).bind fun a => by cases a <;> trivial
  | other => trivial

/-! ### C34 -/

/-- A request to visit a file that is not configured is refused and no process is started. -/
theorem c34_refused (ed : Editor) (cfg : Config) (files : List Str) (q : Location)
    (w : List Proc) (h : q.filePath ∉ files) :
    ∃ e, (visit files q).run ed cfg w = (.error e, w) := by
  refine ⟨.prohibited, ?_⟩
  have : (files.any fun name => q.filePath == name) = false := by
    rw [Bool.eq_false_iff]
    intro ha
    obtain ⟨x, hx, he⟩ := List.any_eq_true.mp ha
    exact h ((beq_iff_eq.mp he) ▸ hx)
  simp [visit, this, Prog.run]

/-- A process is started for a visit only if the path is configured, and the only path passed to
the editor is the requested one: processes are the preparation of a frame and the request to open
the file at the requested line. -/
theorem c34_visit (ed : Editor) (cfg : Config) (files : List Str) (q : Location)
    (p : Proc) (h : p ∈ ((visit files q).run ed cfg []).2) :
    q.filePath ∈ files ∧
    (p = ⟨cfg.command, cfg.userArgs ++ fixedArgs ++ ["--eval".toList, frameLisp]⟩ ∨
     (q.lineNo ≤ 0 ∧
      p = ⟨cfg.command, cfg.userArgs ++ fixedArgs ++ ["--no-wait".toList, q.filePath]⟩) ∨
     (∃ n : Nat, 0 < n ∧ q.lineNo = n ∧ p = ⟨cfg.command,
        cfg.userArgs ++ fixedArgs ++ ["--no-wait".toList, '+' :: decimal n, q.filePath]⟩)) := by
  by_cases hm : q.filePath ∈ files
  · refine ⟨hm, ?_⟩
    have hc : (visit files q).Calls fun args =>
        args = ["--eval".toList, frameLisp] ∨
        (q.lineNo ≤ 0 ∧ args = ["--no-wait".toList, q.filePath]) ∨
        (∃ n : Nat, 0 < n ∧ q.lineNo = n ∧
          args = ["--no-wait".toList, '+' :: decimal n, q.filePath]) := by
      unfold visit
      simp only
      split
      · trivial
      · refine Prog.Calls.bind ?_ fun a => by cases a <;> trivial
        refine (calls_ensureFrame (.inl rfl)).bind fun a => ?_
        cases a with
        | error e => trivial
        | ok _ =>
          refine (calls_exec ?_).bind fun a => by cases a <;> trivial
          by_cases hl : q.lineNo > 0
          · obtain ⟨n, hn⟩ := Int.eq_ofNat_of_zero_le (by omega : 0 ≤ q.lineNo)
            rw [if_pos hl]
            refine .inr (.inr ⟨n, by omega, hn, ?_⟩)
            rw [hn]
            rfl
          · rw [if_neg hl]
            exact .inr (.inl ⟨by omega, rfl⟩)
    obtain ⟨ps, h1, h2⟩ := Prog.run_calls ed cfg hc []
    rw [h1] at h
    obtain ⟨hcmd, rest, hargs, hr⟩ := h2 p (by simpa using h)
    have hp : ∀ x, rest = x → p = ⟨cfg.command, cfg.userArgs ++ fixedArgs ++ x⟩ := by
      intro x hx
      subst hx
      cases p
      simp_all [Args, fixedArgs]
    rcases hr with hr | ⟨hl, hr⟩ | ⟨n, h0, hl, hr⟩
    · exact .inl (hp _ hr)
    · exact .inr (.inl ⟨hl, hp _ hr⟩)
    · exact .inr (.inr ⟨n, h0, hl, hp _ hr⟩)
  · obtain ⟨e, he⟩ := c34_refused ed cfg files q [] hm
    rw [he] at h
    cases h

/-- Success of a visit means that the editor has been asked to open the file and agreed. -/
theorem c34_success (ed : Editor) (cfg : Config) (files : List Str) (q : Location)
    (w w' : List Proc) (b : Bool) (h : (visit files q).run ed cfg w = (.ok b, w')) :
    b = true ∧ q.filePath ∈ files ∧ ∃ frame p : Proc, w' = w ++ [frame, p] ∧
      p.args.getLast? = some q.filePath ∧
      (ed w frame).status = .success ∧ (ed (w ++ [frame]) p).status = .success := by
  by_cases hm : q.filePath ∈ files
  · have ha : (files.any fun name => q.filePath == name) = true :=
      List.any_eq_true.mpr ⟨_, hm, beq_self_eq_true _⟩
    unfold visit visitFile at h
    simp only [ha, not_true_eq_false, if_false, Prog.run_bind, run_ensureFrame] at h
    generalize hx : ((if q.lineNo > 0 then ["--no-wait".toList] ++ ['+' :: formatD q.lineNo]
        else ["--no-wait".toList]) ++ [q.filePath]) = extra at h
    rcases hj : judge (ed w (proc cfg ["--eval".toList, EnsureFrameLisp])) with e | out
    · rw [hj] at h
      simp [Prog.run] at h
    · rw [hj] at h
      simp only [Prog.run_bind, run_execEmacs] at h
      rcases hj2 : judge (ed (w ++ [proc cfg ["--eval".toList, EnsureFrameLisp]])
        (proc cfg extra)) with e | out2
      · rw [hj2] at h
        simp [Prog.run] at h
      · rw [hj2] at h
        simp only [Prog.run, Prod.mk.injEq, Except.ok.injEq] at h
        refine ⟨h.1.symm, hm, _, proc cfg extra, by rw [← h.2, List.append_assoc]; rfl, ?_,
          (judge_ok hj).1, (judge_ok hj2).1⟩
        rw [← hx]
        show ((cfg.userArgs ++ Args) ++ (_ ++ [q.filePath])).getLast? = _
        rw [← List.append_assoc, List.getLast?_concat]
  · obtain ⟨e, he⟩ := c34_refused ed cfg files q w hm
    rw [he] at h
    simp at h

theorem visitProcs_eq (cfg : Config) (q : Location) :
    visitProcs cfg.command cfg.userArgs q.filePath q.lineNo =
      [proc cfg ["--eval".toList, EnsureFrameLisp],
       proc cfg ((if q.lineNo > 0 then ["--no-wait".toList] ++ ['+' :: formatD q.lineNo]
        else ["--no-wait".toList]) ++ [q.filePath])] := by
  unfold visitProcs proc
  congr 2
  · congr 1
    by_cases h : 0 < q.lineNo
    · have hd : decimal q.lineNo.toNat = formatD q.lineNo := by
        obtain ⟨n, hn⟩ := Int.eq_ofNat_of_zero_le (by omega : 0 ≤ q.lineNo)
        rw [hn]; rfl
      simp [h, hd, Args, fixedArgs]
    · simp [h, Args, fixedArgs]

/-- The outcome of a visit of a configured file, step by step. -/
theorem visit_cases (ed : Editor) (cfg : Config) (files : List Str) (q : Location)
    (w : List Proc) (hm : q.filePath ∈ files) (p1 p2 : Proc)
    (hp : visitProcs cfg.command cfg.userArgs q.filePath q.lineNo = [p1, p2]) :
    (∃ e, judge (ed w p1) = .error e ∧
      (visit files q).run ed cfg w = (.error (.wrap (.wrap e)), w ++ [p1])) ∨
    (∃ out, judge (ed w p1) = .ok out ∧
      ((∃ e, judge (ed (w ++ [p1]) p2) = .error e ∧
          (visit files q).run ed cfg w = (.error (.wrap (.wrap e)), w ++ [p1, p2])) ∨
       (∃ out2, judge (ed (w ++ [p1]) p2) = .ok out2 ∧
          (visit files q).run ed cfg w = (.ok true, w ++ [p1, p2])))) := by
  have ha : (files.any fun name => q.filePath == name) = true :=
    List.any_eq_true.mpr ⟨_, hm, beq_self_eq_true _⟩
  rw [visitProcs_eq] at hp
  injection hp with h1 hp
  injection hp with h2 _
  unfold visit visitFile
  simp only [ha, not_true_eq_false, if_false, Prog.run_bind, run_ensureFrame, h1]
  rcases hj : judge (ed w p1) with e | out
  · exact .inl ⟨e, rfl, rfl⟩
  · refine .inr ⟨out, rfl, ?_⟩
    simp only [Prog.run_bind, run_execEmacs, h2]
    rcases hj2 : judge (ed (w ++ [p1]) p2) with e | out2
    · exact .inl ⟨e, rfl, by simp [Prog.run]⟩
    · exact .inr ⟨out2, rfl, by simp [Prog.run]⟩

/-- A visit is answered by success exactly if the file is configured and both the preparation of a
frame and the request to open the file at the line succeeded; then these are the processes that
have been started. -/
theorem c34_exact (ed : Editor) (cfg : Config) (files : List Str) (q : Location)
    (w w' : List Proc) (b : Bool) :
    (visit files q).run ed cfg w = (.ok b, w') ↔
    (b = true ∧ q.filePath ∈ files ∧
      let ps := visitProcs cfg.command cfg.userArgs q.filePath q.lineNo
      w' = w ++ ps ∧ Succeeds ed w ps 0 ∧ Succeeds ed w ps 1) := by
  by_cases hm : q.filePath ∈ files
  rotate_left
  · obtain ⟨e, he⟩ := c34_refused ed cfg files q w hm
    rw [he]
    simp [hm]
  obtain ⟨p1, p2, hp⟩ : ∃ p1 p2,
      visitProcs cfg.command cfg.userArgs q.filePath q.lineNo = [p1, p2] := ⟨_, _, rfl⟩
  have key := visit_cases ed cfg files q w hm p1 p2 hp
  simp only [hm, true_and, hp, Succeeds, List.getElem?_cons_zero,
    List.getElem?_cons_succ, Option.some.injEq, exists_eq_left', List.take_zero, List.append_nil,
    List.take_succ_cons]
  rcases key with ⟨e, hj, hr⟩ | ⟨out, hj, ⟨e, hj2, hr⟩ | ⟨out2, hj2, hr⟩⟩ <;> rw [hr]
  · have := judge_error hj
    simp [this]
  · have := judge_error hj2
    simp [this]
  · have s1 := (judge_ok hj).1
    have s2 := (judge_ok hj2).1
    simp only [Prod.mk.injEq, Except.ok.injEq, s1, s2, and_true]
    exact ⟨fun h => ⟨h.1.symm, h.2.symm⟩, fun h => ⟨h.1.symm, h.2.symm⟩⟩

/-- A failure of a visit is reported: either the file is not configured and nothing has been
started, or the last of the processes that have been started failed; the error is the
distinguished one exactly if it exited with code 9. -/
theorem c34_failure (ed : Editor) (cfg : Config) (files : List Str) (q : Location)
    (w w' : List Proc) (e : Err) (h : (visit files q).run ed cfg w = (.error e, w')) :
    (q.filePath ∉ files ∧ w' = w ∧ e.isServerNotFound = false) ∨
    (q.filePath ∈ files ∧
      ∃ k p, let ps := visitProcs cfg.command cfg.userArgs q.filePath q.lineNo
      w' = w ++ ps.take (k + 1) ∧ ps[k]? = some p ∧
      (∀ i < k, Succeeds ed w ps i) ∧ ¬ Succeeds ed w ps k ∧
      (e.isServerNotFound = true ↔ (ed (w ++ ps.take k) p).status = .exited 9)) := by
  by_cases hm : q.filePath ∈ files
  rotate_left
  · left
    have : (files.any fun name => q.filePath == name) = false := by
      rw [Bool.eq_false_iff]
      intro ha
      obtain ⟨x, hx, he⟩ := List.any_eq_true.mp ha
      exact hm ((beq_iff_eq.mp he) ▸ hx)
    simp only [visit, this, Prog.run, Bool.false_eq_true, not_false_eq_true, if_true,
      Prod.mk.injEq, Except.error.injEq] at h
    exact ⟨hm, h.2.symm, h.1 ▸ rfl⟩
  refine .inr ⟨hm, ?_⟩
  obtain ⟨p1, p2, hp⟩ : ∃ p1 p2,
      visitProcs cfg.command cfg.userArgs q.filePath q.lineNo = [p1, p2] := ⟨_, _, rfl⟩
  have key := visit_cases ed cfg files q w hm p1 p2 hp
  simp only [hp]
  rw [h] at key
  rcases key with ⟨e', hj, hr⟩ | ⟨out, hj, ⟨e', hj2, hr⟩ | ⟨out2, hj2, hr⟩⟩
  · refine ⟨0, p1, congrArg Prod.snd hr, rfl, fun i hi => absurd hi (by omega), ?_, ?_⟩
    · rintro ⟨p, hp, hs⟩
      injection hp with hp
      subst hp
      rw [List.take_zero, List.append_nil] at hs
      exact judge_error hj hs
    · rw [Except.error.inj (congrArg Prod.fst hr), List.take_zero, List.append_nil]
      exact (judge_server hj : e'.isServerNotFound = true ↔ _)
  · refine ⟨1, p2, congrArg Prod.snd hr, rfl, ?_, ?_, ?_⟩
    · intro i hi
      obtain rfl : i = 0 := by omega
      exact ⟨p1, rfl, by rw [List.take_zero, List.append_nil]; exact (judge_ok hj).1⟩
    · rintro ⟨p, hp, hs⟩
      injection hp with hp
      subst hp
      exact judge_error hj2 hs
    · rw [Except.error.inj (congrArg Prod.fst hr)]
      exact (judge_server hj2 : e'.isServerNotFound = true ↔ _)
  · cases hr

/-- Both cases occur: the configured file is opened, another one is not. -/
example :
    ((visit ["/notes.org".toList] ⟨"/notes.org".toList, 3⟩).run (fun _ _ => ⟨[], .success⟩)
        ⟨"emacsclient".toList, []⟩ []).2
        = [⟨"emacsclient".toList, fixedArgs ++ ["--eval".toList, frameLisp]⟩,
           ⟨"emacsclient".toList, fixedArgs ++ ["--no-wait".toList, "+3".toList,
             "/notes.org".toList]⟩] ∧
    ((visit ["/notes.org".toList] ⟨"/etc/passwd".toList, 3⟩).run (fun _ _ => ⟨[], .success⟩)
        ⟨"emacsclient".toList, []⟩ []).2 = [] := by
  constructor <;> decide +kernel

/-! ### C35 -/

/-- Every process started for any sequence of requests, whatever the editor answers, is the
configured command with the configured arguments, the two fixed ones and one of the allowed
continuations. -/
theorem c35_processes (ed : Editor) (cfg : Config) (files : List Str) (rs : List Request)
    (p : Proc) (h : p ∈ (serveAll ed cfg files rs []).2) :
    p.command = cfg.command ∧
    ∃ rest, p.args = cfg.userArgs ++ fixedArgs ++ rest ∧ Allowed files rest := by
  have main : ∀ (rs : List Request) (w : List Proc),
      ∃ ps, (serveAll ed cfg files rs w).2 = w ++ ps ∧ ∀ q ∈ ps, q.command = cfg.command ∧
        ∃ rest, q.args = cfg.userArgs ++ Args ++ rest ∧ Allowed files rest := by
    intro rs
    induction rs with
    | nil => intro w; exact ⟨[], by simp [serveAll], by simp⟩
    | cons r rs ih =>
      intro w
      obtain ⟨ps, h1, h2⟩ := Prog.run_calls ed cfg (calls_serve files r) w
      obtain ⟨qs, h3, h4⟩ := ih ((serve files r).run ed cfg w).2
      refine ⟨ps ++ qs, ?_, ?_⟩
      · show (serveAll ed cfg files rs ((serve files r).run ed cfg w).2).2 = _
        rw [h3, h1, List.append_assoc]
      · intro q hq
        rcases List.mem_append.mp hq with hq | hq
        · exact h2 q hq
        · exact h4 q hq
  obtain ⟨ps, h1, h2⟩ := main rs []
  rw [h1] at h
  exact h2 p (by simpa using h)

/-- In particular nothing that begins with a hyphen comes from a client. -/
theorem c35_no_options (files : List Str) (rest : List Str) (h : Allowed files rest) (a : Str)
    (ha : a ∈ rest) (hh : a.head? = some '-') :
    a = "--eval".toList ∨ a = "--no-wait".toList ∨ a ∈ files := by
  cases h with
  | check =>
    rcases List.mem_cons.mp ha with rfl | ha
    · exact .inl rfl
    · rw [List.mem_singleton.mp ha] at hh
      exact absurd hh (by decide +kernel)
  | frame =>
    rcases List.mem_cons.mp ha with rfl | ha
    · exact .inl rfl
    · rw [List.mem_singleton.mp ha] at hh
      exact absurd hh (by decide +kernel)
  | uri r =>
    rw [List.mem_singleton.mp ha] at hh
    cases hh
  | file hp =>
    rcases List.mem_cons.mp ha with rfl | ha
    · exact .inr (.inl rfl)
    · rw [List.mem_singleton.mp ha]
      exact .inr (.inr hp)
  | line n h0 hp =>
    rcases List.mem_cons.mp ha with rfl | ha
    · exact .inr (.inl rfl)
    · rcases List.mem_cons.mp ha with rfl | ha
      · cases hh
      · rw [List.mem_singleton.mp ha]
        exact .inr (.inr hp)

/-- Lisp code is never chosen by a client: an argument after `--eval` is one of two texts. -/
theorem c35_lisp (files : List Str) (code : Str) (tail : List Str)
    (h : Allowed files ("--eval".toList :: code :: tail)) :
    (code = checkLisp ∨ code = frameLisp) ∧ tail = [] := by
  generalize hx : "--eval".toList :: code :: tail = x at h
  cases h with
  | check => injection hx with _ h2; injection h2 with h3 h4; exact ⟨.inl h3, h4⟩
  | frame => injection hx with _ h2; injection h2 with h3 h4; exact ⟨.inr h3, h4⟩
  | uri r => injection hx with _ h2; cases h2
  | file hp => injection hx with h1 _; exact absurd h1 (by decide)
  | line n h0 hp => injection hx with h1 _; exact absurd h1 (by decide)

/-- C36: requests are answered in turn: the answer to a request is what serving it gives after processes
of the requests before it. -/
theorem c36_in_turn (ed : Editor) (cfg : Config) (files : List Str) (rs : List Request) (w : List Proc) :
    (serveAll ed cfg files rs w).1.length = rs.length ∧
    ∀ before r after, rs = before ++ r :: after →
      (serveAll ed cfg files rs w).1[before.length]? =
        some ((serve files r).run ed cfg (serveAll ed cfg files before w).2).1 ∧
      (serveAll ed cfg files (before ++ [r]) w).2 =
        ((serve files r).run ed cfg (serveAll ed cfg files before w).2).2 := by
  induction rs generalizing w with
  | nil => exact ⟨rfl, fun before r after h => by cases before <;> cases h⟩
  | cons x rs ih =>
    obtain ⟨h1, h2⟩ := ih ((serve files x).run ed cfg w).2
    refine ⟨by simp only [serveAll, List.length_cons, h1], fun before r after h => ?_⟩
    cases before with
    | nil => cases h; exact ⟨rfl, rfl⟩
    | cons b before =>
      cases h
      obtain ⟨g1, g2⟩ := h2 before r after rfl
      exact ⟨by simpa only [serveAll, List.length_cons, List.getElem?_cons_succ] using g1,
        by simpa only [serveAll, List.cons_append] using g2⟩

/-- A capture of an option is refused before any process is started. -/
example (ed : Editor) (cfg : Config) :
    (serveAll ed cfg [] [.capture ⟨"org-protocol".toList, "--eval=(kill-emacs)".toList, false⟩]
      []).2 = [] := rfl

/-! ### C36 -/

theorem captureProcs_eq (cfg : Config) (uri : Str) :
    captureProcs cfg.command cfg.userArgs uri =
      [proc cfg ["--eval".toList, CheckOrgProtocolLisp],
       proc cfg ["--eval".toList, EnsureFrameLisp], proc cfg [uri]] := rfl

/-- The outcome of a capture with a proper URI, step by step. -/
theorem capture_cases (ed : Editor) (cfg : Config) (q : CaptureQuery) (w : List Proc)
    (hf : q.format = "org-protocol".toList) (he : q.hasError = false)
    (hu : "org-protocol:".toList <+: q.url) (p1 p2 p3 : Proc)
    (hp : captureProcs cfg.command cfg.userArgs q.url = [p1, p2, p3]) :
    (∃ e, judge (ed w p1) = .error e ∧
      (capture q).run ed cfg w = (.error (.wrap (.wrap e)), w ++ [p1])) ∨
    (∃ out, judge (ed w p1) = .ok out ∧
      (bytesOf "org-protocol".toList).isPrefixOf out = false ∧
      (capture q).run ed cfg w = (.error (.wrap .notLoaded), w ++ [p1])) ∨
    (∃ out, judge (ed w p1) = .ok out ∧
      (bytesOf "org-protocol".toList).isPrefixOf out = true ∧
      ((∃ e, judge (ed (w ++ [p1]) p2) = .error e ∧
          (capture q).run ed cfg w = (.error (.wrap (.wrap e)), w ++ [p1, p2])) ∨
       (∃ out2, judge (ed (w ++ [p1]) p2) = .ok out2 ∧
          ((∃ e, judge (ed (w ++ [p1, p2]) p3) = .error e ∧
            (capture q).run ed cfg w = (.error (.wrap (.wrap e)), w ++ [p1, p2, p3])) ∨
           (∃ out3, judge (ed (w ++ [p1, p2]) p3) = .ok out3 ∧
            (capture q).run ed cfg w =
              (.ok ⟨false, "success".toList⟩, w ++ [p1, p2, p3])))))) := by
  rw [captureProcs_eq] at hp
  injection hp with h1 hp
  injection hp with h2 hp
  injection hp with h3 _
  have hu' : "org-protocol:".toList.isPrefixOf q.url = true := List.isPrefixOf_iff_prefix.mpr hu
  have hrun : (capture q).run ed cfg w = ((orgProtocol q.url).bind fun
      | .error e => .ret (.error (.wrap e))
      | .ok _ => .ret (.ok ⟨false, "success".toList⟩)).run ed cfg w := by
    unfold capture
    rw [if_neg (by rw [hf]; exact fun h => h rfl), if_neg (by rw [he]; decide)]
    rfl
  rw [hrun, Prog.run_bind]
  unfold orgProtocol
  rw [if_neg (by rw [hu']; exact fun h => h rfl), Prog.run_bind, run_check, h1]
  rcases hj1 : judge (ed w p1) with e | out
  · exact .inl ⟨e, rfl, rfl⟩
  · right
    cases hb : (bytesOf "org-protocol".toList).isPrefixOf out
    · left
      exact ⟨out, rfl, hb, by simp only [hb]; rfl⟩
    · right
      refine ⟨out, rfl, hb, ?_⟩
      simp only [hb, if_true, Prog.run_bind, run_ensureFrame, h2]
      rcases hj2 : judge (ed (w ++ [p1]) p2) with e | out2
      · left
        exact ⟨e, rfl, by simp [Prog.run]⟩
      · right
        refine ⟨out2, rfl, ?_⟩
        simp only [Prog.run_bind, run_execEmacs, h3]
        have ew : w ++ [p1] ++ [p2] = w ++ [p1, p2] := by simp
        rw [ew]
        rcases hj3 : judge (ed (w ++ [p1, p2]) p3) with e | out3
        · left
          exact ⟨e, rfl, by simp [Prog.run]⟩
        · right
          exact ⟨out3, rfl, by simp [Prog.run]⟩

/-- Queries that start nothing. -/
theorem capture_other (ed : Editor) (cfg : Config) (q : CaptureQuery) (w : List Proc)
    (h : ¬ (q.format = "org-protocol".toList ∧ q.hasError = false ∧
      "org-protocol:".toList <+: q.url)) :
    ((capture q).run ed cfg w).2 = w ∧
    ((∃ e, ((capture q).run ed cfg w).1 = .error e ∧ e.isServerNotFound = false) ∨
     (q.hasError = true ∧ ((capture q).run ed cfg w).1 = .ok ⟨true, "preview".toList⟩)) := by
  unfold capture
  split
  · exact ⟨rfl, .inl ⟨_, rfl, rfl⟩⟩
  · rename_i hf
    split
    · rename_i he
      exact ⟨rfl, .inr ⟨he, rfl⟩⟩
    · rename_i he
      have hu : ¬ ("org-protocol:".toList.isPrefixOf q.url = true) := fun hu =>
        h ⟨Decidable.not_not.mp hf, Bool.eq_false_iff.mpr he, List.isPrefixOf_iff_prefix.mp hu⟩
      unfold orgProtocol
      rw [if_pos hu]
      exact ⟨rfl, .inl ⟨_, rfl, rfl⟩⟩

/-- A capture is answered by success exactly when the URI has the right scheme, and the check,
the preparation of a frame and the call with this URI succeeded in this order; then these are the
processes that have been started. -/
theorem c36_success (ed : Editor) (cfg : Config) (q : CaptureQuery) (w w' : List Proc) :
    (capture q).run ed cfg w = (.ok ⟨false, "success".toList⟩, w') ↔
    (q.format = "org-protocol".toList ∧ q.hasError = false ∧
      "org-protocol:".toList <+: q.url ∧
      let ps := captureProcs cfg.command cfg.userArgs q.url
      w' = w ++ ps ∧ AnswerBegins ed w ps 0 "org-protocol".toList ∧
      Succeeds ed w ps 0 ∧ Succeeds ed w ps 1 ∧ Succeeds ed w ps 2) := by
  by_cases hq : q.format = "org-protocol".toList ∧ q.hasError = false ∧
      "org-protocol:".toList <+: q.url
  rotate_left
  · obtain ⟨_, h2⟩ := capture_other ed cfg q w hq
    constructor
    · intro h
      rw [h] at h2
      rcases h2 with ⟨e, he, _⟩ | ⟨_, he⟩
      · cases he
      · injection he with he
        injection he with he _
        cases he
    · rintro ⟨h1, h3, h4, _⟩
      exact absurd ⟨h1, h3, h4⟩ hq
  obtain ⟨hf, he, hu⟩ := hq
  obtain ⟨p1, p2, p3, hp⟩ : ∃ p1 p2 p3,
      captureProcs cfg.command cfg.userArgs q.url = [p1, p2, p3] := ⟨_, _, _, rfl⟩
  have key := capture_cases ed cfg q w hf he hu p1 p2 p3 hp
  simp only [hf, he, hu, true_and, hp, Succeeds, AnswerBegins, List.getElem?_cons_zero,
    List.getElem?_cons_succ, Option.some.injEq, exists_eq_left', List.take_zero, List.append_nil,
    List.take_succ_cons]
  constructor
  · intro h
    rcases key with ⟨e, _, hr⟩ | ⟨out, _, _, hr⟩ | ⟨out, hj1, hb, hk⟩
    · rw [hr] at h; cases h
    · rw [hr] at h; cases h
    · rcases hk with ⟨e, _, hr⟩ | ⟨out2, hj2, hk⟩
      · rw [hr] at h; cases h
      · rcases hk with ⟨e, _, hr⟩ | ⟨out3, hj3, hr⟩
        · rw [hr] at h; cases h
        · rw [hr] at h
          obtain ⟨r, hpre⟩ := List.isPrefixOf_iff_prefix.mp hb
          refine ⟨(congrArg Prod.snd h).symm, ⟨r, ?_⟩, (judge_ok hj1).1, (judge_ok hj2).1,
            (judge_ok hj3).1⟩
          rw [← (judge_ok hj1).2, hpre]
  · rintro ⟨hw, ⟨r, hpre⟩, s1, s2, s3⟩
    rcases key with ⟨e, hj, _⟩ | ⟨out, hj, hb, _⟩ | ⟨out, _, _, hk⟩
    · exact absurd s1 (judge_error hj)
    · rw [(judge_ok hj).2, hpre] at hb
      rw [List.isPrefixOf_iff_prefix.mpr ⟨r, rfl⟩] at hb
      cases hb
    · rcases hk with ⟨e, hj, _⟩ | ⟨out2, _, hk⟩
      · exact absurd s2 (judge_error hj)
      · rcases hk with ⟨e, hj, _⟩ | ⟨out3, _, hr⟩
        · exact absurd s3 (judge_error hj)
        · rw [hr, hw]

/-- A failure stops the sequence and is reported: if the answer is an error then either nothing
has been started because of the query itself, or the processes are the first `k + 1` of the
sequence, all but the last one succeeded and the last one failed or the check has not been
confirmed.  The error is the distinguished one exactly if the last process exited with code 9. -/
theorem c36_failure (ed : Editor) (cfg : Config) (q : CaptureQuery) (w w' : List Proc) (e : Err)
    (h : (capture q).run ed cfg w = (.error e, w')) :
    (w' = w ∧ e.isServerNotFound = false ∧
      (q.format ≠ "org-protocol".toList ∨ ¬ "org-protocol:".toList <+: q.url)) ∨
    ∃ k p, let ps := captureProcs cfg.command cfg.userArgs q.url
      w' = w ++ ps.take (k + 1) ∧ ps[k]? = some p ∧
      (∀ i < k, Succeeds ed w ps i) ∧
      (0 < k → AnswerBegins ed w ps 0 "org-protocol".toList) ∧
      (¬ Succeeds ed w ps k ∨ (k = 0 ∧ ¬ AnswerBegins ed w ps 0 "org-protocol".toList)) ∧
      (e.isServerNotFound = true ↔ (ed (w ++ ps.take k) p).status = .exited 9) := by
  by_cases hq : q.format = "org-protocol".toList ∧ q.hasError = false ∧
      "org-protocol:".toList <+: q.url
  rotate_left
  · left
    obtain ⟨h1, h2⟩ := capture_other ed cfg q w hq
    rw [h] at h1 h2
    rcases h2 with ⟨e', he, hs⟩ | ⟨_, he⟩
    · injection he with he
      subst he
      refine ⟨h1, hs, ?_⟩
      by_cases hf : q.format = "org-protocol".toList
      · right
        intro hu
        cases hb : q.hasError
        · exact hq ⟨hf, hb, hu⟩
        · unfold capture at h
          rw [if_neg (by rw [hf]; exact fun h => h rfl), if_pos hb] at h
          cases h
      · exact .inl hf
    · cases he
  right
  obtain ⟨hf, he, hu⟩ := hq
  obtain ⟨p1, p2, p3, hp⟩ : ∃ p1 p2 p3,
      captureProcs cfg.command cfg.userArgs q.url = [p1, p2, p3] := ⟨_, _, _, rfl⟩
  have key := capture_cases ed cfg q w hf he hu p1 p2 p3 hp
  simp only [hp]
  rw [h] at key
  have zero : ∀ i < 0, Succeeds ed w [p1, p2, p3] i := fun i hi => absurd hi (by omega)
  rcases key with ⟨e', hj, hr⟩ | ⟨out, hj, hb, hr⟩ | ⟨out, hj1, hb, hk⟩
  · refine ⟨0, p1, congrArg Prod.snd hr, rfl, zero, fun h => absurd h (by omega), .inl ?_, ?_⟩
    · rintro ⟨p, hp, hs⟩
      injection hp with hp
      subst hp
      rw [List.take_zero, List.append_nil] at hs
      exact judge_error hj hs
    · rw [Except.error.inj (congrArg Prod.fst hr), List.take_zero, List.append_nil]
      exact (judge_server hj : e'.isServerNotFound = true ↔ _)
  · refine ⟨0, p1, congrArg Prod.snd hr, rfl, zero, fun h => absurd h (by omega),
      .inr ⟨rfl, ?_⟩, ?_⟩
    · rintro ⟨p, hp, r, hs⟩
      injection hp with hp
      subst hp
      rw [List.take_zero, List.append_nil, ← (judge_ok hj).2] at hs
      rw [hs, List.isPrefixOf_iff_prefix.mpr ⟨r, rfl⟩] at hb
      cases hb
    · rw [Except.error.inj (congrArg Prod.fst hr), List.take_zero, List.append_nil,
        (judge_ok hj).1]
      constructor <;> intro hh <;> cases hh
  · have ans : AnswerBegins ed w [p1, p2, p3] 0 "org-protocol".toList := by
      obtain ⟨r, hpre⟩ := List.isPrefixOf_iff_prefix.mp hb
      refine ⟨p1, rfl, r, ?_⟩
      rw [List.take_zero, List.append_nil, ← (judge_ok hj1).2, hpre]
    have s0 : Succeeds ed w [p1, p2, p3] 0 :=
      ⟨p1, rfl, by rw [List.take_zero, List.append_nil]; exact (judge_ok hj1).1⟩
    rcases hk with ⟨e', hj, hr⟩ | ⟨out2, hj2, hk⟩
    · refine ⟨1, p2, congrArg Prod.snd hr, rfl, ?_, fun _ => ans, .inl ?_, ?_⟩
      · intro i hi
        obtain rfl : i = 0 := by omega
        exact s0
      · rintro ⟨p, hp, hs⟩
        injection hp with hp
        subst hp
        exact judge_error hj hs
      · rw [Except.error.inj (congrArg Prod.fst hr)]
        exact (judge_server hj : e'.isServerNotFound = true ↔ _)
    · have s1 : Succeeds ed w [p1, p2, p3] 1 := ⟨p2, rfl, (judge_ok hj2).1⟩
      rcases hk with ⟨e', hj, hr⟩ | ⟨out3, hj3, hr⟩
      · refine ⟨2, p3, congrArg Prod.snd hr, rfl, ?_, fun _ => ans, .inl ?_, ?_⟩
        · intro i hi
          rcases (by omega : i = 0 ∨ i = 1) with rfl | rfl
          · exact s0
          · exact s1
        · rintro ⟨p, hp, hs⟩
          injection hp with hp
          subst hp
          exact judge_error hj hs
        · rw [Except.error.inj (congrArg Prod.fst hr)]
          exact (judge_server hj : e'.isServerNotFound = true ↔ _)
      · cases hr

/-- A query with an error value asks for a preview and starts no process; and this is the only way
to get a preview. -/
theorem c36_preview (ed : Editor) (cfg : Config) (q : CaptureQuery) (w : List Proc)
    (hf : q.format = "org-protocol".toList) (he : q.hasError = true) :
    (capture q).run ed cfg w = (.ok ⟨true, "preview".toList⟩, w) := by
  unfold capture
  rw [if_neg (by rw [hf]; exact fun h => h rfl), if_pos he]
  rfl

/-- There are no other answers than success, preview or an error. -/
theorem c36_answers (ed : Editor) (cfg : Config) (q : CaptureQuery) (w : List Proc) :
    (∃ e, ((capture q).run ed cfg w).1 = .error e) ∨
    ((capture q).run ed cfg w).1 = .ok ⟨false, "success".toList⟩ ∨
    (q.hasError = true ∧ ((capture q).run ed cfg w).1 = .ok ⟨true, "preview".toList⟩) := by
  by_cases hq : q.format = "org-protocol".toList ∧ q.hasError = false ∧
      "org-protocol:".toList <+: q.url
  rotate_left
  · obtain ⟨_, h2⟩ := capture_other ed cfg q w hq
    rcases h2 with ⟨e, he, _⟩ | he
    · exact .inl ⟨e, he⟩
    · exact .inr (.inr he)
  obtain ⟨hf, he, hu⟩ := hq
  obtain ⟨p1, p2, p3, hp⟩ : ∃ p1 p2 p3,
      captureProcs cfg.command cfg.userArgs q.url = [p1, p2, p3] := ⟨_, _, _, rfl⟩
  rcases capture_cases ed cfg q w hf he hu p1 p2 p3 hp with
    ⟨e, _, hr⟩ | ⟨out, _, _, hr⟩ | ⟨out, hj1, hb, hk⟩
  · exact .inl ⟨_, congrArg Prod.fst hr⟩
  · exact .inl ⟨_, congrArg Prod.fst hr⟩
  · rcases hk with ⟨e, _, hr⟩ | ⟨out2, hj2, hk⟩
    · exact .inl ⟨_, congrArg Prod.fst hr⟩
    · rcases hk with ⟨e, _, hr⟩ | ⟨out3, hj3, hr⟩
      · exact .inl ⟨_, congrArg Prod.fst hr⟩
      · exact .inr (.inl (congrArg Prod.fst hr))

/-- An editor that knows the protocol and accepts everything: all hypotheses are met. -/
example : ((capture ⟨"org-protocol".toList, "org-protocol:/capture?url=x".toList, false⟩).run
    (fun _ _ => ⟨bytesOf "org-protocol\n".toList, .success⟩) ⟨"emacsclient".toList, []⟩ []).1 =
    .ok ⟨false, "success".toList⟩ := by rfl

/-- No server: the first process exits with code 9. -/
example : ∃ e, e.isServerNotFound = true ∧ (capture ⟨"org-protocol".toList,
    "org-protocol:/capture?url=x".toList, false⟩).run
    (fun _ _ => ⟨[], .exited 9⟩) ⟨"emacsclient".toList, []⟩ [] =
    (.error e, [⟨"emacsclient".toList, fixedArgs ++ ["--eval".toList, checkLisp]⟩]) :=
  ⟨.wrap (.wrap .serverNotFound), rfl, by rfl⟩

end Burl.Emacs
