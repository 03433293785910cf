import Verif.Emacs.MemoryLemmas
/-! C37: concurrent requests and the arguments of the editor. -/
namespace Burl.Emacs
open Burl.Emacs.Spec

/-! ### When the room behind the user arguments is too small to be used -/

/-- Accesses that never write a value different from `T` to the shared array and read only cells
known to agree with `T`; `G` are cells known so far. -/
def OkOps (T : Cells) : (Nat → Prop) → List Op → Prop
  | _, [] => True
  | G, .store (.shared j) v :: r => v = T j ∧ OkOps T (fun i => G i ∨ i = j) r
  | G, .store _ _ :: r => OkOps T G r
  | G, .move a b :: r => (∀ j, a = .shared j → G j) ∧ (∀ j, b ≠ .shared j) ∧ OkOps T G r
  | G, .load a :: r => (∀ j, a = .shared j → G j) ∧ OkOps T G r

theorem OkOps.mono {T : Cells} {ops : List Op} : ∀ {G G' : Nat → Prop}, (∀ i, G i → G' i) →
    OkOps T G ops → OkOps T G' ops := by
  induction ops with
  | nil => intros; trivial
  | cons op r ih =>
    intro G G' hG h
    cases op with
    | store l v =>
      cases l with
      | shared j => exact ⟨h.1, ih (fun i hi => hi.imp (hG i) id) h.2⟩
      | own1 j => exact ih hG h
      | own2 j => exact ih hG h
    | move a b => exact ⟨fun j hj => hG j (h.1 j hj), h.2.1, ih hG h.2.2⟩
    | load a => exact ⟨fun j hj => hG j (h.1 j hj), ih hG h.2⟩

/-- Cells of the shared array written by accesses. -/
def storedShared (ops : List Op) (j : Nat) : Prop := ∃ v, Op.store (.shared j) v ∈ ops

theorem OkOps.append {T : Cells} {a b : List Op} : ∀ {G : Nat → Prop}, OkOps T G a →
    OkOps T (fun i => G i ∨ storedShared a i) b → OkOps T G (a ++ b) := by
  induction a with
  | nil =>
    intro G _ h
    refine h.mono fun i hi => ?_
    rcases hi with hi | ⟨v, hv⟩
    · exact hi
    · cases hv
  | cons op r ih =>
    intro G h hb
    have tail : ∀ i, storedShared r i → storedShared (op :: r) i :=
      fun i ⟨v, hv⟩ => ⟨v, List.mem_cons_of_mem _ hv⟩
    cases op with
    | store l v =>
      cases l with
      | shared j =>
        refine ⟨h.1, ih h.2 (hb.mono fun i hi => ?_)⟩
        rcases hi with hi | ⟨x, hx⟩
        · exact .inl (.inl hi)
        · rcases List.mem_cons.mp hx with hx | hx
          · injection hx with h1 h2
            injection h1 with h1
            exact .inl (.inr h1)
          · exact .inr ⟨x, hx⟩
      | own1 j =>
        refine ih h (hb.mono fun i hi => ?_)
        rcases hi with hi | ⟨x, hx⟩
        · exact .inl hi
        · rcases List.mem_cons.mp hx with hx | hx
          · injection hx with h1 h2
            cases h1
          · exact .inr ⟨x, hx⟩
      | own2 j =>
        refine ih h (hb.mono fun i hi => ?_)
        rcases hi with hi | ⟨x, hx⟩
        · exact .inl hi
        · rcases List.mem_cons.mp hx with hx | hx
          · injection hx with h1 h2
            cases h1
          · exact .inr ⟨x, hx⟩
    | move x y =>
      refine ⟨h.1, h.2.1, ih h.2.2 (hb.mono fun i hi => ?_)⟩
      rcases hi with hi | ⟨x, hx⟩
      · exact .inl hi
      · rcases List.mem_cons.mp hx with hx | hx
        · cases hx
        · exact .inr ⟨x, hx⟩
    | load x =>
      refine ⟨h.1, ih h.2 (hb.mono fun i hi => ?_)⟩
      rcases hi with hi | ⟨x, hx⟩
      · exact .inl hi
      · rcases List.mem_cons.mp hx with hx | hx
        · cases hx
        · exact .inr ⟨x, hx⟩

theorem okOps_stores_own {T : Cells} {a : Nat → Loc} (ha : a = .own1 ∨ a = .own2) (vs : List Str) :
    ∀ (G : Nat → Prop) n, OkOps T G (stores a n vs) := by
  induction vs with
  | nil => intros; trivial
  | cons s ss ih =>
    intro G n
    rcases ha with rfl | rfl
    · exact ih G (n + 1)
    · exact ih G (n + 1)

theorem okOps_stores_shared {T : Cells} (vs : List Str) :
    ∀ (G : Nat → Prop) n, (∀ i s, vs[i]? = some s → T (n + i) = s) →
      OkOps T G (stores .shared n vs) := by
  induction vs with
  | nil => intros; trivial
  | cons s ss ih =>
    intro G n h
    refine ⟨(h 0 s rfl).symm, ih _ (n + 1) fun i x hx => ?_⟩
    rw [Nat.add_assoc, Nat.add_comm 1]
    exact h (i + 1) x hx

theorem stored_stores_shared (vs : List Str) : ∀ n i, n ≤ i → i < n + vs.length →
    storedShared (stores .shared n vs) i := by
  induction vs with
  | nil => intro n i h1 h2; simp at h2; omega
  | cons s ss ih =>
    intro n i h1 h2
    by_cases h : i = n
    · subst h
      exact ⟨s, List.mem_cons_self⟩
    · obtain ⟨v, hv⟩ := ih (n + 1) i (by omega) (by simp at h2; omega)
      exact ⟨v, List.mem_cons_of_mem _ hv⟩

theorem okOps_moves {T : Cells} {a b : Nat → Loc} (hb : ∀ i j, b i ≠ .shared j) (n : Nat)
    (G : Nat → Prop)
    (ha : ((∀ i, a i = .shared i) ∧ ∀ i, i < n → G i) ∨ (∀ i j, a i ≠ .shared j)) :
    OkOps T G (moves a b n) := by
  induction n with
  | zero => trivial
  | succ n ih =>
    refine (ih (ha.imp (fun h => ⟨h.1, fun i hi => h.2 i (by omega)⟩) id)).append
      ⟨?_, fun j => hb n j, trivial⟩
    intro j hj
    rcases ha with ⟨ha, hG⟩ | ha
    · rw [ha] at hj
      injection hj with hj
      exact .inl (hG j (by omega))
    · exact absurd hj (ha n j)

theorem okOps_loads_own {T : Cells} {a : Nat → Loc} (ha : ∀ i j, a i ≠ .shared j) (n : Nat) :
    ∀ (G : Nat → Prop), OkOps T G (loads a n) := by
  induction n with
  | zero => intros; trivial
  | succ n ih =>
    intro G
    exact (ih G).append ⟨fun j hj => absurd hj (ha n j), trivial⟩

/-- If the room behind the user arguments is too small then a call writes only the fixed
arguments to it and reads only what it wrote. -/
theorem okOps_exec (grow : Nat → Nat) (cap : Nat)
    (userArgs args : List Str) (T : Cells) (hT : Reads ⟨T, T, T, []⟩ .shared (userArgs ++ Args))
    (hcap : cap < userArgs.length + Args.length + 1) (hargs : args ≠ []) (G : Nat → Prop)
    (hG : ∀ i, i < userArgs.length → G i) :
    OkOps T G (execOps grow cap userArgs.length args) := by
  have hpos : 0 < args.length := List.length_pos_iff.mpr hargs
  have n1 : ∀ i j, Loc.own1 i ≠ .shared j := fun i j h => by cases h
  have n2 : ∀ i j, Loc.own2 i ≠ .shared j := fun i j h => by cases h
  rw [execOps_eq]
  unfold writeOps secondArr
  by_cases h1 : userArgs.length + Args.length ≤ cap
  · have e1 : appendOps grow .shared .own1 cap userArgs.length Args =
        (.shared, cap, stores .shared userArgs.length Args) := by
      unfold appendOps
      rw [if_pos h1]
    have e2 : appendOps grow .shared .own2 cap (userArgs.length + Args.length) args =
        (.own2, grow (userArgs.length + Args.length + args.length),
          moves .shared .own2 (userArgs.length + Args.length) ++
            stores .own2 (userArgs.length + Args.length) args) := by
      unfold appendOps
      rw [if_neg (by omega)]
    rw [e1]
    simp only
    rw [e2]
    simp only
    refine OkOps.append (OkOps.append ?_ ?_) (okOps_loads_own n2 _ _)
    · refine okOps_stores_shared _ _ _ fun i s hs => ?_
      exact hT (userArgs.length + i) s (by
        rw [List.getElem?_append_right (by omega), Nat.add_sub_cancel_left]
        exact hs)
    · refine OkOps.append (okOps_moves n2 _ _ (.inl ⟨fun _ => rfl, ?_⟩))
        (okOps_stores_own (.inr rfl) _ _ _)
      intro i hi
      by_cases hlt : i < userArgs.length
      · exact .inl (hG i hlt)
      · exact .inr (stored_stores_shared _ _ _ (by omega) hi)
  · have e1 : appendOps grow .shared .own1 cap userArgs.length Args =
        (.own1, grow (userArgs.length + Args.length),
          moves .shared .own1 userArgs.length ++ stores .own1 userArgs.length Args) := by
      unfold appendOps
      rw [if_neg h1]
    rw [e1]
    simp only
    have first : OkOps T G
        (moves .shared .own1 userArgs.length ++ stores .own1 userArgs.length Args) :=
      (okOps_moves n1 _ _ (.inl ⟨fun _ => rfl, hG⟩)).append (okOps_stores_own (.inl rfl) _ _ _)
    unfold appendOps
    split
    · exact OkOps.append (OkOps.append first (okOps_stores_own (.inl rfl) _ _ _))
        (okOps_loads_own n1 _ _)
    · exact OkOps.append (OkOps.append first (OkOps.append
        (okOps_moves n2 _ _ (.inr n1)) (okOps_stores_own (.inr rfl) _ _ _)))
        (okOps_loads_own n2 _ _)

/-- Condition on a goroutine when the shared array is `c`. -/
def TaskOk (userArgs : List Str) (T c : Cells) : Task Reply → Prop
  | .ready p => p.Calls (· ≠ [])
  | .composing args ops own1 own2 argv k =>
      (∀ o, (k o).Calls (· ≠ [])) ∧ OkOps T (fun j => c j = T j) ops ∧
      (runOps ⟨T, own1, own2, argv⟩ ops).argv = userArgs ++ Args ++ args

theorem TaskOk.mono {userArgs : List Str} {T c c' : Cells} (h : ∀ j, c j = T j → c' j = T j)
    {t : Task Reply} (ht : TaskOk userArgs T c t) : TaskOk userArgs T c' t := by
  cases t with
  | ready p => exact ht
  | composing args ops o1 o2 argv k => exact ⟨ht.1, ht.2.1.mono h, ht.2.2⟩

theorem cells_set_self (T : Cells) (j : Nat) : T.set j (T j) = T := by
  funext i
  unfold Cells.set
  split
  · rename_i h; rw [h]
  · rfl

/-- One access of a call that satisfies the condition. -/
theorem okOps_step {T c own1 own2 : Cells} {argv : List Str} {op : Op} {r : List Op}
    (h : OkOps T (fun j => c j = T j) (op :: r)) :
    (∀ j, c j = T j → (op.run ⟨c, own1, own2, argv⟩).shared j = T j) ∧
    OkOps T (fun j => (op.run ⟨c, own1, own2, argv⟩).shared j = T j) r ∧
    (op.run ⟨T, own1, own2, argv⟩) =
      { op.run ⟨c, own1, own2, argv⟩ with shared := T } := by
  cases op with
  | store l v =>
    cases l with
    | shared j =>
      obtain ⟨h1, h2⟩ := h
      subst h1
      refine ⟨?_, ?_, ?_⟩
      · intro i hi
        show (c.set j (T j)) i = T i
        unfold Cells.set
        split
        · rename_i e; rw [e]
        · exact hi
      · refine h2.mono fun i hi => ?_
        show (c.set j (T j)) i = T i
        unfold Cells.set
        split
        · rename_i e; rw [e]
        · rename_i e
          exact hi.resolve_right e
      · show View.mk (T.set j (T j)) own1 own2 argv = ⟨T, own1, own2, argv⟩
        rw [cells_set_self]
    | own1 j => exact ⟨fun _ hi => hi, h, rfl⟩
    | own2 j => exact ⟨fun _ hi => hi, h, rfl⟩
  | move a b =>
    obtain ⟨h1, h2, h3⟩ := h
    have e : View.get ⟨T, own1, own2, argv⟩ a = View.get ⟨c, own1, own2, argv⟩ a := by
      cases a with
      | shared j => exact (h1 j rfl).symm
      | own1 j => rfl
      | own2 j => rfl
    cases b with
    | shared j => exact absurd rfl (h2 j)
    | own1 j =>
      refine ⟨fun _ hi => hi, h3, ?_⟩
      simp only [Op.run]
      rw [e]
      rfl
    | own2 j =>
      refine ⟨fun _ hi => hi, h3, ?_⟩
      simp only [Op.run]
      rw [e]
      rfl
  | load a =>
    obtain ⟨h1, h2⟩ := h
    have e : View.get ⟨T, own1, own2, argv⟩ a = View.get ⟨c, own1, own2, argv⟩ a := by
      cases a with
      | shared j => exact (h1 j rfl).symm
      | own1 j => rfl
      | own2 j => rfl
    refine ⟨fun _ hi => hi, h2, ?_⟩
    simp only [Op.run]
    rw [e]

theorem set_forall {α} {P : α → Prop} {l : List α} (h : ∀ x ∈ l, P x) (i : Nat) {a : α} (ha : P a) :
    ∀ x ∈ l.set i a, P x := by
  intro x hx
  rcases List.mem_or_eq_of_mem_set hx with hx | rfl
  · exact h x hx
  · exact ha

/-- The state of the whole backend. -/
structure WorldOk (userArgs : List Str) (T : Cells) (w : World Reply) : Prop where
  user : ∀ i, i < userArgs.length → w.shared i = T i
  tasks : ∀ t ∈ w.tasks, TaskOk userArgs T w.shared t
  log : ∀ s ∈ w.log, s.argv = userArgs ++ Args ++ s.args

theorem WorldOk.step (grow : Nat → Nat) (cap : Nat) (userArgs : List Str)
    (T : Cells) (hT : Reads ⟨T, T, T, []⟩ .shared (userArgs ++ Args))
    (hcap : cap < userArgs.length + Args.length + 1) {w w' : World Reply}
    (h : WorldOk userArgs T w) (hs : Step grow cap userArgs.length w w') :
    WorldOk userArgs T w' := by
  cases hs with
  | @begin i args k own1 own2 hi =>
    have ht := h.tasks _ (List.mem_of_getElem? hi)
    refine ⟨h.user, set_forall h.tasks i ⟨ht.2, ?_, ?_⟩, h.log⟩
    · exact okOps_exec grow cap userArgs args T hT hcap ht.1 _ h.user
    · have hr : Reads ⟨T, own1, own2, []⟩ .shared userArgs := fun j s hj => hT j s (by
        rw [List.getElem?_append_left (List.getElem?_eq_some_iff.mp hj).1]
        exact hj)
      have := (reads_execOps grow cap userArgs args _ hr).1
      simpa using this
  | @access i args op ops own1 own2 argv k hi =>
    have ht := h.tasks _ (List.mem_of_getElem? hi)
    obtain ⟨h1, h2, h3⟩ := okOps_step (own1 := own1) (own2 := own2) (argv := argv) ht.2.1
    refine ⟨fun j hj => h1 j (h.user j hj),
      set_forall (fun t ht' => (h.tasks t ht').mono h1) i ⟨ht.1, h2, ?_⟩, h.log⟩
    have h4 := ht.2.2
    change (runOps (op.run _) ops).argv = _ at h4
    rw [h3] at h4
    exact h4
  | @start i args own1 own2 argv k o hi =>
    have ht := h.tasks _ (List.mem_of_getElem? hi)
    refine ⟨h.user, set_forall h.tasks i (ht.1 o), ?_⟩
    intro s hs
    rcases List.mem_append.mp hs with hs | hs
    · exact h.log s hs
    · rw [List.mem_singleton.mp hs]
      exact ht.2.2

theorem calls_nonempty (files : List Str) (r : Request) : (serve files r).Calls (· ≠ []) := by
  have weaken : ∀ {α} {P Q : List Str → Prop} (hPQ : ∀ a, P a → Q a) {p : Prog α}, p.Calls P →
      p.Calls Q := by
    intro α P Q hPQ p
    induction p with
    | ret a => intro _; trivial
    | exec args k ih => exact fun h => ⟨hPQ _ h.1, fun o => ih o (h.2 o)⟩
  refine weaken ?_ (calls_serve files r)
  intro a ha he
  subst he
  cases ha

/-- C37 in part: if the capacity of the slice with user arguments leaves no room for an argument
behind the fixed ones, then for any number of requests and any interleaving each process gets
exactly the arguments of its own request.  Missing: configurations with more room, where the
statement is false, see `c37_violation`. -/
theorem c37_partial (grow : Nat → Nat) (cap : Nat) (userArgs : List Str)
    (hcap : cap < userArgs.length + fixedArgs.length + 1) (files : List Str) (c : Cells)
    (hc : Holds userArgs c) (w : World Reply)
    (h : Steps grow cap userArgs.length files ⟨c, [], []⟩ w) (s : Started) (hs : s ∈ w.log) :
    s.argv = userArgs ++ fixedArgs ++ s.args ∧ Allowed files s.args := by
  let T : Cells := fun i => ((userArgs ++ Args)[i]?).getD []
  have hT : Reads ⟨T, T, T, []⟩ .shared (userArgs ++ Args) := by
    intro i s hi
    show ((userArgs ++ Args)[i]?).getD [] = s
    rw [hi]
    rfl
  have h0 : WorldOk userArgs T ⟨c, [], []⟩ := by
    refine ⟨fun i hi => ?_, (by intro t ht; cases ht), (by intro s hs; cases hs)⟩
    show c i = ((userArgs ++ Args)[i]?).getD []
    rw [List.getElem?_append_left hi, List.getElem?_eq_getElem hi]
    exact hc i _ (List.getElem?_eq_getElem hi)
  have hw : WorldOk userArgs T w := by
    clear hs
    generalize hw0 : (⟨c, [], []⟩ : World Reply) = w0 at h
    induction h with
    | refl => subst hw0; exact h0
    | step _ hstep ih =>
      subst hw0
      exact ih.step grow cap userArgs T hT hcap hstep
    | request r _ ih =>
      subst hw0
      obtain ⟨h1, h2, h3⟩ := ih
      refine ⟨h1, fun t ht => ?_, h3⟩
      rcases List.mem_append.mp ht with ht | ht
      · exact h2 t ht
      · rw [List.mem_singleton.mp ht]
        exact calls_nonempty files r
  refine ⟨hw.log s hs, ?_⟩
  -- arguments come from programs of requests
  have main : ∀ w0 w : World Reply, Steps grow cap userArgs.length files w0 w →
      w0 = ⟨c, [], []⟩ →
      (∀ t ∈ w.tasks, match t with
        | .ready p => p.Calls (Allowed files)
        | .composing args _ _ _ _ k => Allowed files args ∧ ∀ o, (k o).Calls (Allowed files)) ∧
      ∀ s ∈ w.log, Allowed files s.args := by
    intro w0 w h he
    induction h with
    | refl => subst he; exact ⟨(by intro t ht; cases ht), (by intro s hs; cases hs)⟩
    | step _ hstep ih =>
      obtain ⟨h1, h2⟩ := ih
      cases hstep with
      | @begin i args k own1 own2 hi =>
        exact ⟨set_forall h1 i (h1 _ (List.mem_of_getElem? hi)), h2⟩
      | @access i args op ops own1 own2 argv k hi =>
        exact ⟨set_forall h1 i (h1 _ (List.mem_of_getElem? hi)), h2⟩
      | @start i args own1 own2 argv k o hi =>
        have ht := h1 _ (List.mem_of_getElem? hi)
        refine ⟨set_forall h1 i (ht.2 o), fun s hs => ?_⟩
        rcases List.mem_append.mp hs with hs | hs
        · exact h2 s hs
        · rw [List.mem_singleton.mp hs]
          exact ht.1
    | request r _ ih =>
      obtain ⟨h1, h2⟩ := ih
      refine ⟨fun t ht => ?_, h2⟩
      rcases List.mem_append.mp ht with ht | ht
      · exact h1 t ht
      · rw [List.mem_singleton.mp ht]
        exact calls_serve files r
  exact (main _ _ h rfl).2 s hs

/-! ### When there is room -/

theorem secondArr_shared {grow : Nat → Nat} {cap len : Nat} {args : List Str}
    (h : len + Args.length + args.length ≤ cap) : secondArr grow cap len args = .shared := by
  have e1 : appendOps grow .shared .own1 cap len Args =
      (.shared, cap, stores .shared len Args) := by
    unfold appendOps
    rw [if_pos (by omega)]
  unfold secondArr
  rw [e1]
  simp only
  unfold appendOps
  rw [if_pos h]

theorem Steps.trans {grow : Nat → Nat} {cap len : Nat} {files : List Str} {a b c : World Reply}
    (h1 : Steps grow cap len files a b) (h2 : Steps grow cap len files b c) :
    Steps grow cap len files a c := by
  induction h2 with
  | refl => exact h1
  | step _ hs ih => exact ih.step hs
  | request r _ ih => exact ih.request r

/-- A goroutine makes several accesses while the others do nothing. -/
theorem Steps.alone {grow : Nat → Nat} {cap len : Nat} {files : List Str} {args : List Str}
    {k : Outcome → Prog Reply} {rest : List Op} (ops : List Op) :
    ∀ {w : World Reply} {i : Nat} {own1 own2 : Cells} {argv : List Str},
    w.tasks[i]? = some (.composing args (ops ++ rest) own1 own2 argv k) →
    Steps grow cap len files w
      { w with
        shared := (runOps ⟨w.shared, own1, own2, argv⟩ ops).shared
        tasks := w.tasks.set i (.composing args rest
          (runOps ⟨w.shared, own1, own2, argv⟩ ops).own1
          (runOps ⟨w.shared, own1, own2, argv⟩ ops).own2
          (runOps ⟨w.shared, own1, own2, argv⟩ ops).argv k) } := by
  induction ops with
  | nil =>
    intro w i own1 own2 argv h
    rw [List.nil_append] at h
    have e : w.tasks.set i (.composing args rest own1 own2 argv k) = w.tasks := by
      obtain ⟨hi, he⟩ := List.getElem?_eq_some_iff.mp h
      rw [← he, List.set_getElem_self]
    show Steps grow cap len files w
      ⟨w.shared, w.tasks.set i (.composing args rest own1 own2 argv k), w.log⟩
    rw [e]
    exact .refl
  | cons op ops ih =>
    intro w i own1 own2 argv h
    have s1 : Step grow cap len w _ := Step.access h
    have hi : i < w.tasks.length := (List.getElem?_eq_some_iff.mp h).1
    refine (Steps.refl.step s1).trans ?_
    have := ih (w := { w with
          shared := (op.run ⟨w.shared, own1, own2, argv⟩).shared
          tasks := w.tasks.set i (.composing args (ops ++ rest)
            (op.run ⟨w.shared, own1, own2, argv⟩).own1
            (op.run ⟨w.shared, own1, own2, argv⟩).own2
            (op.run ⟨w.shared, own1, own2, argv⟩).argv k) }) (i := i)
      (List.getElem?_set_self hi)
    rw [List.set_set] at this
    exact this

/-- A whole call of `execEmacs` while the others do nothing. -/
theorem Steps.wholeCall {grow : Nat → Nat} {cap : Nat} {files userArgs args : List Str}
    {k : Outcome → Prog Reply} {w : World Reply} {i : Nat} (o : Outcome)
    (h : w.tasks[i]? = some (.ready (.exec args k))) (hc : Holds userArgs w.shared) :
    ∃ c, Holds userArgs c ∧
      (userArgs.length + Args.length + args.length ≤ cap → Holds (userArgs ++ Args ++ args) c) ∧
      Steps grow cap userArgs.length files w
        ⟨c, w.tasks.set i (.ready (k o)),
          w.log ++ [⟨i, args, userArgs ++ Args ++ args⟩]⟩ := by
  have hi : i < w.tasks.length := (List.getElem?_eq_some_iff.mp h).1
  let z : Cells := fun _ => []
  have s1 : Step grow cap userArgs.length w _ := Step.begin z z h
  have s2 := Steps.alone (grow := grow) (cap := cap) (len := userArgs.length) (files := files)
    (args := args) (k := k) (rest := []) (execOps grow cap userArgs.length args)
    (w := { w with
          tasks := w.tasks.set i
            (.composing args (execOps grow cap userArgs.length args) z z [] k) }) (i := i)
    (own1 := z) (own2 := z) (argv := []) (by
      rw [List.append_nil]
      exact List.getElem?_set_self hi)
  obtain ⟨h1, h2, h3⟩ := reads_execOps grow cap userArgs args ⟨w.shared, z, z, []⟩ hc
  generalize runOps ⟨w.shared, z, z, []⟩ (execOps grow cap userArgs.length args) = v at *
  rw [List.set_set] at s2
  have s3 : Step grow cap userArgs.length
    { w with
        shared := v.shared
        tasks := w.tasks.set i (.composing args [] v.own1 v.own2 v.argv k) } _ :=
    Step.start o (List.getElem?_set_self hi)
  refine ⟨v.shared, h2, ?_, ?_⟩
  · intro hle
    rw [secondArr_shared hle] at h3
    exact h3
  · have := ((Steps.refl (files := files)).step s1).trans (s2.step s3)
    rw [List.set_set, h1] at this
    exact this

/-- A query for capture of a URI. -/
def captureOf (uri : Str) : Request := .capture ⟨"org-protocol".toList, uri, false⟩

/-- The answer of an editor that has the protocol loaded. -/
def good : Outcome := ⟨bytesOf "org-protocol".toList, .success⟩

theorem serve_captureOf (files : List Str) {uri : Str} (h : "org-protocol:".toList <+: uri) :
    ∃ k1 k2 k3, serve files (captureOf uri) = .exec ["--eval".toList, checkLisp] k1 ∧
      k1 good = .exec ["--eval".toList, frameLisp] k2 ∧ k2 good = .exec [uri] k3 ∧
      k3 good = .ret (.capture (.ok ⟨false, "success".toList⟩)) := by
  have hu : "org-protocol:".toList.isPrefixOf uri = true := List.isPrefixOf_iff_prefix.mpr h
  have e0 : orgProtocol uri = checkOrgProtocol.bind (β := Except Err Unit) fun
        | .error e => .ret (.error e)
        | .ok _ => ensureFrame.bind (β := Except Err Unit) fun
          | .error e => .ret (.error e)
          | .ok _ => (execEmacs [uri]).bind (β := Except Err Unit) fun
            | .error e => .ret (.error (.wrap e))
            | .ok _ => .ret (.ok ()) := by
    unfold orgProtocol
    rw [if_neg (fun h => h hu)]
    congr 1
  have e : capture ⟨"org-protocol".toList, uri, false⟩ =
      (orgProtocol uri).bind (β := Except Err CaptureResponse) fun
      | .error e => .ret (.error (.wrap e))
      | .ok _ => .ret (.ok ⟨false, "success".toList⟩) := by
    unfold capture
    rw [if_neg (fun h => h rfl), if_neg (fun h => Bool.noConfusion h)]
    congr 1
  rw [e0] at e
  show ∃ k1 k2 k3, ((capture ⟨"org-protocol".toList, uri, false⟩).bind fun r =>
    .ret (Reply.capture r)) = _ ∧ _
  rw [e]
  exact ⟨_, _, _, rfl, rfl, rfl, rfl⟩

/-- C37 is violated: whenever the slice with user arguments has room for three more elements, as it
has by default, two concurrent captures of different URIs may both be answered by success while
one URI is passed to the editor twice and the other one is not passed at all. -/
theorem c37_violation (grow : Nat → Nat) (cap : Nat) (userArgs : List Str)
    (hcap : userArgs.length + fixedArgs.length + 1 ≤ cap) (files : List Str) (c : Cells)
    (hc : Holds userArgs c) (uri uri' : Str) (h : "org-protocol:".toList <+: uri)
    (h' : "org-protocol:".toList <+: uri') :
    ∃ c', Steps grow cap userArgs.length files ⟨c, [], []⟩
      ⟨c', [.ready (.ret (.capture (.ok ⟨false, "success".toList⟩))),
            .ready (.ret (.capture (.ok ⟨false, "success".toList⟩)))],
        let all := fun l => userArgs ++ fixedArgs ++ l
        [⟨0, ["--eval".toList, checkLisp], all ["--eval".toList, checkLisp]⟩,
         ⟨0, ["--eval".toList, frameLisp], all ["--eval".toList, frameLisp]⟩,
         ⟨1, ["--eval".toList, checkLisp], all ["--eval".toList, checkLisp]⟩,
         ⟨1, ["--eval".toList, frameLisp], all ["--eval".toList, frameLisp]⟩,
         ⟨1, [uri'], all [uri']⟩,
         ⟨0, [uri], all [uri']⟩]⟩ := by
  obtain ⟨k1, k2, k3, e0, e1, e2, e3⟩ := serve_captureOf files h
  obtain ⟨l1, l2, l3, f0, f1, f2, f3⟩ := serve_captureOf files h'
  have S0 : Steps grow cap userArgs.length files ⟨c, [], []⟩
      ⟨c, [.ready (.exec ["--eval".toList, checkLisp] k1),
           .ready (.exec ["--eval".toList, checkLisp] l1)], []⟩ := by
    have := (Steps.refl (grow := grow) (cap := cap) (len := userArgs.length) (files := files)
      (w := ⟨c, [], []⟩)).request (captureOf uri) |>.request (captureOf uri')
    rw [e0, f0] at this
    exact this
  -- the first call: check and frame
  obtain ⟨c1, hc1, _, S1⟩ := Steps.wholeCall (grow := grow) (cap := cap) (files := files)
    (w := ⟨c, [.ready (.exec ["--eval".toList, checkLisp] k1),
           .ready (.exec ["--eval".toList, checkLisp] l1)], []⟩) (i := 0) good rfl hc
  simp only [List.set_cons_zero, e1] at S1
  obtain ⟨c2, hc2, _, S2⟩ := Steps.wholeCall (grow := grow) (cap := cap) (files := files)
    (w := ⟨c1, [.ready (.exec ["--eval".toList, frameLisp] k2),
           .ready (.exec ["--eval".toList, checkLisp] l1)],
           [] ++ [⟨0, ["--eval".toList, checkLisp], userArgs ++ Args ++ ["--eval".toList, checkLisp]⟩]⟩)
    (i := 0) good rfl hc1
  simp only [List.set_cons_zero, e2] at S2
  -- the first call writes its URI
  let z : Cells := fun _ => []
  have S3 : Step grow cap userArgs.length _ _ := Step.begin (i := 0) (args := [uri]) (k := k3)
    (w := ⟨c2, [.ready (.exec [uri] k3), .ready (.exec ["--eval".toList, checkLisp] l1)],
           [] ++ [⟨0, ["--eval".toList, checkLisp],
               userArgs ++ Args ++ ["--eval".toList, checkLisp]⟩] ++
             [⟨0, ["--eval".toList, frameLisp],
               userArgs ++ Args ++ ["--eval".toList, frameLisp]⟩]⟩) z z rfl
  simp only [List.set_cons_zero] at S3
  have S4 := Steps.alone (grow := grow) (cap := cap) (len := userArgs.length) (files := files)
    (args := [uri]) (k := k3)
    (rest := loads (secondArr grow cap userArgs.length [uri])
      (userArgs.length + Args.length + [uri].length))
    (writeOps grow cap userArgs.length [uri])
    (w := ⟨c2, [.composing [uri] (execOps grow cap userArgs.length [uri]) z z [] k3,
           .ready (.exec ["--eval".toList, checkLisp] l1)],
           [] ++ [⟨0, ["--eval".toList, checkLisp],
               userArgs ++ Args ++ ["--eval".toList, checkLisp]⟩] ++
             [⟨0, ["--eval".toList, frameLisp],
               userArgs ++ Args ++ ["--eval".toList, frameLisp]⟩]⟩) (i := 0)
    (own1 := z) (own2 := z) (argv := []) (by rw [← execOps_eq]; rfl)
  obtain ⟨r1, r2, r3⟩ := reads_writeOps grow cap userArgs [uri] ⟨c2, z, z, []⟩ hc2
  generalize runOps ⟨c2, z, z, []⟩ (writeOps grow cap userArgs.length [uri]) = v at *
  have harr : secondArr grow cap userArgs.length [uri] = .shared := secondArr_shared hcap
  simp only [List.set_cons_zero, r3, harr] at S4
  -- the second call is served completely
  obtain ⟨c5, hc5, _, S5⟩ := Steps.wholeCall (grow := grow) (cap := cap) (files := files)
    (w := ⟨v.shared, [.composing [uri] (loads .shared
      (userArgs.length + Args.length + [uri].length)) v.own1 v.own2 [] k3,
           .ready (.exec ["--eval".toList, checkLisp] l1)],
           [] ++ [⟨0, ["--eval".toList, checkLisp],
               userArgs ++ Args ++ ["--eval".toList, checkLisp]⟩] ++
             [⟨0, ["--eval".toList, frameLisp],
               userArgs ++ Args ++ ["--eval".toList, frameLisp]⟩]⟩) (i := 1) good rfl r2
  simp only [List.set_cons_zero, List.set_cons_succ, f1] at S5
  obtain ⟨c6, hc6, _, S6⟩ := Steps.wholeCall (grow := grow) (cap := cap) (files := files)
    (w := ⟨c5, [.composing [uri] (loads .shared
      (userArgs.length + Args.length + [uri].length)) v.own1 v.own2 [] k3,
           .ready (.exec ["--eval".toList, frameLisp] l2)],
           [] ++ [⟨0, ["--eval".toList, checkLisp],
               userArgs ++ Args ++ ["--eval".toList, checkLisp]⟩] ++
             [⟨0, ["--eval".toList, frameLisp],
               userArgs ++ Args ++ ["--eval".toList, frameLisp]⟩] ++
             [⟨1, ["--eval".toList, checkLisp],
               userArgs ++ Args ++ ["--eval".toList, checkLisp]⟩]⟩) (i := 1) good rfl hc5
  simp only [List.set_cons_zero, List.set_cons_succ, f2] at S6
  obtain ⟨c7, hc7, hh7, S7⟩ := Steps.wholeCall (grow := grow) (cap := cap) (files := files)
    (w := ⟨c6, [.composing [uri] (loads .shared
      (userArgs.length + Args.length + [uri].length)) v.own1 v.own2 [] k3,
           .ready (.exec [uri'] l3)],
           [] ++ [⟨0, ["--eval".toList, checkLisp],
               userArgs ++ Args ++ ["--eval".toList, checkLisp]⟩] ++
             [⟨0, ["--eval".toList, frameLisp],
               userArgs ++ Args ++ ["--eval".toList, frameLisp]⟩] ++
             [⟨1, ["--eval".toList, checkLisp],
               userArgs ++ Args ++ ["--eval".toList, checkLisp]⟩] ++
             [⟨1, ["--eval".toList, frameLisp],
               userArgs ++ Args ++ ["--eval".toList, frameLisp]⟩]⟩) (i := 1) good rfl hc6
  simp only [List.set_cons_zero, List.set_cons_succ, f3] at S7
  have hread : Holds (userArgs ++ Args ++ [uri']) c7 := hh7 hcap
  -- the first call reads what the second one wrote
  have S8 := Steps.alone (grow := grow) (cap := cap) (len := userArgs.length) (files := files)
    (args := [uri]) (k := k3) (rest := [])
    (loads .shared (userArgs.length + Args.length + [uri].length))
    (w := ⟨c7, [.composing [uri] (loads .shared
      (userArgs.length + Args.length + [uri].length)) v.own1 v.own2 [] k3,
           .ready (.ret (.capture (.ok ⟨false, "success".toList⟩)))],
           [] ++ [⟨0, ["--eval".toList, checkLisp],
               userArgs ++ Args ++ ["--eval".toList, checkLisp]⟩] ++
             [⟨0, ["--eval".toList, frameLisp],
               userArgs ++ Args ++ ["--eval".toList, frameLisp]⟩] ++
             [⟨1, ["--eval".toList, checkLisp],
               userArgs ++ Args ++ ["--eval".toList, checkLisp]⟩] ++
             [⟨1, ["--eval".toList, frameLisp],
               userArgs ++ Args ++ ["--eval".toList, frameLisp]⟩] ++
             [⟨1, [uri'], userArgs ++ Args ++ [uri']⟩]⟩) (i := 0)
    (own1 := v.own1) (own2 := v.own2) (argv := []) (by rw [List.append_nil]; rfl)
  have hlen : userArgs.length + Args.length + [uri].length =
      (userArgs ++ Args ++ [uri']).length := by simp only [List.length_append]; rfl
  obtain ⟨_, r8⟩ := reads_loads (a := .shared) ⟨c7, v.own1, v.own2, []⟩ _ hread
    (userArgs.length + Args.length + [uri].length) (Nat.le_of_eq hlen)
  rw [hlen, List.take_length, ← hlen] at r8
  generalize runOps ⟨c7, v.own1, v.own2, []⟩ (loads .shared
    (userArgs.length + Args.length + [uri].length)) = u at *
  simp only [List.set_cons_zero, r8] at S8
  have S9 : Step grow cap userArgs.length _ _ := Step.start (i := 0) (args := [uri]) (k := k3)
    (w := ⟨u.shared, [.composing [uri] [] u.own1 u.own2 ([] ++ (userArgs ++ Args ++ [uri'])) k3,
           .ready (.ret (.capture (.ok ⟨false, "success".toList⟩)))],
           [] ++ [⟨0, ["--eval".toList, checkLisp],
               userArgs ++ Args ++ ["--eval".toList, checkLisp]⟩] ++
             [⟨0, ["--eval".toList, frameLisp],
               userArgs ++ Args ++ ["--eval".toList, frameLisp]⟩] ++
             [⟨1, ["--eval".toList, checkLisp],
               userArgs ++ Args ++ ["--eval".toList, checkLisp]⟩] ++
             [⟨1, ["--eval".toList, frameLisp],
               userArgs ++ Args ++ ["--eval".toList, frameLisp]⟩] ++
             [⟨1, [uri'], userArgs ++ Args ++ [uri']⟩]⟩) good rfl
  simp only [List.set_cons_zero, e3] at S9
  exact ⟨u.shared, (((((((S0.trans S1).trans S2).step S3).trans S4).trans S5).trans S6).trans
    S7).trans S8 |>.step S9⟩

/-- The default configuration is affected: the capacity is 4 and there are no user arguments. -/
example (files : List Str) : ∃ w s, Steps (fun n => 2 * n) 4 ([] : List Str).length files
    ⟨fun _ => [], [], []⟩ w ∧ s ∈ w.log ∧ s.argv ≠ [] ++ fixedArgs ++ s.args := by
  obtain ⟨c, hc⟩ := c37_violation (fun n => 2 * n) 4 [] (by decide) files (fun _ => [])
    (by intro i s h; simp at h) "org-protocol:/a".toList "org-protocol:/b".toList
    ⟨"/a".toList, rfl⟩ ⟨"/b".toList, rfl⟩
  refine ⟨_, ⟨0, ["org-protocol:/a".toList], fixedArgs ++ ["org-protocol:/b".toList]⟩, hc, ?_, ?_⟩
  · simp
  · decide

/-- Two or more user arguments leave no room in the initial array of 4 elements. -/
example (a b : Str) : 4 < [a, b].length + fixedArgs.length + 1 := by
  show 4 < 2 + 2 + 1
  omega

/-- One call at a time is never affected, whatever the capacity: this is why the model of one call
at a time composes arguments by concatenation. -/
theorem c37_sequential (grow : Nat → Nat) (cap : Nat) (userArgs args : List Str) (v : View)
    (h : Holds userArgs v.shared) (hv : v.argv = []) :
    ((execOps grow cap userArgs.length args).foldl Op.run v).argv =
      userArgs ++ fixedArgs ++ args ∧
    Holds userArgs ((execOps grow cap userArgs.length args).foldl Op.run v).shared := by
  obtain ⟨h1, h2, _⟩ := reads_execOps grow cap userArgs args v h
  rw [hv] at h1
  exact ⟨h1, h2⟩

end Burl.Emacs
