import Verif.Emacs.Memory
namespace Burl.Emacs
open Burl.Emacs.Spec

def runOps (v : View) (ops : List Op) : View := ops.foldl Op.run v

theorem runOps_append (v : View) (a b : List Op) :
    runOps v (a ++ b) = runOps (runOps v a) b := List.foldl_append ..

/-- Cells of an array are independent. -/
def Arr (a : Nat → Loc) : Prop :=
  ∀ (v : View) i s j, (v.put (a i) s).get (a j) = if j = i then s else v.get (a j)

/-- Writing to `b` does not change `a`. -/
def Apart (a b : Nat → Loc) : Prop :=
  ∀ (v : View) i s j, (v.put (b i) s).get (a j) = v.get (a j)

theorem arr_shared : Arr .shared := fun _ _ _ _ => rfl
theorem arr_own1 : Arr .own1 := fun _ _ _ _ => rfl
theorem arr_own2 : Arr .own2 := fun _ _ _ _ => rfl
theorem apart_s1 : Apart .shared .own1 := fun _ _ _ _ => rfl
theorem apart_s2 : Apart .shared .own2 := fun _ _ _ _ => rfl
theorem apart_12 : Apart .own1 .own2 := fun _ _ _ _ => rfl

theorem put_argv (v : View) (l : Loc) (s : Str) : (v.put l s).argv = v.argv := by
  cases l <;> rfl

/-- The array begins with the given values. -/
def Reads (v : View) (a : Nat → Loc) (l : List Str) : Prop :=
  ∀ i s, l[i]? = some s → v.get (a i) = s

theorem Reads.put {v : View} {a : Nat → Loc} {l : List Str} (ha : Arr a) (h : Reads v a l)
    (s : Str) : Reads (v.put (a l.length) s) a (l ++ [s]) := by
  intro i x hx
  rw [ha]
  by_cases hi : i = l.length
  · subst hi
    rw [List.getElem?_concat_length] at hx
    rw [if_pos rfl]
    exact Option.some.inj hx
  · rw [if_neg hi]
    apply h i x
    rw [List.getElem?_append] at hx
    split at hx
    · exact hx
    · rename_i hl
      rw [List.getElem?_singleton] at hx
      split at hx
      · omega
      · cases hx

theorem reads_stores {a : Nat → Loc} (ha : Arr a) (vs : List Str) :
    ∀ (v : View) (l : List Str), Reads v a l →
      Reads (runOps v (stores a l.length vs)) a (l ++ vs) ∧
      (runOps v (stores a l.length vs)).argv = v.argv := by
  induction vs with
  | nil => intro v l h; exact ⟨by simpa [stores, runOps] using h, rfl⟩
  | cons s ss ih =>
    intro v l h
    have := ih (v.put (a l.length) s) (l ++ [s]) (h.put ha s)
    rw [List.length_append, List.append_assoc] at this
    exact ⟨this.1, this.2.trans (put_argv _ _ _)⟩

theorem stores_apart {a b : Nat → Loc} (hab : Apart a b) (vs : List Str) :
    ∀ (v : View) (n : Nat) (l : List Str), Reads v a l → Reads (runOps v (stores b n vs)) a l := by
  induction vs with
  | nil => intro v n l h; exact h
  | cons s ss ih =>
    intro v n l h
    refine ih _ _ _ fun i x hx => ?_
    show (v.put _ _).get _ = _
    rw [hab]
    exact h i x hx

theorem reads_moves {a b : Nat → Loc} (hb : Arr b) (hab : Apart a b) (v : View) (l : List Str)
    (h : Reads v a l) (n : Nat) (hn : n ≤ l.length) :
    Reads (runOps v (moves a b n)) a l ∧ Reads (runOps v (moves a b n)) b (l.take n) ∧
    (runOps v (moves a b n)).argv = v.argv := by
  induction n with
  | zero => exact ⟨h, fun i s hs => by simp at hs, rfl⟩
  | succ n ih =>
    obtain ⟨h1, h2, h3⟩ := ih (by omega)
    have hn' : n < l.length := hn
    have e : l.take (n + 1) = l.take n ++ [l[n]] := by rw [List.take_succ_eq_append_getElem hn']
    have el : (l.take n).length = n := by rw [List.length_take]; omega
    have er : runOps v (moves a b (n + 1)) =
        (runOps v (moves a b n)).put (b n) ((runOps v (moves a b n)).get (a n)) := by
      show runOps v (moves a b n ++ _) = _
      rw [runOps_append]
      rfl
    rw [er]
    refine ⟨?_, ?_, (put_argv _ _ _).trans h3⟩
    · intro i s hs
      rw [hab]
      exact h1 i s hs
    · have hx := h1 n l[n] (List.getElem?_eq_getElem hn')
      rw [hx, e]
      have := h2.put hb l[n]
      rwa [el] at this

theorem reads_loads {a : Nat → Loc} (v : View) (l : List Str) (h : Reads v a l) (n : Nat)
    (hn : n ≤ l.length) : (∀ x, (runOps v (loads a n)).get x = v.get x) ∧
      (runOps v (loads a n)).argv = v.argv ++ l.take n := by
  induction n with
  | zero => exact ⟨fun _ => rfl, by simp [loads, runOps]⟩
  | succ n ih =>
    obtain ⟨h1, h2⟩ := ih (by omega)
    have hn' : n < l.length := hn
    have er : runOps v (loads a (n + 1)) = { runOps v (loads a n) with
        argv := (runOps v (loads a n)).argv ++ [(runOps v (loads a n)).get (a n)] } := by
      show runOps v (loads a n ++ _) = _
      rw [runOps_append]
      rfl
    rw [er]
    refine ⟨?_, ?_⟩
    · intro x
      rw [← h1 x]
      cases x <;> rfl
    · show (runOps v (loads a n)).argv ++ [(runOps v (loads a n)).get (a n)] = _
      rw [h1, h2, h n l[n] (List.getElem?_eq_getElem hn'), List.take_succ_eq_append_getElem hn',
        List.append_assoc]

/-- What `append` does to memory when nothing interferes. -/
theorem reads_append (grow : Nat → Nat) {arr new : Nat → Loc} (ha : Arr arr) (hn : Arr new)
    (hab : Apart arr new) (cap : Nat) (vs : List Str) (v : View) (l : List Str)
    (h : Reads v arr l) :
    let r := appendOps grow arr new cap l.length vs
    Reads (runOps v r.2.2) r.1 (l ++ vs) ∧ Reads (runOps v r.2.2) arr l ∧
    (runOps v r.2.2).argv = v.argv := by
  simp only [appendOps]
  split
  · obtain ⟨h1, h2⟩ := reads_stores ha vs v l h
    refine ⟨h1, fun i s hs => h1 i s ?_, h2⟩
    rw [List.getElem?_append_left (List.getElem?_eq_some_iff.mp hs).1]
    exact hs
  · obtain ⟨h1, h2, h3⟩ := reads_moves hn hab v l h l.length (Nat.le_refl _)
    rw [List.take_length] at h2
    simp only [runOps_append]
    obtain ⟨h4, h5⟩ := reads_stores hn vs _ l h2
    exact ⟨h4, stores_apart hab vs _ _ _ h1, h5.trans h3⟩

/-- The array used by the second `append`. -/
def secondArr (grow : Nat → Nat) (cap len : Nat) (args : List Str) : Nat → Loc :=
  (appendOps grow (appendOps grow .shared .own1 cap len Args).1 .own2
    (appendOps grow .shared .own1 cap len Args).2.1 (len + Args.length) args).1

/-- Accesses before the arguments are read. -/
def writeOps (grow : Nat → Nat) (cap len : Nat) (args : List Str) : List Op :=
  (appendOps grow .shared .own1 cap len Args).2.2 ++
  (appendOps grow (appendOps grow .shared .own1 cap len Args).1 .own2
    (appendOps grow .shared .own1 cap len Args).2.1 (len + Args.length) args).2.2

theorem execOps_eq (grow : Nat → Nat) (cap len : Nat) (args : List Str) :
    execOps grow cap len args = writeOps grow cap len args ++
      loads (secondArr grow cap len args) (len + Args.length + args.length) := rfl

theorem firstArr (grow : Nat → Nat) (cap len : Nat) :
    (appendOps grow .shared .own1 cap len Args).1 = .shared ∨
    (appendOps grow .shared .own1 cap len Args).1 = .own1 := by
  unfold appendOps
  split
  · exact .inl rfl
  · exact .inr rfl

/-- Writes of one call when nothing interferes. -/
theorem reads_writeOps (grow : Nat → Nat) (cap : Nat) (userArgs args : List Str) (v : View)
    (h : Reads v .shared userArgs) :
    Reads (runOps v (writeOps grow cap userArgs.length args))
      (secondArr grow cap userArgs.length args) (userArgs ++ Args ++ args) ∧
    Reads (runOps v (writeOps grow cap userArgs.length args)) .shared userArgs ∧
    (runOps v (writeOps grow cap userArgs.length args)).argv = v.argv := by
  unfold writeOps secondArr
  simp only [runOps_append]
  obtain ⟨h1, h2, h3⟩ := reads_append grow arr_shared arr_own1 apart_s1 cap Args v userArgs h
  generalize he : appendOps grow .shared .own1 cap userArgs.length Args = r at *
  rcases r with ⟨a1, cap1, ops1⟩
  have hl : userArgs.length + Args.length = (userArgs ++ Args).length := by
    rw [List.length_append]
  have hf := firstArr grow cap userArgs.length
  rw [he] at hf
  simp only at hf
  simp only at h1 h2 h3 ⊢
  rw [hl]
  have ha1 : Arr a1 := by rcases hf with rfl | rfl <;> first | exact arr_shared | exact arr_own1
  have ha2 : Apart a1 .own2 := by
    rcases hf with rfl | rfl <;> first | exact apart_s2 | exact apart_12
  obtain ⟨h4, h5, h6⟩ := reads_append grow ha1 arr_own2 ha2 cap1 args _ _ h1
  refine ⟨h4, ?_, h6.trans h3⟩
  -- the shared array keeps user arguments
  rcases hf with rfl | rfl
  · intro i s hs
    refine h5 i s ?_
    rw [List.getElem?_append_left (List.getElem?_eq_some_iff.mp hs).1]
    exact hs
  · -- the second append does not touch the shared array
    have hnt : ∀ (ops : List Op) (w : View), (∀ op ∈ ops, ∀ x, (op.run x).shared = x.shared) →
        (runOps w ops).shared = w.shared := by
      intro ops
      induction ops with
      | nil => intro w _; rfl
      | cons op ops ih =>
        intro w hw
        show (runOps (op.run w) ops).shared = _
        rw [ih _ fun o ho => hw o (List.mem_cons_of_mem _ ho)]
        exact hw op List.mem_cons_self w
    have hs1 : ∀ (a : Nat → Loc) (_ : a = .own1 ∨ a = .own2) n vs, ∀ op ∈ stores a n vs,
        ∀ x, (op.run x).shared = x.shared := by
      intro a ha n vs
      induction vs generalizing n with
      | nil => intro op hop; cases hop
      | cons s ss ih =>
        intro op hop x
        rcases List.mem_cons.mp hop with rfl | hop
        · rcases ha with rfl | rfl <;> rfl
        · exact ih _ op hop x
    have hm1 : ∀ (a b : Nat → Loc) (_ : b = .own2) n, ∀ op ∈ moves a b n,
        ∀ x, (op.run x).shared = x.shared := by
      intro a b hb n
      induction n with
      | zero => intro op hop; cases hop
      | succ n ih =>
        intro op hop x
        rcases List.mem_append.mp hop with hop | hop
        · exact ih op hop x
        · rw [List.mem_singleton.mp hop, hb]
          rfl
    intro i s hs
    have : (runOps (runOps v ops1)
        (appendOps grow Loc.own1 Loc.own2 cap1 (userArgs ++ Args).length args).2.2).shared =
        (runOps v ops1).shared := by
      apply hnt
      unfold appendOps
      split
      · exact hs1 _ (.inl rfl) _ _
      · intro op hop
        rcases List.mem_append.mp hop with hop | hop
        · exact hm1 _ _ rfl _ op hop
        · exact hs1 _ (.inr rfl) _ _ op hop
    show (runOps (runOps v ops1) _).shared i = s
    rw [this]
    exact h2 i s hs

/-- One call when nothing interferes: the process gets the arguments of the call, and the user
arguments are intact. -/
theorem reads_execOps (grow : Nat → Nat) (cap : Nat) (userArgs args : List Str) (v : View)
    (h : Reads v .shared userArgs) :
    (runOps v (execOps grow cap userArgs.length args)).argv =
      v.argv ++ (userArgs ++ Args ++ args) ∧
    Reads (runOps v (execOps grow cap userArgs.length args)) .shared userArgs ∧
    Reads (runOps v (execOps grow cap userArgs.length args))
      (secondArr grow cap userArgs.length args) (userArgs ++ Args ++ args) := by
  obtain ⟨h1, h2, h3⟩ := reads_writeOps grow cap userArgs args v h
  rw [execOps_eq, runOps_append]
  have hl : userArgs.length + Args.length + args.length = (userArgs ++ Args ++ args).length := by
    simp only [List.length_append]
  rw [hl]
  obtain ⟨h4, h5⟩ := reads_loads _ _ h1 _ (Nat.le_refl _)
  rw [List.take_length, h3] at h5
  refine ⟨h5, ?_, ?_⟩
  · intro i s hs
    rw [h4]
    exact h2 i s hs
  · intro i s hs
    rw [h4]
    exact h1 i s hs

end Burl.Emacs
