import Verif.Tree.Props
/-! Queries served at the same time.

`net/rpc` runs every call in a goroutine of its own (cmd/burl_backend/burl_backend.go:324-345 and
`rpc.Server.ServeCodec`), so several `UrlMentions` calls may be in progress at once.  Memory is
divided into the index shared by all calls and the objects allocated by each call, which nothing
else points to (`UrlMentions` stores no pointer outside its reply).  Iterations of the two loops are
the atomic steps: an iteration reads the index and reads and writes objects of its own call. -/
namespace Burl.Tree
open Burl.Tree.Spec

/-- Progress of a call of `UrlMentions` (cmd/burl_backend/burl_backend.go:189-191). -/
inductive Phase where
  | counting (queue : Queue) (stack : List (Option Addr)) (stopped : Bool)
  | filtering (root : Addr) (queue : Queue)
  | finished (root : Addr)
  | crashed
  deriving DecidableEq

/-- A call: the filter and limit of its query, the objects it allocated and where it is. -/
structure Call where
  filter : Link → Bool
  limit : Int
  own : Heap
  phase : Phase

/-- One atomic step of a call with the index `base`; the result is the index and the call after
the step.  `none` when the call is over. -/
def stepCall (base : Heap) (c : Call) : Option (Heap × Call) :=
  let mem := base ++ c.own
  let save (h : Heap) (p : Phase) : Option (Heap × Call) :=
    some (h.take base.length, { c with own := h.drop base.length, phase := p })
  match c.phase with
  | .counting q st stopped =>
    if countDone ⟨mem, q, st, stopped⟩ then
      match st.getLast? with
      | some (some a) => match mem[a]? with
        | some (.count k _ n) => save (mem.set a (.count k c.limit n)) (.filtering a [(a, false)])
        | _ => save mem .crashed
      | _ => save mem .crashed
    else match countBody c.filter ⟨mem, q, st, stopped⟩ with
      | .ok s => save s.heap (.counting s.queue s.stack s.stopped)
      | .err e => e.elim
      | .panic => save mem .crashed
  | .filtering a q =>
    if filterDone (mem, q) then save mem (.finished a)
    else match filterBody (mem, q) with
      | .ok s => save s.1 (.filtering a s.2)
      | .err e => e.elim
      | .panic => save mem .crashed
  | .finished _ => none
  | .crashed => none

/-- The backend with calls in progress. -/
structure World where
  index : Heap
  calls : List Call

/-- Any interleaving of steps of the calls; new calls may start at any time. -/
inductive Run (root : Addr) : World → World → Prop where
  | refl {w} : Run root w w
  | step {w w' i c base' c'} : Run root w w' → w'.calls[i]? = some c →
      stepCall w'.index c = some (base', c') → Run root w ⟨base', w'.calls.set i c'⟩
  | start {w w'} (f : Link → Bool) (limit : Int) : Run root w w' →
      Run root w ⟨w'.index, w'.calls ++ [⟨f, limit, [], .counting [(root, false)] [] false⟩]⟩

/-- The index has no annotated nodes and annotated nodes refer to new objects only. -/
def Sep (base h : Heap) : Prop :=
  h.take base.length = base ∧
  ∀ (i : Addr) (c t : Int) (n : Addr), h[i]? = some (.count c t n) →
    base.length ≤ i ∧ base.length ≤ n

theorem Sep.length {base h : Heap} (s : Sep base h) : base.length ≤ h.length := by
  have := congrArg List.length s.1
  rw [List.length_take] at this
  omega

theorem Sep.set_count {base h : Heap} (s : Sep base h) {i n : Addr} {c t c' t' : Int}
    (hi : h[i]? = some (.count c t n)) : Sep base (h.set i (.count c' t' n)) := by
  obtain ⟨h1, h2⟩ := s
  obtain ⟨b1, b2⟩ := h2 i c t n hi
  refine ⟨?_, ?_⟩
  · rw [List.take_set_of_le (by omega), h1]
  · intro j cj tj nj hj
    by_cases e : i = j
    · subst e
      rw [List.getElem?_set_self (lt_of_lookup hi)] at hj
      injection hj with hj
      injection hj with _ _ e3
      exact ⟨b1, e3 ▸ b2⟩
    · rw [List.getElem?_set_ne e] at hj
      exact h2 j cj tj nj hj

theorem Sep.set_plain {base h : Heap} (s : Sep base h) {n : Addr} {o : Obj} (hn : base.length ≤ n)
    (ho : ∀ c t m, o ≠ .count c t m) : Sep base (h.set n o) := by
  obtain ⟨h1, h2⟩ := s
  refine ⟨?_, ?_⟩
  · rw [List.take_set_of_le hn, h1]
  · intro j cj tj nj hj
    by_cases e : n = j
    · subst e
      rcases Nat.lt_or_ge n h.length with hl | hl
      · rw [List.getElem?_set_self hl] at hj
        injection hj with hj
        exact absurd hj (ho _ _ _)
      · rw [List.set_eq_of_length_le hl] at hj
        exact h2 n cj tj nj hj
    · rw [List.getElem?_set_ne e] at hj
      exact h2 j cj tj nj hj

theorem Sep.alloc {base h : Heap} (s : Sep base h) {o : Obj} {c t : Int}
    (ho : ∀ c t m, o ≠ .count c t m) : Sep base (h ++ [o, .count c t h.length]) := by
  have hl := s.length
  obtain ⟨h1, h2⟩ := s
  refine ⟨?_, ?_⟩
  · rw [List.take_append_of_le_length hl, h1]
  · intro j cj tj nj hj
    rcases Nat.lt_or_ge j h.length with e | e
    · rw [List.getElem?_append_left e] at hj
      exact h2 j cj tj nj hj
    · rw [List.getElem?_append_right e] at hj
      obtain ⟨k, hk⟩ : ∃ k, j - h.length = k := ⟨_, rfl⟩
      rw [hk] at hj
      match k with
      | 0 =>
        simp only [List.getElem?_cons_zero] at hj
        injection hj with hj
        exact absurd hj (ho _ _ _)
      | 1 =>
        simp only [List.getElem?_cons_succ, List.getElem?_cons_zero] at hj
        injection hj with hj
        injection hj with _ _ e3
        subst e3
        exact ⟨Nat.le_trans hl e, hl⟩
      | k + 2 => simp at hj

theorem load_eq {h : Heap} {a : Addr} {o : Obj} (e : load h a = .ok o) : h[a]? = some o := by
  unfold load at e
  split at e
  · rename_i o' ho
    injection e with e
    rw [ho, e]
  · simp at e

theorem bind_eq_ok {α β : Type} {x : Res Empty α} {f : α → Res Empty β} {y : β}
    (h : x.bind f = .ok y) : ∃ v, x = .ok v ∧ f v = .ok y := by
  cases x with
  | ok v => exact ⟨v, rfl, h⟩
  | err e => exact e.elim
  | panic => simp at h

theorem Sep.cloneAttr {base h : Heap} (s : Sep base h) {f : Link → Bool} {a : Addr} {r}
    (e : cloneAttr h f a = .ok r) : Sep base r.1 := by
  unfold Burl.Tree.cloneAttr at e
  obtain ⟨o, h1, h2⟩ := bind_eq_ok e
  cases o with
  | leaf ls =>
    simp only at h2
    split at h2
    · injection h2 with h2; subst h2; exact s
    · injection h2 with h2; subst h2; exact s.alloc (by simp)
  | node p cs =>
    simp only at h2
    injection h2 with h2
    subst h2
    exact s.alloc (by simp)
  | count c t n => simp at h2

theorem Sep.attach {base h : Heap} (s : Sep base h) {p : Option Addr} {k : Int} {tip : Addr} {r}
    (e : attach h p k tip = .ok r) : Sep base r := by
  unfold Burl.Tree.attach at e
  cases p with
  | none => simp at e
  | some p =>
    simp only at e
    obtain ⟨o, h1, h2⟩ := bind_eq_ok e
    cases o with
    | leaf ls => simp at h2
    | node p cs => simp at h2
    | count c t n =>
      simp only at h2
      obtain ⟨o', h3, h4⟩ := bind_eq_ok h2
      cases o' with
      | leaf ls => simp at h4
      | count _ _ _ => simp at h4
      | node props cs =>
        simp only at h4
        injection h4 with h4
        subst h4
        exact (s.set_count (load_eq h1)).set_plain (s.2 p c t n (load_eq h1)).2 (by simp)

theorem Sep.countBody {base : Heap} {f : Link → Bool} {st st' : CountState} (s : Sep base st.heap)
    (e : countBody f st = .ok st') : Sep base st'.heap := by
  unfold Burl.Tree.countBody at e
  obtain ⟨⟨item, q⟩, _, h2⟩ := bind_eq_ok e
  simp only at h2
  split at h2
  · split at h2
    · simp at h2
    · injection h2 with h2; subst h2; exact s
    · split at h2
      · injection h2 with h2; subst h2; exact s
      · obtain ⟨o, h3, h4⟩ := bind_eq_ok h2
        cases o with
        | leaf _ => simp at h4
        | node _ _ => simp at h4
        | count c t n =>
          simp only at h4
          split at h4
          · obtain ⟨h', h5, h6⟩ := bind_eq_ok h4
            injection h6 with h6
            subst h6
            exact s.attach h5
          · injection h4 with h4; subst h4; exact s
  · obtain ⟨r, h3, h4⟩ := bind_eq_ok h2
    obtain ⟨cs, _, h6⟩ := bind_eq_ok h4
    injection h6 with h6
    subst h6
    exact s.cloneAttr h3

theorem Sep.writeShare {base h : Heap} (s : Sep base h) (kids : List Addr) (x : Nat × Int) :
    Sep base (writeShare kids h x) := by
  unfold Burl.Tree.writeShare
  split
  · exact s
  · split
    · rename_i hb; exact s.set_count hb
    · exact s

theorem Sep.writeShares {base h : Heap} (s : Sep base h) (kids : List Addr)
    (sh : List (Nat × Int)) : Sep base (sh.foldl (Burl.Tree.writeShare kids) h) := by
  induction sh generalizing h with
  | nil => exact s
  | cons x xs ih => exact ih (s.writeShare kids x)

theorem Sep.limit {base h : Heap} (s : Sep base h) {n : Addr} (hn : base.length ≤ n) {t : Int} {r}
    (e : limitChildrenCount h n t = .ok r) : Sep base r := by
  unfold limitChildrenCount at e
  obtain ⟨o, h1, h2⟩ := bind_eq_ok e
  cases o with
  | leaf ls =>
    simp only at h2
    obtain ⟨ls', _, h4⟩ := bind_eq_ok h2
    injection h4 with h4
    subst h4
    exact s.set_plain hn (by simp)
  | count _ _ _ => simp at h2
  | node p cs =>
    simp only at h2
    split at h2
    · injection h2 with h2; subst h2; exact s
    · obtain ⟨counts, _, h4⟩ := bind_eq_ok h2
      obtain ⟨sh, _, h6⟩ := bind_eq_ok h4
      injection h6 with h6
      subst h6
      refine Sep.set_plain ?_ hn (by simp)
      exact s.writeShares cs sh

theorem Sep.filterBody {base : Heap} {st st' : Heap × Queue} (s : Sep base st.1)
    (e : filterBody st = .ok st') : Sep base st'.1 := by
  unfold Burl.Tree.filterBody at e
  obtain ⟨⟨item, q⟩, _, h2⟩ := bind_eq_ok e
  simp only at h2
  obtain ⟨o, h3, h4⟩ := bind_eq_ok h2
  cases o with
  | leaf _ => simp at h4
  | node _ _ => simp at h4
  | count c t n =>
    simp only at h4
    split at h4
    · obtain ⟨own, _, h5⟩ := bind_eq_ok h4
      obtain ⟨cs, _, h6⟩ := bind_eq_ok h5
      obtain ⟨t', _, h7⟩ := bind_eq_ok h6
      injection h7 with h7
      subst h7
      exact s.set_count (load_eq h3)
    · obtain ⟨h', h5, h6⟩ := bind_eq_ok h4
      obtain ⟨cs, _, h7⟩ := bind_eq_ok h6
      injection h7 with h7
      subst h7
      exact s.limit (s.2 _ _ _ _ (load_eq h3)).2 h5

/-- Memory as a call sees it. -/
def Call.mem (base : Heap) (c : Call) : Heap := base ++ c.own

/-- How far a call got, in terms of the loops of a call running alone. -/
def Alone (root : Addr) (base : Heap) (c : Call) : Prop :=
  match c.phase with
  | .counting q st stopped =>
    Steps countDone (countBody c.filter) ⟨base, [(root, false)], [], false⟩
      ⟨c.mem base, q, st, stopped⟩
  | .filtering a q => ∃ h1 k t n, CountDescendants base root c.filter (.ok (h1, some a)) ∧
      h1[a]? = some (.count k t n) ∧
      Steps filterDone filterBody (h1.set a (.count k c.limit n), [(a, false)]) (c.mem base, q)
  | .finished a => ∃ h1, CountDescendants base root c.filter (.ok (h1, some a)) ∧
      FilterChildrenCount h1 a c.limit (.ok (c.mem base))
  | .crashed => CountDescendants base root c.filter .panic ∨
      (∃ h1, CountDescendants base root c.filter (.ok (h1, none))) ∨
      ∃ h1 a, CountDescendants base root c.filter (.ok (h1, some a)) ∧
        FilterChildrenCount h1 a c.limit .panic

/-- Invariant of a call. -/
def Good (root : Addr) (base : Heap) (c : Call) : Prop :=
  Sep base (c.mem base) ∧ Alone root base c

theorem save_mem {base h : Heap} (s : Sep base h) :
    h.take base.length = base ∧ base ++ h.drop base.length = h := by
  refine ⟨s.1, ?_⟩
  conv_lhs => lhs; rw [← s.1]
  rw [List.take_append_drop]

theorem stepCall_good {root : Addr} {base base' : Heap} {c c' : Call} (hg : Good root base c)
    (h : stepCall base c = some (base', c')) :
    base' = base ∧ Good root base c' ∧ c'.filter = c.filter ∧ c'.limit = c.limit := by
  obtain ⟨hs, ha⟩ := hg
  have key : ∀ (m : Heap) (p : Phase), Sep base m →
      (some (m.take base.length, { c with own := m.drop base.length, phase := p }) : Option _) =
        some (base', c') → Alone root base ⟨c.filter, c.limit, m.drop base.length, p⟩ →
      base' = base ∧ Good root base c' ∧ c'.filter = c.filter ∧ c'.limit = c.limit := by
    intro m p hm e hA
    injection e with e
    injection e with e1 e2
    obtain ⟨h1, h2⟩ := save_mem hm
    subst e2
    refine ⟨by rw [← e1, h1], ⟨?_, hA⟩, rfl, rfl⟩
    simp only [Call.mem]
    rw [h2]
    exact hm
  unfold stepCall at h
  simp only at h
  unfold Alone at ha
  cases hp : c.phase with
  | finished a => rw [hp] at h; simp at h
  | crashed => rw [hp] at h; simp at h
  | counting q st stopped =>
    rw [hp] at h ha
    simp only at h ha
    split at h
    · rename_i hd
      have hloop : Loop countDone (countBody c.filter) ⟨base, [(root, false)], [], false⟩
          (.ok ⟨c.mem base, q, st, stopped⟩) := ha.loop (.done hd)
      split at h
      · rename_i a hlast
        have hCD : CountDescendants base root c.filter (.ok (c.mem base, some a)) := by
          refine ⟨_, hloop, ?_⟩
          simp [hlast]
        split at h
        · rename_i k t n hcount
          have hs' : Sep base ((base ++ c.own).set a (.count k c.limit n)) := hs.set_count hcount
          refine key _ _ hs' h ?_
          simp only [Alone]
          refine ⟨_, k, t, n, hCD, hcount, ?_⟩
          simp only [Call.mem]
          rw [(save_mem hs').2]
          exact .refl
        · rename_i hnot
          refine key _ _ hs h ?_
          simp only [Alone]
          right; right
          refine ⟨_, a, hCD, ?_⟩
          unfold FilterChildrenCount
          split
          · rename_i c0 t0 n0 hb
            exact absurd hb (hnot _ _ _)
          · rfl
      · rename_i hlast
        refine key _ _ hs h ?_
        simp only [Alone]
        cases hl : st.getLast? with
        | none =>
          left
          refine ⟨_, hloop, ?_⟩
          simp [hl]
        | some o =>
          cases o with
          | none =>
            right; left
            refine ⟨c.mem base, _, hloop, ?_⟩
            simp [hl]
          | some a => exact absurd hl (hlast a)
    · rename_i hd
      have hd' : countDone ⟨base ++ c.own, q, st, stopped⟩ = false := by
        simpa using hd
      split at h
      · rename_i s' hb
        have hs' : Sep base s'.heap := Sep.countBody (st := ⟨base ++ c.own, q, st, stopped⟩) hs hb
        refine key _ _ hs' h ?_
        simp only [Alone, Call.mem]
        rw [(save_mem hs').2]
        exact ha.trans (.one hd' hb)
      · rename_i e _; exact e.elim
      · rename_i hb
        refine key _ _ hs h ?_
        simp only [Alone]
        left
        exact ⟨.panic, ha.loop (.panic hd' hb), rfl⟩
  | filtering a q =>
    rw [hp] at h ha
    simp only at h ha
    obtain ⟨h1, k, t, n, a1, a2, a3⟩ := ha
    split at h
    · rename_i hd
      refine key _ _ hs h ?_
      simp only [Alone, Call.mem]
      rw [(save_mem (h := base ++ c.own) hs).2]
      refine ⟨h1, a1, ?_⟩
      unfold FilterChildrenCount
      rw [a2]
      exact ⟨_, a3.loop (.done hd), rfl⟩
    · rename_i hd
      have hd' : filterDone (base ++ c.own, q) = false := by simpa using hd
      split at h
      · rename_i s' hb
        have hs' : Sep base s'.1 := Sep.filterBody (st := (base ++ c.own, q)) hs hb
        refine key _ _ hs' h ?_
        simp only [Alone, Call.mem]
        rw [(save_mem hs').2]
        exact ⟨h1, k, t, n, a1, a2, a3.trans (.one hd' hb)⟩
      · rename_i e _; exact e.elim
      · rename_i hb
        refine key _ _ hs h ?_
        simp only [Alone]
        right; right
        refine ⟨h1, a, a1, ?_⟩
        unfold FilterChildrenCount
        rw [a2]
        exact ⟨.panic, a3.loop (.panic hd' hb), rfl⟩

/-- Memory without annotated nodes: what extraction of links creates. -/
def Plain (h : Heap) : Prop := ∀ (i : Addr) (c t : Int) (n : Addr), h[i]? ≠ some (.count c t n)

theorem run_good {root : Addr} {w w' : World} (h : Run root w w') (hp : Plain w.index)
    (hw : w.calls = []) :
    w'.index = w.index ∧ ∀ c ∈ w'.calls, Good root w.index c := by
  induction h with
  | refl => exact ⟨rfl, by rw [hw]; simp⟩
  | step _ hc hstep ih =>
    obtain ⟨i1, i2⟩ := ih
    rw [i1] at hstep
    obtain ⟨e, g, _⟩ := stepCall_good (i2 _ (List.mem_of_getElem? hc)) hstep
    refine ⟨e, ?_⟩
    intro d hd
    rcases List.mem_or_eq_of_mem_set hd with hd | rfl
    · exact i2 d hd
    · exact g
  | start f limit _ ih =>
    obtain ⟨i1, i2⟩ := ih
    refine ⟨i1, ?_⟩
    intro d hd
    rcases List.mem_append.mp hd with hd | hd
    · exact i2 d hd
    · simp only [List.mem_cons, List.not_mem_nil, or_false] at hd
      subst hd
      refine ⟨⟨by simp [Call.mem], ?_⟩, ?_⟩
      · intro i c t n hi
        simp only [Call.mem, List.append_nil] at hi
        exact absurd hi (hp i c t n)
      · simp only [Alone, Call.mem, List.append_nil]
        exact .refl

/-- C23: no interleaving of any number of queries changes the index. -/
theorem c23_concurrent_index {root : Addr} {h : Heap} (hp : Plain h) {w : World}
    (hr : Run root ⟨h, []⟩ w) : w.index = h := (run_good hr hp rfl).1

/-- C23: a call finished in any interleaving with other calls has the reply it would have when
served alone by a backend that has just started. -/
theorem c23_concurrent_answer {root : Addr} {h : Heap} (hp : Plain h)
    {w : World} (hr : Run root ⟨h, []⟩ w) {c : Call} {a : Addr}
    (hc : c ∈ w.calls) (hfin : c.phase = .finished a) {order : Str → List (Str × Str)}
    (ho : Orders order) {q : MentionsQuery} (hq : ∃ u ∈ q.variants, u ≠ [])
    (hf : Decides q c.filter) (hl : c.limit = q.limit) :
    UrlMentions order h (some root) q (.ok (h ++ c.own, a)) := by
  have hg := ((run_good hr hp rfl).2 c hc).2
  unfold Alone at hg
  rw [hfin] at hg
  obtain ⟨h1, g1, g2⟩ := hg
  have hall : ¬ (q.variants.all (·.isEmpty)) = true := by
    obtain ⟨u, h1, h2⟩ := hq
    rw [List.all_eq_true]
    intro hh
    exact h2 (List.isEmpty_iff.mp (hh u h1))
  unfold UrlMentions
  rw [if_neg hall, decides_eq ho hf]
  exact ⟨_, g1, _, by rw [hl] at g2; exact g2, rfl⟩

/-- C23: a call crashes in an interleaving only if it crashes alone. -/
theorem c23_concurrent_crash {root : Addr} {h : Heap} (hp : Plain h)
    {w : World} (hr : Run root ⟨h, []⟩ w) {c : Call}
    (hc : c ∈ w.calls) (hfin : c.phase = .crashed) {order : Str → List (Str × Str)}
    (ho : Orders order) {q : MentionsQuery} (hq : ∃ u ∈ q.variants, u ≠ [])
    (hf : Decides q c.filter) (hl : c.limit = q.limit) :
    UrlMentions order h (some root) q .panic := by
  have hg := ((run_good hr hp rfl).2 c hc).2
  unfold Alone at hg
  rw [hfin] at hg
  have hall : ¬ (q.variants.all (·.isEmpty)) = true := by
    obtain ⟨u, h1, h2⟩ := hq
    rw [List.all_eq_true]
    intro hh
    exact h2 (List.isEmpty_iff.mp (hh u h1))
  unfold UrlMentions
  rw [if_neg hall, decides_eq ho hf]
  rcases hg with g | ⟨h1, g⟩ | ⟨h1, a, g1, g2⟩
  · exact ⟨_, g, rfl⟩
  · exact ⟨_, g, rfl⟩
  · exact ⟨_, g1, _, by rw [hl] at g2; exact g2, rfl⟩

/-- The concrete index has no annotated nodes, and two calls may run interleaved. -/
example : Plain exHeap ∧ ∃ w, Run 8 ⟨exHeap, []⟩ w ∧ w.calls.length = 2 ∧
    ∀ c ∈ w.calls, c.own.length = 2 := by
  refine ⟨?_, ?_⟩
  · intro i c t n h
    have hm : (Obj.count c t n) ∈ exHeap := List.mem_of_getElem? h
    simp [exHeap] at hm
  · exact ⟨_, .step (i := 0) (.step (i := 1) (.start exAccept 2 (.start exAccept 5 .refl)) rfl rfl)
      rfl rfl, rfl, by decide +kernel⟩

end Burl.Tree
