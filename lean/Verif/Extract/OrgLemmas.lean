import Verif.Extract.BuildLemmas
/-! `OrgLinkSource.Extract` and `TxtLinkSource.Extract` refine functions on lists of lines. -/
namespace Burl.Extract
open Burl.Tree (Heap Addr Obj load load_ok RepT RepTs)
open Burl.Tree.Spec (Link Props Tree)
open Spec (paths pathsAll Full FullAll)

/-! ### No empty parts -/

theorem fullAll_append : ∀ {ts us : List Tree}, FullAll ts → FullAll us → FullAll (ts ++ us)
  | [], _, _, h => h
  | _ :: _, _, h, h' => ⟨h.1, fullAll_append h.2 h'⟩

/-- Finished parts and links of open nodes are not empty. -/
def OpenFull (f : Open) : Prop :=
  (∀ a ls, f.leaf = some (a, ls) → ls ≠ []) ∧ FullAll f.subs

def Fulls (fs : List Open) : Prop := ∀ f ∈ fs, OpenFull f

/-- The tip has something in it unless it is the root. -/
def TipFull (fs : List Open) : Prop := 2 ≤ fs.length → ∀ g, fs.head? = some g → g.kids ≠ []

theorem OpenFull.kids {f : Open} (h : OpenFull f) : FullAll f.kids := by
  unfold Open.kids
  cases hl : f.leaf with
  | none => simpa using h.2
  | some al => exact ⟨h.1 al.1 al.2 hl, h.2⟩

theorem Fulls.pop {t g : Open} {fs : List Open} (h : Fulls (t :: g :: fs))
    (ht : TipFull (t :: g :: fs)) :
    Fulls ({ g with
      subs := g.subs ++ [.node t.props t.kids]
      subAddrs := g.subAddrs ++ [t.addr] } :: fs) ∧
    TipFull ({ g with
      subs := g.subs ++ [.node t.props t.kids]
      subAddrs := g.subAddrs ++ [t.addr] } :: fs) := by
  constructor
  · intro f hf
    rcases List.mem_cons.1 hf with rfl | hf
    · have hg := h g (by simp)
      have htf := h t (by simp)
      exact ⟨hg.1, fullAll_append hg.2 ⟨⟨ht (by simp) t rfl, htf.kids⟩, trivial⟩⟩
    · exact h f (by simp [hf])
  · intro _ f hf
    simp at hf; subst hf
    simp [Open.kids]

theorem Fulls.finish : ∀ (n : Nat) {fs : List Open}, fs.length = n + 1 → Fulls fs → TipFull fs →
    ∃ p cs, plug none fs = some (.node p cs) ∧ FullAll cs
  | 0, [f], _, h, _ => ⟨f.props, f.kids, by simp [plug], (h f (by simp)).kids⟩
  | n + 1, t :: g :: fs, hl, h, ht => by
    obtain ⟨h1, h2⟩ := h.pop ht
    obtain ⟨p, cs, h3, h4⟩ := Fulls.finish n (fs := _ :: fs) (by simpa using hl) h1 h2
    exact ⟨p, cs, by rw [← h3, plug_pop _ _ _ _ rfl], h4⟩

/-! ### Closing nodes down to a level -/

theorem Inv.popTo {h0 h : Heap} (k : Nat) (hk : 1 ≤ k) : ∀ (n : Nat) (fs : List Open),
    fs.length = n → Inv h0 h fs → Fulls fs → TipFull fs → ∃ fs', Inv h0 h fs' ∧
      Fulls fs' ∧ TipFull fs' ∧ fs'.map Open.addr = (fs.map Open.addr).drop (fs.length - k) ∧
      fs'.map Open.props = (fs.map Open.props).drop (fs.length - k) ∧ before fs' = before fs ∧
      (fs.length ≤ k → fs' = fs)
  | 0, fs, hn, i, hu, ht => ⟨fs, i, hu, ht, by simp [hn], by simp [hn], rfl, fun _ => rfl⟩
  | n + 1, fs, hn, i, hu, ht => by
    by_cases hle : fs.length ≤ k
    · have : fs.length - k = 0 := by omega
      exact ⟨fs, i, hu, ht, by simp [this], by simp [this], rfl, fun _ => rfl⟩
    · match fs, hn with
      | [f], _ => simp at hle; omega
      | t :: g :: fs, hn =>
        obtain ⟨fs', h1, u1, u2, h2, h3, h4, _⟩ := Inv.popTo k hk n (_ :: fs) (by simpa using hn)
          i.pop (hu.pop ht).1 (hu.pop ht).2
        refine ⟨fs', h1, u1, u2, ?_, ?_, ?_, fun h => absurd h hle⟩
        · rw [h2]
          have : (t :: g :: fs).length - k = (g :: fs).length - k + 1 := by simp at hle ⊢; omega
          rw [this]; simp
        · rw [h3]
          have : (t :: g :: fs).length - k = (g :: fs).length - k + 1 := by simp at hle ⊢; omega
          rw [this]; simp
        · rw [h4, before_pop]

/-! ### The state of the loop -/

structure OInv (h0 : Heap) (root : Addr) (s : OrgState) (fs : List Open) : Prop where
  inv : Inv h0 s.heap fs
  nodes : s.nodes = (fs.map Open.addr).reverse
  root : (fs.map Open.addr).getLast? = some root
  slots : s.slots.length = 10
  len : s.len ≤ 10
  depth : fs.length ≤ s.len + 1
  labels : labels fs = .unset :: (s.slots.take (fs.length - 1)).map slotProps
  full : Fulls fs

theorem OInv.pos {h0 root s fs} (i : OInv h0 root s fs) : 1 ≤ fs.length := by
  cases fs with
  | nil => have := i.root; simp at this
  | cons _ _ => simp

/-- The tip has no finished parts below the links of its own. -/
def TipFresh (s : OrgState) (fs : List Open) : Prop :=
  fs.length = s.len + 1 → ∀ g, fs.head? = some g → g.subs = []

theorem growNodes_spec {h0 : Heap} {root : Addr} : ∀ (k : Nat) (s : OrgState) (fs : List Open),
    OInv h0 root s fs → fs.length + k = s.len + 1 → TipFresh s fs →
    ∃ s' fs', growNodes k s = .ok s' ∧ OInv h0 root s' fs' ∧ fs'.length = s.len + 1 ∧
      s'.slots = s.slots ∧ s'.len = s.len ∧ s'.lineNo = s.lineNo ∧ before fs' = before fs ∧
      (∀ g, fs'.head? = some g → g.subs = [])
  | 0, s, fs, i, hl, hf => ⟨s, fs, rfl, i, by omega, rfl, rfl, rfl, rfl, hf (by omega)⟩
  | k + 1, s, fs, i, hl, _ => by
    have hpos := i.pos
    match fs, hpos, i, hl with
    | g :: fs, _, i, hl =>
      have hnl : s.nodes.length - 1 = fs.length := by rw [i.nodes]; simp
      have hlt : fs.length < s.slots.length := by
        rw [i.slots]; have := i.len; simp at hl; omega
      have hn : s.nodes[s.nodes.length - 1]? = some g.addr := by
        rw [← List.getLast?_eq_getElem?, i.nodes]; simp
      have hs : s.slots[s.nodes.length - 1]? = some s.slots[fs.length] := by
        rw [hnl]; exact List.getElem?_eq_getElem hlt
      obtain ⟨h', hh, i'⟩ := i.inv.push (slotProps s.slots[fs.length])
      have oi : OInv h0 root
          { s with heap := h', nodes := s.nodes ++ [(newNode s.heap (slotProps s.slots[fs.length])).2] }
          (⟨(newNode s.heap (slotProps s.slots[fs.length])).2, slotProps s.slots[fs.length], none,
            [], []⟩ :: g :: fs) := by
        refine ⟨i', ?_, ?_, i.slots, i.len, ?_, ?_, ?_⟩
        · simp [i.nodes]
        · have := i.root; simpa using this
        · simp at hl ⊢; omega
        · have := i.labels
          simp only [Extract.labels, List.map_cons, List.reverse_cons, List.length_cons,
            Nat.add_sub_cancel] at this ⊢
          rw [this, List.take_add_one, List.getElem?_eq_getElem hlt]
          simp only [List.map_append, Option.toList_some, List.map_cons, List.map_nil,
            List.cons_append]
        · intro f hf
          rcases List.mem_cons.1 hf with rfl | hf
          · exact ⟨by simp, trivial⟩
          · exact i.full f hf
      obtain ⟨s2, fs2, e2, oi2, l2, q1, q2, q3, q4, q5⟩ := growNodes_spec k _ _ oi
        (by simp at hl ⊢; omega) (by intro _ g' hg'; simp at hg'; subst hg'; rfl)
      refine ⟨s2, fs2, ?_, oi2, l2, q1, q2, q3, ?_, q5⟩
      · rw [growNodes, hs, hn]
        simp only [hh, Res.bind_ok]
        exact e2
      · rw [q4, before_push _ _ rfl rfl]

theorem onLink_spec {h0 : Heap} {root : Addr} (s : OrgState) (fs : List Open) (l : Link)
    (i : OInv h0 root s fs) (hf : TipFresh s fs) :
    ∃ s' fs', onLink s l = .ok s' ∧ OInv h0 root s' fs' ∧ TipFresh s' fs' ∧ TipFull fs' ∧
      s'.slots = s.slots ∧ s'.len = s.len ∧ s'.lineNo = s.lineNo ∧
      before fs' = before fs ++
        [(.unset :: (s.slots.take s.len).map slotProps, { l with lineNo := s.lineNo })] := by
  have hk : s.nodes.length - 1 = fs.length - 1 := by rw [i.nodes]; simp
  have hpos := i.pos
  have hd := i.depth
  obtain ⟨s1, fs1, e1, i1, l1, q1, q2, q3, q4, q5⟩ := growNodes_spec (s.len - (s.nodes.length - 1))
    s fs i (by omega) hf
  match fs1, i1.pos, i1, l1, q5 with
  | g :: fs1, _, i1, l1, q5 =>
    have hn : s1.nodes[s1.nodes.length - 1]? = some g.addr := by
      rw [← List.getLast?_eq_getElem?, i1.nodes]; simp
    have hsub := q5 g rfl
    obtain ⟨h', g', hh, i2, r1, r2, r3, r4⟩ := i1.inv.link { l with lineNo := s.lineNo }
      (fun _ => hsub)
    refine ⟨{ s1 with heap := h' }, g' :: fs1, ?_, ⟨i2, ?_, ?_, i1.slots, i1.len, ?_, ?_, ?_⟩, ?_, ?_,
      q1, q2, q3, ?_⟩
    · unfold onLink
      rw [e1, Res.bind_ok, hn]
      simp only [q3, hh, Res.bind_ok]
    · have := i1.nodes; simpa [r1] using this
    · have := i1.root; simpa [r1] using this
    · have := i1.depth; simpa using this
    · have := i1.labels; simpa [labels, r2] using this
    · intro f hf
      rcases List.mem_cons.1 hf with rfl | hf
      · refine ⟨fun a ls hal => ?_, by rw [r3]; exact (i1.full g (by simp)).2⟩
        rw [hal] at r4
        simp only [Option.map_some, Option.some.injEq] at r4
        rw [r4]; simp
      · exact i1.full f (List.mem_cons_of_mem _ hf)
    · intro _ g2 hg2
      simp at hg2; subst hg2; rw [r3]; exact hsub
    · intro _ g2 hg2
      simp at hg2; subst hg2
      cases hal : g'.leaf with
      | none => rw [hal] at r4; simp at r4
      | some al => simp [Open.kids, hal]
    · rw [before_link _ r2 hsub r3 r4, q4, i1.labels, l1, q1]
      simp

/-- Effect of the links of a line. -/
theorem onLinks_spec {h0 : Heap} {root : Addr} (filter : Link → Bool) : ∀ (ls : List Link)
    (s : OrgState) (fs : List Open), OInv h0 root s fs → TipFresh s fs → TipFull fs →
    ∃ s' fs', onLinks filter ls s = .ok s' ∧ OInv h0 root s' fs' ∧ TipFresh s' fs' ∧ TipFull fs' ∧
      s'.slots = s.slots ∧ s'.len = s.len ∧ s'.lineNo = s.lineNo ∧
      before fs' = before fs ++ (ls.filter filter).map fun l =>
        (.unset :: (s.slots.take s.len).map slotProps, { l with lineNo := s.lineNo })
  | [], s, fs, i, hf, ht => ⟨s, fs, rfl, i, hf, ht, rfl, rfl, rfl, by simp⟩
  | l :: ls, s, fs, i, hf, ht => by
    rw [onLinks]
    by_cases hl : filter l = true
    · obtain ⟨s1, fs1, e1, i1, f1, t1, q1, q2, q3, q4⟩ := onLink_spec s fs l i hf
      obtain ⟨s2, fs2, e2, i2, f2, t2, p1, p2, p3, p4⟩ := onLinks_spec filter ls s1 fs1 i1 f1 t1
      refine ⟨s2, fs2, ?_, i2, f2, t2, p1.trans q1, p2.trans q2, p3.trans q3, ?_⟩
      · rw [if_pos hl, e1, Res.bind_ok, e2]
      · rw [p4, q4, q1, q2, q3]; simp [hl]
    · obtain ⟨s2, fs2, e2, i2, f2, t2, p1, p2, p3, p4⟩ := onLinks_spec filter ls s fs i hf ht
      refine ⟨s2, fs2, ?_, i2, f2, t2, p1, p2, p3, ?_⟩
      · rw [if_neg hl, e2]
      · rw [p4]; simp [hl]

/-- Level used for a heading. -/
def levelOf (stars : Nat) : Nat := if stars > 10 then 9 else stars

theorem orgHeading_pos {line : Str} {stars : Nat} {text : Str}
    (e : orgHeading line = some (stars, text)) : 1 ≤ stars := by
  unfold orgHeading at e
  simp only at e
  by_cases h1 : (line.takeWhile (· == '*')).isEmpty = true
  · rw [if_pos h1] at e; cases e
  · rw [if_neg h1] at e
    have hs : 1 ≤ (line.takeWhile (· == '*')).length := by
      cases hh : line.takeWhile (· == '*') with
      | nil => simp [hh] at h1
      | cons _ _ => simp
    split at e
    · cases e
    · split at e
      · simp at e; omega
      · split at e
        · cases e
        · simp at e; omega

theorem levelOf_bounds {stars : Nat} (h : 1 ≤ stars) : 1 ≤ levelOf stars ∧ levelOf stars ≤ 10 := by
  unfold levelOf; split <;> omega

theorem onHeading_spec {h0 : Heap} {root : Addr} (s : OrgState) (fs : List Open) (stars : Nat)
    (text : Str) (hs : 1 ≤ stars) (i : OInv h0 root s fs) (ht : TipFull fs) :
    ∃ fs', OInv h0 root (onHeading s stars text) fs' ∧ TipFresh (onHeading s stars text) fs' ∧
      TipFull fs' ∧
      (onHeading s stars text).slots = s.slots.set (levelOf stars - 1) (some (s.lineNo, text)) ∧
      (onHeading s stars text).len = levelOf stars ∧ (onHeading s stars text).lineNo = s.lineNo ∧
      before fs' = before fs := by
  obtain ⟨hl1, hl2⟩ := levelOf_bounds hs
  generalize hlv : levelOf stars = level at hl1 hl2
  have hform : onHeading s stars text =
      { s with nodes := s.nodes.take level
               slots := s.slots.set (level - 1) (some (s.lineNo, text))
               len := level } := by
    unfold onHeading
    simp only
    have hlv' : (if stars > 10 then 9 else stars) = level := hlv
    rw [hlv']
    have e1 : level - 1 + 1 = level := by omega
    by_cases hn : s.nodes.length ≥ level
    · rw [if_pos hn]
      simp only [Nat.sub_self, fillSlots, appendSlot, e1]
    · rw [if_neg hn]
      have : s.nodes.take level = s.nodes := List.take_of_length_le (by omega)
      simp only [Nat.sub_self, fillSlots, appendSlot, e1, this]
  obtain ⟨fs', h1, u1, u2, h2, h3, h4, h5⟩ := i.inv.popTo level hl1 fs.length fs rfl i.full ht
  have hlen' : fs'.length = min fs.length level := by
    have := congrArg List.length h2
    simp at this; omega
  have hpos := i.pos
  refine ⟨fs', ?_, ?_, u2, ?_, ?_, ?_, h4⟩
  · rw [hform]
    refine ⟨h1, ?_, ?_, by simp [i.slots], hl2, by simp only; omega, ?_, u1⟩
    · simp only
      rw [i.nodes, h2, List.take_reverse]
      simp
    · rw [h2, List.getLast?_drop]
      simp only [List.length_map]
      rw [if_neg (by omega)]
      exact i.root
    · have hlab := i.labels
      unfold labels at hlab ⊢
      rw [h3]
      simp only
      have e1 : (List.drop (fs.length - level) (fs.map Open.props)).reverse =
          (fs.map Open.props).reverse.take level := by
        rw [List.take_reverse]; simp
      rw [e1, hlab, hlen']
      obtain ⟨m, rfl⟩ : ∃ m, level = m + 1 := ⟨level - 1, by omega⟩
      rw [List.take_succ_cons, ← List.map_take, List.take_take,
        List.take_set_of_le (by omega)]
      congr 3
      omega
  · rw [hform]
    intro hbad
    simp only at hbad
    omega
  · rw [hform]
  · rw [hform]
  · rw [hform]

/-- Slots after a line: number of the line, array and length. -/
def slotStep (n : Int) (line : Str) (slots : List Slot) (len : Nat) : List Slot × Nat :=
  match orgHeading line with
  | some (stars, text) => (slots.set (levelOf stars - 1) (some (n, text)), levelOf stars)
  | none => (slots, len)

/-- What the code finds: every link with the slots above it. -/
def trace (find : Str → List Link) (filter : Link → Bool) :
    Int → List Slot → Nat → List Str → List (List Slot × Link)
  | _, _, _, [] => []
  | n, slots, len, l :: ls =>
    ((find l).filter filter).map (fun k =>
      ((slotStep n l slots len).1.take (slotStep n l slots len).2, { k with lineNo := n })) ++
    trace find filter (n + 1) (slotStep n l slots len).1 (slotStep n l slots len).2 ls

theorem onLine_spec {h0 : Heap} {root : Addr} (find : Str → List Link) (filter : Link → Bool)
    (s : OrgState) (fs : List Open) (line : Str) (i : OInv h0 root s fs) (hf : TipFresh s fs)
    (ht : TipFull fs) :
    ∃ s' fs', onLine find filter s line = .ok s' ∧ OInv h0 root s' fs' ∧ TipFresh s' fs' ∧ TipFull fs' ∧
      (s'.slots, s'.len) = slotStep (s.lineNo + 1) line s.slots s.len ∧ s'.lineNo = s.lineNo + 1 ∧
      before fs' = before fs ++ ((find line).filter filter).map fun l =>
        (.unset :: (s'.slots.take s'.len).map slotProps, { l with lineNo := s.lineNo + 1 }) := by
  have i0 : OInv h0 root { s with lineNo := s.lineNo + 1 } fs :=
    ⟨i.inv, i.nodes, i.root, i.slots, i.len, i.depth, i.labels, i.full⟩
  unfold onLine slotStep
  simp only
  cases hh : orgHeading line with
  | none =>
    obtain ⟨s2, fs2, e2, i2, f2, t2, p1, p2, p3, p4⟩ := onLinks_spec filter (find line) _ fs i0 hf ht
    refine ⟨s2, fs2, e2, i2, f2, t2, by simp [p1, p2], p3, ?_⟩
    rw [p4, p1, p2]
  | some st =>
    obtain ⟨stars, text⟩ := st
    obtain ⟨fs1, i1, f1, t1, q1, q2, q3, q4⟩ := onHeading_spec _ fs stars text (orgHeading_pos hh) i0 ht
    obtain ⟨s2, fs2, e2, i2, f2, t2, p1, p2, p3, p4⟩ := onLinks_spec filter (find line) _ fs1 i1 f1 t1
    refine ⟨s2, fs2, e2, i2, f2, t2, by simp [p1, p2, q1, q2], p3.trans q3, ?_⟩
    rw [p4, p1, p2, q3, q4]

theorem onLines_spec {h0 : Heap} {root : Addr} (find : Str → List Link) (filter : Link → Bool) :
    ∀ (lines : List Str) (s : OrgState) (fs : List Open), OInv h0 root s fs → TipFresh s fs →
    TipFull fs →
    ∃ s' fs', onLines find filter lines s = .ok s' ∧ OInv h0 root s' fs' ∧ TipFull fs' ∧
      before fs' = before fs ++ (trace find filter (s.lineNo + 1) s.slots s.len lines).map fun e =>
        (.unset :: e.1.map slotProps, e.2)
  | [], s, fs, i, _, ht => ⟨s, fs, rfl, i, ht, by simp [trace]⟩
  | l :: ls, s, fs, i, hf, ht => by
    obtain ⟨s1, fs1, e1, i1, f1, t1, q1, q2, q3⟩ := onLine_spec find filter s fs l i hf ht
    obtain ⟨s2, fs2, e2, i2, t2, p1⟩ := onLines_spec find filter ls s1 fs1 i1 f1 t1
    refine ⟨s2, fs2, ?_, i2, t2, ?_⟩
    · rw [onLines, e1, Res.bind_ok, e2]
    · rw [p1, q3, trace, ← q1, q2]
      simp [Function.comp_def]

theorem pathsAll_shift (a b : List Props) : ∀ ts : List Tree,
    pathsAll (a ++ b) ts = (pathsAll b ts).map fun e => (a ++ e.1, e.2) := by
  intro ts
  refine Tree.rec_1 (motive_1 := fun t => ∀ b, paths (a ++ b) t =
      (paths b t).map fun e => (a ++ e.1, e.2))
    (motive_2 := fun ts => ∀ b, pathsAll (a ++ b) ts =
      (pathsAll b ts).map fun e => (a ++ e.1, e.2)) ?_ ?_ ?_ ?_ ts b
  · intro ls b; simp [paths]
  · intro p cs ih b
    rw [paths, paths, List.append_assoc, ih]
  · intro b; simp [pathsAll]
  · intro t ts h1 h2 b
    rw [pathsAll, pathsAll, h1, h2]; simp

/-- `Built h0 h' root cs`: a new tree with the children `cs` is at `root`, none of its objects is
old, and old objects are unchanged. -/
structure Built (h0 h' : Heap) (p : Props) (root : Addr) (cs : List Tree) : Prop where
  kids : ∃ as, h'[root]? = some (.node p as) ∧
    RepFs h' (fun x => h0.length ≤ x ∧ x < h'.length ∧ x ≠ root) cs as
  full : FullAll cs
  range : h0.length ≤ root ∧ root < h'.length
  frame : ∀ x, x < h0.length → h'[x]? = h0[x]?

theorem Inv.built {h0 h : Heap} {fs : List Open} (i : Inv h0 h fs) (hp : 1 ≤ fs.length)
    (hu : Fulls fs) (ht : TipFull fs)
    {root : Addr} (hr : (fs.map Open.addr).getLast? = some root) {p : Props}
    (hl : (labels fs).head? = some p) :
    ∃ cs, Built h0 h p root cs ∧ pathsAll [p] cs = before fs := by
  obtain ⟨f, i1, ha, hpr, hplug⟩ := Inv.finish (fs.length - 1) (by omega) i
  have hr' : f.addr = root := by rw [hr] at ha; exact (Option.some.inj ha).symm
  have hp' : f.props = p := by
    rw [labels, List.head?_reverse, hpr] at hl; exact Option.some.inj hl
  obtain ⟨h1, h2⟩ := i1.root
  subst hr' hp'
  obtain ⟨q, cs, hq, hcs⟩ := Fulls.finish (fs.length - 1) (by omega) hu ht
  rw [hplug] at hq
  simp only [plug, Option.toList_none, List.append_nil, Option.some.injEq,
    Tree.node.injEq] at hq
  refine ⟨f.kids, ⟨⟨_, h1, h2⟩, by rw [hq.2]; exact hcs, i1.range f.addr (by simp [cellsAll, Open.cells]), i.frame⟩, ?_⟩
  have := paths_plug fs none
  rw [hplug] at this
  simpa [plug, pathsAll, paths] using this

theorem orgExtract_spec (find : Str → List Link) (filter : Link → Bool) (h0 : Heap)
    (lines : List Str) : ∃ h' root cs, orgExtract find filter h0 lines = .ok (h', root) ∧
      Built h0 h' .unset root cs ∧
      pathsAll [] cs = (trace find filter 1 (List.replicate 10 none) 0 lines).map fun e =>
        (e.1.map slotProps, e.2) := by
  have i0 : OInv h0 (newNode h0 .unset).2 ⟨(newNode h0 .unset).1, [(newNode h0 .unset).2],
      List.replicate 10 none, 0, 0⟩ [⟨(newNode h0 .unset).2, .unset, none, [], []⟩] :=
    ⟨Inv.init h0 .unset, rfl, rfl, by simp, by simp, by simp, rfl,
      by intro f hf; simp at hf; subst hf; exact ⟨by simp, trivial⟩⟩
  obtain ⟨s, fs, e, i, ht, hb⟩ := onLines_spec find filter lines _ _ i0
    (by intro _ g hg; simp at hg; subst hg; rfl) (by intro h; simp at h)
  obtain ⟨cs, hbt, hcs⟩ := i.inv.built i.pos i.full ht i.root (p := .unset) (by rw [i.labels]; rfl)
  refine ⟨s.heap, (newNode h0 .unset).2, cs, ?_, hbt, ?_⟩
  · unfold orgExtract
    simp only [e, Res.bind_ok]
  · have h1 := pathsAll_shift [.unset] [] cs
    rw [List.append_nil, hcs, hb] at h1
    simp only [before, labels, Open.kids, List.map_cons, List.map_nil, Option.map_none,
      Option.toList_none, List.append_nil, List.nil_append, pathsAll] at h1
    have h2 := congrArg (List.map fun e : List Props × Link => (e.1.tail, e.2)) h1
    simp only [List.map_map, Function.comp_def, List.cons_append, List.nil_append,
      List.tail_cons, List.map_id'] at h2
    exact h2.symm

/-! ### Text -/

theorem txtLinks_spec {h0 : Heap} (filter : Link → Bool) : ∀ (ls : List Link) (h : Heap)
    (f : Open), Inv h0 h [f] → f.subs = [] → OpenFull f →
    ∃ h' f', txtLinks filter f.addr ls h = .ok h' ∧ Inv h0 h' [f'] ∧ f'.subs = [] ∧ OpenFull f' ∧
      f'.addr = f.addr ∧ f'.props = f.props ∧
      before [f'] = before [f] ++ (ls.filter filter).map ([f.props], ·)
  | [], h, f, i, hs, hu => ⟨h, f, rfl, i, hs, hu, rfl, rfl, by simp⟩
  | l :: ls, h, f, i, hs, hu => by
    rw [txtLinks]
    by_cases hl : filter l = true
    · obtain ⟨h1, f1, e1, i1, r1, r2, r3, r4⟩ := i.link l (fun _ => hs)
      have hu1 : OpenFull f1 := by
        refine ⟨fun a ls hal => ?_, by rw [r3]; exact hu.2⟩
        rw [hal] at r4
        simp only [Option.map_some, Option.some.injEq] at r4
        rw [r4]; simp
      obtain ⟨h2, f2, e2, i2, p1, u2, p2, p3, p4⟩ := txtLinks_spec filter ls h1 f1 i1 (r3.trans hs)
        hu1
      refine ⟨h2, f2, ?_, i2, p1, u2, p2.trans r1, p3.trans r2, ?_⟩
      · rw [if_pos hl, e1, Res.bind_ok, ← r1, e2]
      · rw [p4, before_link l r2 hs r3 r4]; simp [hl, labels, r2]
    · obtain ⟨h2, f2, e2, i2, p1, u2, p2, p3, p4⟩ := txtLinks_spec filter ls h f i hs hu
      refine ⟨h2, f2, ?_, i2, p1, u2, p2, p3, ?_⟩
      · rw [if_neg hl, e2]
      · rw [p4]; simp [hl]

/-- What extraction from a text finds, with line numbers. -/
def txtTrace (find : Str → List Link) (filter : Link → Bool) : Int → List Str → List Link
  | _, [] => []
  | n, l :: ls => ((find l).map fun k => { k with lineNo := n }).filter filter ++
      txtTrace find filter (n + 1) ls

theorem txtLines_spec {h0 : Heap} (find : Str → List Link) (filter : Link → Bool) :
    ∀ (lines : List Str) (n : Int) (h : Heap) (f : Open), Inv h0 h [f] → f.subs = [] → OpenFull f →
    ∃ h' f', txtLines find filter f.addr n lines h = .ok h' ∧ Inv h0 h' [f'] ∧ f'.subs = [] ∧
      OpenFull f' ∧
      f'.addr = f.addr ∧ f'.props = f.props ∧
      before [f'] = before [f] ++ (txtTrace find filter (n + 1) lines).map ([f.props], ·)
  | [], n, h, f, i, hs, hu => ⟨h, f, rfl, i, hs, hu, rfl, rfl, by simp [txtTrace]⟩
  | l :: ls, n, h, f, i, hs, hu => by
    obtain ⟨h1, f1, e1, i1, r1, u1, r2, r3, r4⟩ := txtLinks_spec filter
      ((find l).map fun k => { k with lineNo := n + 1 }) h f i hs hu
    obtain ⟨h2, f2, e2, i2, p1, u2, p2, p3, p4⟩ := txtLines_spec find filter ls (n + 1) h1 f1 i1 r1
      u1
    refine ⟨h2, f2, ?_, i2, p1, u2, p2.trans r2, p3.trans r3, ?_⟩
    · rw [txtLines, e1, Res.bind_ok, ← r2, e2]
    · rw [p4, r4, txtTrace]; simp [r3]

theorem Inv.built_one {h0 h : Heap} {f : Open} (i : Inv h0 h [f]) (hu : OpenFull f) (hs : f.subs = []) :
    ∃ cs, Built h0 h f.props f.addr cs ∧ pathsAll [f.props] cs = before [f] ∧ cs.length ≤ 1 := by
  obtain ⟨h1, h2⟩ := i.root
  refine ⟨f.kids, ⟨⟨_, h1, h2⟩, hu.kids, i.range f.addr (by simp [cellsAll, Open.cells]), i.frame⟩, ?_, ?_⟩
  · have := paths_plug [f] none
    simpa [plug, pathsAll, paths] using this
  · unfold Open.kids
    rw [hs]
    cases f.leaf <;> simp

theorem txtExtract_shape (find : Str → List Link) (filter : Link → Bool) (h0 : Heap)
    (lines : List Str) : ∃ h' root cs, txtExtract find filter h0 lines = .ok (h', root) ∧
      Built h0 h' .unset root cs ∧
      pathsAll [] cs = (txtTrace find filter 1 lines).map ([], ·) ∧ cs.length ≤ 1 := by
  obtain ⟨h, f, e, i, p1, u1, p2, p3, p4⟩ := txtLines_spec find filter lines 0 _ _
    (Inv.init h0 .unset) rfl ⟨by simp, trivial⟩
  obtain ⟨cs, hbt, hcs, hlen⟩ := i.built_one u1 p1
  rw [p2, p3] at hbt
  refine ⟨h, (newNode h0 .unset).2, cs, ?_, hbt, ?_, hlen⟩
  · unfold txtExtract
    simp only at e ⊢
    rw [e, Res.bind_ok]
  · rw [p3] at hcs
    have h1 := pathsAll_shift [.unset] [] cs
    simp only at hcs
    rw [List.append_nil, hcs, p4] at h1
    simp only [before, labels, Open.kids, List.map_cons, List.map_nil, Option.map_none,
      Option.toList_none, List.append_nil, List.nil_append, pathsAll, Int.zero_add] at h1
    have h2 := congrArg (List.map fun e : List Props × Link => (e.1.tail, e.2)) h1
    simp only [List.map_map, Function.comp_def, List.cons_append, List.nil_append,
      List.tail_cons, List.map_id'] at h2
    exact h2.symm

theorem txtExtract_spec (find : Str → List Link) (filter : Link → Bool) (h0 : Heap)
    (lines : List Str) : ∃ h' root cs, txtExtract find filter h0 lines = .ok (h', root) ∧
      Built h0 h' .unset root cs ∧
      pathsAll [] cs = (txtTrace find filter 1 lines).map ([], ·) := by
  obtain ⟨h', root, cs, h1, h2, h3, -⟩ := txtExtract_shape find filter h0 lines
  exact ⟨h', root, cs, h1, h2, h3⟩

end Burl.Extract
