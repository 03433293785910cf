import Verif.Tree.RepLemmas
import Verif.Extract.Model
/-! Construction of a tree in memory refines operations on a list of open nodes. -/
namespace Burl.Extract
open Burl.Tree (Heap Addr Obj load load_ok RepT RepTs)
open Burl.Tree.Spec (Link Props Tree)
open Spec (paths pathsAll)

mutual
/-- `t` is at `a`, all its objects have addresses in `P`. -/
def RepF (h : Heap) (P : Addr → Prop) : Tree → Addr → Prop
  | .body ls, a => P a ∧ h[a]? = some (.leaf ls)
  | .node p cs, a => P a ∧ ∃ as, h[a]? = some (.node p as) ∧ RepFs h P cs as
def RepFs (h : Heap) (P : Addr → Prop) : List Tree → List Addr → Prop
  | [], as => as = []
  | t :: ts, as => ∃ a rest, as = a :: rest ∧ RepF h P t a ∧ RepFs h P ts rest
end

mutual
theorem RepF.mono {h h' : Heap} {P Q : Addr → Prop} (e : ∀ x, P x → h'[x]? = h[x]? ∧ Q x) :
    ∀ (t : Tree) (a : Addr), RepF h P t a → RepF h' Q t a
  | .body _, a, r => by
    simp only [RepF] at r ⊢
    exact ⟨(e a r.1).2, by rw [(e a r.1).1]; exact r.2⟩
  | .node p cs, a, r => by
    simp only [RepF] at r ⊢
    obtain ⟨pa, as, ha, rs⟩ := r
    exact ⟨(e a pa).2, as, by rw [(e a pa).1]; exact ha, RepFs.mono e cs as rs⟩
theorem RepFs.mono {h h' : Heap} {P Q : Addr → Prop} (e : ∀ x, P x → h'[x]? = h[x]? ∧ Q x) :
    ∀ (ts : List Tree) (as : List Addr), RepFs h P ts as → RepFs h' Q ts as
  | [], as, r => by simpa only [RepFs] using r
  | t :: ts, as, r => by
    simp only [RepFs] at r ⊢
    obtain ⟨a, rest, he, r1, r2⟩ := r
    exact ⟨a, rest, he, RepF.mono e t a r1, RepFs.mono e ts rest r2⟩
end

mutual
theorem RepF.rep {h : Heap} {P : Addr → Prop} :
    ∀ (t : Tree) (a : Addr), RepF h P t a → RepT h t a
  | .body _, a, r => by simp only [RepF, RepT] at r ⊢; exact r.2
  | .node p cs, a, r => by
    simp only [RepF, RepT] at r ⊢
    obtain ⟨_, as, ha, rs⟩ := r
    exact ⟨as, ha, RepFs.rep cs as rs⟩
theorem RepFs.rep {h : Heap} {P : Addr → Prop} :
    ∀ (ts : List Tree) (as : List Addr), RepFs h P ts as → RepTs h ts as
  | [], as, r => by simpa only [RepFs, RepTs] using r
  | t :: ts, as, r => by
    simp only [RepFs, RepTs] at r ⊢
    obtain ⟨a, rest, he, r1, r2⟩ := r
    exact ⟨a, rest, he, RepF.rep t a r1, RepFs.rep ts rest r2⟩
end

theorem RepFs.append {h : Heap} {P : Addr → Prop} : ∀ {ts ts' : List Tree} {as as' : List Addr},
    RepFs h P ts as → RepFs h P ts' as' → RepFs h P (ts ++ ts') (as ++ as')
  | [], _, as, _, r, r' => by
    simp only [RepFs] at r; subst r; simpa using r'
  | t :: ts, _, as, _, r, r' => by
    simp only [RepFs] at r
    obtain ⟨a, rest, he, r1, r2⟩ := r
    subst he
    exact ⟨a, _, rfl, r1, r2.append r'⟩

theorem RepFs.one {h : Heap} {P : Addr → Prop} {t : Tree} {a : Addr} (r : RepF h P t a) :
    RepFs h P [t] [a] := ⟨a, [], rfl, r, rfl⟩

theorem RepFs.length {h : Heap} {P : Addr → Prop} : ∀ {ts : List Tree} {as : List Addr},
    RepFs h P ts as → as.length = ts.length
  | [], as, r => by simp only [RepFs] at r; simp [r]
  | t :: ts, as, r => by
    simp only [RepFs] at r
    obtain ⟨a, rest, he, _, r2⟩ := r
    subst he; simp [r2.length]

/-! ### Open nodes -/

/-- A node still under construction: its own links and the finished subtrees behind them. -/
structure Open where
  addr : Addr
  props : Props
  leaf : Option (Addr × List Link)
  subs : List Tree
  subAddrs : List Addr

namespace Open
def kids (f : Open) : List Tree := (f.leaf.map fun l => Tree.body l.2).toList ++ f.subs
def kidAddrs (f : Open) : List Addr := (f.leaf.map (·.1)).toList ++ f.subAddrs
def cells (f : Open) : List Addr := f.addr :: (f.leaf.map (·.1)).toList
end Open

/-- The tree: the tip comes first. -/
def plug : Option Tree → List Open → Option Tree
  | c, [] => c
  | c, f :: fs => plug (some (.node f.props (f.kids ++ c.toList))) fs

def Spine (h : Heap) : Option Addr → List Open → Prop
  | _, [] => True
  | c, f :: fs => h[f.addr]? = some (.node f.props (f.kidAddrs ++ c.toList)) ∧
      Spine h (some f.addr) fs

def cellsAll (fs : List Open) : List Addr := fs.flatMap Open.cells

/-- Addresses of finished parts. -/
def Done (base top : Nat) (fs : List Open) (x : Addr) : Prop :=
  base ≤ x ∧ x < top ∧ x ∉ cellsAll fs

def Contents (h : Heap) (P : Addr → Prop) (f : Open) : Prop :=
  (∀ a ls, f.leaf = some (a, ls) → h[a]? = some (.leaf ls)) ∧ RepFs h P f.subs f.subAddrs

structure Inv (h0 h : Heap) (fs : List Open) : Prop where
  spine : Spine h none fs
  own : ∀ f ∈ fs, Contents h (Done h0.length h.length fs) f
  nodup : (cellsAll fs).Nodup
  range : ∀ x ∈ cellsAll fs, h0.length ≤ x ∧ x < h.length
  grows : h0.length ≤ h.length
  frame : ∀ x, x < h0.length → h[x]? = h0[x]?

theorem Spine.of_eq {h h' : Heap} : ∀ {fs : List Open} {c : Option Addr},
    (∀ x ∈ cellsAll fs, h'[x]? = h[x]?) → Spine h c fs → Spine h' c fs
  | [], _, _, _ => trivial
  | f :: fs, c, e, s => by
    simp only [cellsAll, List.flatMap_cons] at e
    refine ⟨?_, Spine.of_eq (fun x hx => e x (List.mem_append_right _ hx)) s.2⟩
    rw [e f.addr (List.mem_append_left _ (by simp [Open.cells]))]; exact s.1

theorem mem_cells_leaf {f : Open} {a : Addr} {ls : List Link} (e : f.leaf = some (a, ls)) :
    a ∈ f.cells := by simp [Open.cells, e]

theorem mem_cellsAll {fs : List Open} {f : Open} {x : Addr} (hf : f ∈ fs) (hx : x ∈ f.cells) :
    x ∈ cellsAll fs := List.mem_flatMap.2 ⟨f, hf, hx⟩

/-- The tip is finished. -/
theorem Inv.pop {h0 h : Heap} {t g : Open} {fs : List Open} (i : Inv h0 h (t :: g :: fs)) :
    Inv h0 h ({ g with
      subs := g.subs ++ [.node t.props t.kids]
      subAddrs := g.subAddrs ++ [t.addr] } :: fs) := by
  have hnd := i.nodup
  have hsp := i.spine
  simp only [cellsAll, List.flatMap_cons] at hnd
  have hsub : ∀ x, Done h0.length h.length (t :: g :: fs) x → Done h0.length h.length
      ({ g with subs := g.subs ++ [.node t.props t.kids]
                subAddrs := g.subAddrs ++ [t.addr] } :: fs) x := by
    intro x hx
    refine ⟨hx.1, hx.2.1, fun hm => hx.2.2 ?_⟩
    simp only [cellsAll, List.flatMap_cons, List.mem_append, Open.cells] at hm ⊢
    exact Or.inr hm
  have hcell : ∀ x ∈ t.cells, Done h0.length h.length
      ({ g with subs := g.subs ++ [.node t.props t.kids]
                subAddrs := g.subAddrs ++ [t.addr] } :: fs) x := by
    intro x hx
    have hr := i.range x (mem_cellsAll (List.mem_cons_self) hx)
    refine ⟨hr.1, hr.2, fun hm => ?_⟩
    have := (List.nodup_append.1 hnd).2.2 x hx x (by
      simp only [cellsAll, List.flatMap_cons, List.mem_append, Open.cells] at hm ⊢
      exact hm)
    exact this rfl
  have hkids : RepFs h (Done h0.length h.length
      ({ g with subs := g.subs ++ [.node t.props t.kids]
                subAddrs := g.subAddrs ++ [t.addr] } :: fs)) t.kids t.kidAddrs := by
    have ho := i.own t List.mem_cons_self
    have hs := RepFs.mono (Q := Done h0.length h.length
      ({ g with subs := g.subs ++ [.node t.props t.kids]
                subAddrs := g.subAddrs ++ [t.addr] } :: fs)) (fun x hx => ⟨rfl, hsub x hx⟩) _ _ ho.2
    generalize Done h0.length h.length _ = P at hs hcell ⊢
    unfold Open.kids Open.kidAddrs
    cases hl : t.leaf with
    | none => simpa using hs
    | some al =>
      obtain ⟨a, ls⟩ := al
      exact RepFs.append (RepFs.one (t := .body ls) (a := a)
        ⟨hcell a (mem_cells_leaf hl), ho.1 a ls hl⟩) hs
  refine ⟨⟨?_, hsp.2.2⟩, ?_, ?_, ?_, i.grows, i.frame⟩
  · have := hsp.2.1
    simpa [Open.kidAddrs, List.append_assoc] using this
  · intro f hf
    rcases List.mem_cons.1 hf with rfl | hf
    · have ho := i.own g (by simp)
      refine ⟨ho.1, ?_⟩
      refine RepFs.append (RepFs.mono (fun x hx => ⟨rfl, hsub x hx⟩) _ _ ho.2) (RepFs.one ?_)
      refine ⟨hcell t.addr (by simp [Open.cells]), t.kidAddrs, ?_, hkids⟩
      have := hsp.1
      simpa using this
    · have ho := i.own f (by simp [hf])
      exact ⟨ho.1, RepFs.mono (fun x hx => ⟨rfl, hsub x hx⟩) _ _ ho.2⟩
  · exact (List.nodup_append.1 hnd).2.1
  · intro x hx
    exact i.range x (by
      simp only [cellsAll, List.flatMap_cons, List.mem_append, Open.cells] at hx ⊢
      exact Or.inr hx)

theorem plug_pop (c : Option Tree) (t g : Open) (fs : List Open) (hc : c = none) :
    plug c ({ g with
      subs := g.subs ++ [.node t.props t.kids]
      subAddrs := g.subAddrs ++ [t.addr] } :: fs) = plug c (t :: g :: fs) := by
  subst hc
  simp [plug, Open.kids]

/-- All open nodes but the root are finished. -/
theorem Inv.finish {h0 h : Heap} : ∀ (n : Nat) {fs : List Open}, fs.length = n + 1 →
    Inv h0 h fs → ∃ f, Inv h0 h [f] ∧ (fs.map Open.addr).getLast? = some f.addr ∧
      (fs.map Open.props).getLast? = some f.props ∧ plug none fs = plug none [f]
  | 0, [f], _, i => ⟨f, i, rfl, rfl, rfl⟩
  | n + 1, t :: g :: fs, hl, i => by
    obtain ⟨f, h1, h2, h3, h4⟩ := Inv.finish n (fs := _ :: fs) (by simpa using hl) i.pop
    refine ⟨f, h1, ?_, ?_, ?_⟩
    · simpa using h2
    · simpa using h3
    · rw [← h4, plug_pop _ _ _ _ rfl]

theorem Inv.root {h0 h : Heap} {f : Open} (i : Inv h0 h [f]) :
    h[f.addr]? = some (.node f.props f.kidAddrs) ∧
    RepFs h (fun x => h0.length ≤ x ∧ x < h.length ∧ x ≠ f.addr) f.kids f.kidAddrs := by
  have hs := i.spine.1
  refine ⟨by simpa using hs, ?_⟩
  have ho := i.own f (by simp)
  have hn := i.nodup
  have hsub := RepFs.mono (Q := fun x => h0.length ≤ x ∧ x < h.length ∧ x ≠ f.addr)
    (fun x hx => ⟨rfl, hx.1, hx.2.1, fun e => hx.2.2 (by
      subst e; simp [cellsAll, Open.cells])⟩) _ _ ho.2
  unfold Open.kids Open.kidAddrs
  cases hl : f.leaf with
  | none => simpa using hsub
  | some al =>
    obtain ⟨a, ls⟩ := al
    have hr := i.range a (mem_cellsAll (by simp) (mem_cells_leaf hl))
    refine RepFs.append (RepFs.one (t := .body ls) (a := a) ⟨⟨hr.1, hr.2, ?_⟩, ho.1 a ls hl⟩) hsub
    rintro rfl
    simp [cellsAll, Open.cells, hl] at hn

theorem getElem?_set_ne' {h : Heap} {a x : Addr} {o : Obj} (e : x ≠ a) :
    (h.set a o)[x]? = h[x]? := List.getElem?_set_ne (fun he => e he.symm)

/-- A new node below the tip. -/
theorem Inv.push {h0 h : Heap} {g : Open} {fs : List Open} (p : Props)
    (i : Inv h0 h (g :: fs)) :
    ∃ h', addChild (newNode h p).1 g.addr (newNode h p).2 = .ok h' ∧
      Inv h0 h' (⟨(newNode h p).2, p, none, [], []⟩ :: g :: fs) := by
  have hg := i.range g.addr (mem_cellsAll (List.mem_cons_self) (by simp [Open.cells]))
  have hgo : h[g.addr]? = some (.node g.props g.kidAddrs) := by simpa using i.spine.1
  have hld : (h ++ [Obj.node p []])[g.addr]? = some (.node g.props g.kidAddrs) := by
    rw [List.getElem?_append_left hg.2]; exact hgo
  refine ⟨(h ++ [Obj.node p []]).set g.addr (.node g.props (g.kidAddrs ++ [h.length])),
    by simp only [addChild, newNode, load_ok hld, Res.bind_ok], ?_⟩
  simp only [newNode]
  have hfresh : ∀ x ∈ cellsAll (g :: fs), x ≠ h.length :=
    fun x hx => Nat.ne_of_lt (i.range x hx).2
  have hsame : ∀ x, x < h.length → x ≠ g.addr →
      ((h ++ [Obj.node p []]).set g.addr (.node g.props (g.kidAddrs ++ [h.length])))[x]? = h[x]? := by
    intro x hx hn
    rw [getElem?_set_ne' hn, List.getElem?_append_left hx]
  have hnd := i.nodup
  simp only [cellsAll, List.flatMap_cons, Open.cells] at hnd
  have hlen : ((h ++ [Obj.node p []]).set g.addr (.node g.props (g.kidAddrs ++ [h.length]))).length
      = h.length + 1 := by simp
  have hdone : ∀ x, Done h0.length h.length (g :: fs) x →
      ((h ++ [Obj.node p []]).set g.addr (.node g.props (g.kidAddrs ++ [h.length])))[x]? = h[x]? ∧
      Done h0.length (h.length + 1) (⟨h.length, p, none, [], []⟩ :: g :: fs) x := by
    intro x hx
    refine ⟨hsame x hx.2.1 (fun e => hx.2.2 (by subst e; simp [cellsAll, Open.cells])),
      hx.1, Nat.lt_succ_of_lt hx.2.1, fun hm => ?_⟩
    simp only [cellsAll, List.flatMap_cons, Open.cells, Option.map_none, Option.toList_none,
      List.cons_append, List.nil_append, List.mem_cons] at hm
    rcases hm with rfl | hm
    · exact Nat.lt_irrefl _ hx.2.1
    · exact hx.2.2 (by simpa [cellsAll, Open.cells] using hm)
  refine ⟨⟨?_, ?_, ?_⟩, ?_, ?_, ?_, ?_, ?_⟩
  · rw [getElem?_set_ne' (Nat.ne_of_gt hg.2)]
    simp [Open.kidAddrs]
  · rw [List.getElem?_set_self (by simp; exact Nat.lt_succ_of_lt hg.2)]
    simp
  · refine Spine.of_eq (fun x hx => hsame x ?_ ?_) i.spine.2
    · exact (i.range x (by simp only [cellsAll, List.flatMap_cons, List.mem_append]; exact .inr hx)).2
    · rintro rfl
      exact (List.nodup_cons.1 hnd).1 (List.mem_append_right _ hx)
  · intro f hf
    rw [hlen]
    rcases List.mem_cons.1 hf with rfl | hf
    · exact ⟨by simp, by simp [RepFs]⟩
    · have ho := i.own f hf
      refine ⟨fun a ls hl => ?_, RepFs.mono hdone _ _ ho.2⟩
      have hm := mem_cellsAll hf (mem_cells_leaf hl)
      rw [hsame a (i.range a hm).2 ?_]
      · exact ho.1 a ls hl
      · rintro rfl
        have h1 := ho.1 _ _ hl
        rw [hgo] at h1
        cases h1
  · simp only [cellsAll, List.flatMap_cons, Open.cells, Option.map_none, Option.toList_none,
      List.cons_append, List.nil_append, List.nodup_cons]
    refine ⟨fun hm => hfresh _ ?_ rfl, by simpa using hnd⟩
    simpa [cellsAll, Open.cells] using hm
  · intro x hx
    rw [hlen]
    simp only [cellsAll, List.flatMap_cons, Open.cells, Option.map_none, Option.toList_none,
      List.cons_append, List.nil_append, List.mem_cons] at hx
    rcases hx with rfl | hx
    · exact ⟨i.grows, Nat.lt_succ_self _⟩
    · have := i.range x (by simpa [cellsAll, Open.cells] using hx)
      exact ⟨this.1, Nat.lt_succ_of_lt this.2⟩
  · rw [hlen]; exact Nat.le_succ_of_le i.grows
  · intro x hx
    rw [hsame x (Nat.lt_of_lt_of_le hx i.grows) (Nat.ne_of_lt (Nat.lt_of_lt_of_le hx hg.1))]
    exact i.frame x hx

/-- A link added to a tip that has its own links first or nothing at all. -/
theorem Inv.link {h0 h : Heap} {g : Open} {fs : List Open} (l : Link)
    (i : Inv h0 h (g :: fs)) (hg : g.leaf = none → g.subs = []) :
    ∃ h' g', addLink h g.addr l = .ok h' ∧ Inv h0 h' (g' :: fs) ∧ g'.addr = g.addr ∧
      g'.props = g.props ∧ g'.subs = g.subs ∧
      g'.leaf.map (·.2) = some ((g.leaf.map (·.2)).getD [] ++ [l]) := by
  have hgr := i.range g.addr (mem_cellsAll (List.mem_cons_self) (by simp [Open.cells]))
  have hgo : h[g.addr]? = some (.node g.props g.kidAddrs) := by simpa using i.spine.1
  have hnd := i.nodup
  simp only [cellsAll, List.flatMap_cons, Open.cells] at hnd
  cases hl : g.leaf with
  | some al =>
    obtain ⟨a, ls⟩ := al
    have ho := i.own g (by simp)
    have ha := ho.1 a ls hl
    have ham := mem_cellsAll (fs := g :: fs) (List.mem_cons_self) (mem_cells_leaf hl)
    have har := i.range a ham
    have hka : g.kidAddrs = a :: g.subAddrs := by simp [Open.kidAddrs, hl]
    have hne : g.addr ≠ a := by
      intro e; rw [e, ha] at hgo; cases hgo
    refine ⟨h.set a (.leaf (ls ++ [l])), { g with leaf := some (a, ls ++ [l]) }, ?_, ?_, rfl, rfl,
      rfl, by simp⟩
    · rw [hka] at hgo
      simp only [addLink, load_ok hgo, load_ok ha, Res.bind_ok]
    · have hcells : cellsAll ({ g with leaf := some (a, ls ++ [l]) } :: fs) = cellsAll (g :: fs) := by
        simp [cellsAll, Open.cells, hl]
      refine ⟨⟨?_, ?_⟩, ?_, by rw [hcells]; exact i.nodup, ?_, by simpa using i.grows, ?_⟩
      · have hk : (Open.kidAddrs { g with leaf := some (a, ls ++ [l]) }) = g.kidAddrs := by
          simp [Open.kidAddrs, hl]
        rw [getElem?_set_ne' hne, hk]
        simpa using hgo
      · refine Spine.of_eq (fun x hx => getElem?_set_ne' ?_) i.spine.2
        rintro rfl
        rw [hl] at hnd
        simp only [Option.map_some, Option.toList_some, List.cons_append, List.nil_append,
          List.nodup_cons] at hnd
        exact hnd.2.1 hx
      · intro f hf
        rw [List.length_set]
        have hdone : ∀ x, Done h0.length h.length (g :: fs) x →
            (h.set a (.leaf (ls ++ [l])))[x]? = h[x]? ∧
            Done h0.length h.length ({ g with leaf := some (a, ls ++ [l]) } :: fs) x := by
          intro x hx
          refine ⟨getElem?_set_ne' (fun e => hx.2.2 (e ▸ ham)), hx.1, hx.2.1, ?_⟩
          rw [hcells]; exact hx.2.2
        rcases List.mem_cons.1 hf with rfl | hf2
        · refine ⟨fun b ks hb => ?_, RepFs.mono hdone _ _ ho.2⟩
          simp only [Option.some.injEq, Prod.mk.injEq] at hb
          rw [← hb.1, ← hb.2, List.getElem?_set_self har.2]
        · have hof := i.own f (List.mem_cons_of_mem _ hf2)
          refine ⟨fun b ks hb => ?_, RepFs.mono hdone _ _ hof.2⟩
          rw [getElem?_set_ne' ?_]
          · exact hof.1 b ks hb
          · rintro rfl
            rw [hl] at hnd
            simp only [Option.map_some, Option.toList_some, List.cons_append, List.nil_append,
              List.nodup_cons] at hnd
            exact hnd.2.1 (mem_cellsAll hf2 (mem_cells_leaf hb))
      · intro x hx
        rw [hcells] at hx
        simpa using i.range x hx
      · intro x hx
        rw [getElem?_set_ne' (Nat.ne_of_lt (Nat.lt_of_lt_of_le hx har.1))]
        exact i.frame x hx
  | none =>
    have hs := hg hl
    have ho := i.own g (by simp)
    have hsa : g.subAddrs = [] := by
      have := ho.2; rw [hs] at this; simpa [RepFs] using this
    have hka : g.kidAddrs = [] := by simp [Open.kidAddrs, hl, hsa]
    rw [hka] at hgo
    have hsame : ∀ x, x < h.length → x ≠ g.addr →
        ((h ++ [Obj.leaf [l]]).set g.addr (.node g.props [h.length]))[x]? = h[x]? := by
      intro x hx hn
      rw [getElem?_set_ne' hn, List.getElem?_append_left hx]
    have hlen : ((h ++ [Obj.leaf [l]]).set g.addr (.node g.props [h.length])).length
        = h.length + 1 := by simp
    have hcells : cellsAll ({ g with leaf := some (h.length, [l]) } :: fs) =
        g.addr :: h.length :: cellsAll fs := by simp [cellsAll, Open.cells]
    have hcells0 : cellsAll (g :: fs) = g.addr :: cellsAll fs := by
      simp [cellsAll, Open.cells, hl]
    have hnd0 := i.nodup
    rw [hcells0, List.nodup_cons] at hnd0
    refine ⟨(h ++ [Obj.leaf [l]]).set g.addr (.node g.props [h.length]),
      { g with leaf := some (h.length, [l]) }, ?_, ?_, rfl, rfl,
      rfl, by simp⟩
    · simp only [addLink, load_ok hgo, Res.bind_ok]
    · have hdone : ∀ x, Done h0.length h.length (g :: fs) x →
          ((h ++ [Obj.leaf [l]]).set g.addr (.node g.props [h.length]))[x]? = h[x]? ∧
          Done h0.length (h.length + 1) ({ g with leaf := some (h.length, [l]) } :: fs) x := by
        intro x hx
        refine ⟨hsame x hx.2.1 (fun e => hx.2.2 (by subst e; simp [hcells0])),
          hx.1, Nat.lt_succ_of_lt hx.2.1, fun hm => ?_⟩
        rw [hcells, List.mem_cons, List.mem_cons] at hm
        have hx2 := hx.2.2
        rw [hcells0, List.mem_cons] at hx2
        rcases hm with h1 | h1 | h1
        · exact hx2 (.inl h1)
        · subst h1; exact Nat.lt_irrefl _ hx.2.1
        · exact hx2 (.inr h1)
      have hfs : ∀ x ∈ cellsAll fs, x < h.length ∧ x ≠ g.addr := by
        intro x hx
        refine ⟨(i.range x (by rw [hcells0]; exact List.mem_cons_of_mem _ hx)).2, ?_⟩
        rintro rfl
        exact hnd0.1 hx
      refine ⟨⟨?_, ?_⟩, ?_, ?_, ?_, ?_, ?_⟩
      · rw [List.getElem?_set_self (by simp; exact Nat.lt_succ_of_lt hgr.2)]
        simp [Open.kidAddrs, hsa]
      · exact Spine.of_eq (fun x hx => hsame x (hfs x hx).1 (hfs x hx).2) i.spine.2
      · intro f hf
        rw [hlen]
        rcases List.mem_cons.1 hf with rfl | hf
        · refine ⟨fun b ks hb => ?_, by simp only [hs, hsa, RepFs]⟩
          simp only [Option.some.injEq, Prod.mk.injEq] at hb
          rw [← hb.1, ← hb.2, getElem?_set_ne' (Nat.ne_of_gt hgr.2)]
          simp
        · have hof := i.own f (List.mem_cons_of_mem _ hf)
          refine ⟨fun b ks hb => ?_, RepFs.mono hdone _ _ hof.2⟩
          have hm := hfs b (mem_cellsAll hf (mem_cells_leaf hb))
          rw [hsame b hm.1 hm.2]
          exact hof.1 b ks hb
      · rw [hcells, List.nodup_cons, List.nodup_cons, List.mem_cons]
        refine ⟨?_, ?_, hnd0.2⟩
        · rintro (e | e)
          · exact Nat.ne_of_lt hgr.2 e
          · exact hnd0.1 e
        · intro e
          exact Nat.lt_irrefl _ (hfs _ e).1
      · intro x hx
        rw [hlen]
        rw [hcells, List.mem_cons, List.mem_cons] at hx
        rcases hx with rfl | rfl | hx
        · exact ⟨hgr.1, Nat.lt_succ_of_lt hgr.2⟩
        · exact ⟨i.grows, Nat.lt_succ_self _⟩
        · have := i.range x (by rw [hcells0]; exact List.mem_cons_of_mem _ hx)
          exact ⟨this.1, Nat.lt_succ_of_lt this.2⟩
      · rw [hlen]; exact Nat.le_succ_of_le i.grows
      · intro x hx
        rw [hsame x (Nat.lt_of_lt_of_le hx i.grows) (Nat.ne_of_lt (Nat.lt_of_lt_of_le hx hgr.1))]
        exact i.frame x hx

theorem Inv.init (h0 : Heap) (p : Props) :
    Inv h0 (newNode h0 p).1 [⟨(newNode h0 p).2, p, none, [], []⟩] := by
  simp only [newNode]
  refine ⟨⟨by simp [Open.kidAddrs], trivial⟩, ?_, by simp [cellsAll, Open.cells], ?_, by simp, ?_⟩
  · intro f hf
    simp only [List.mem_singleton] at hf
    subst hf
    exact ⟨by simp, by simp [RepFs]⟩
  · intro x hx
    simp only [cellsAll, List.flatMap_cons, Open.cells] at hx
    simp at hx
    subst hx
    simp
  · intro x hx
    rw [List.getElem?_append_left hx]

/-! ### Links of a tree under construction -/

def labels (fs : List Open) : List Props := (fs.map Open.props).reverse

def before : List Open → List (List Props × Link)
  | [] => []
  | f :: fs => before fs ++ pathsAll (labels (f :: fs)) f.kids

theorem pathsAll_append (above : List Props) : ∀ (ts us : List Tree),
    pathsAll above (ts ++ us) = pathsAll above ts ++ pathsAll above us
  | [], us => by simp [pathsAll]
  | t :: ts, us => by simp [pathsAll, pathsAll_append above ts us]

theorem paths_plug : ∀ (fs : List Open) (c : Option Tree),
    pathsAll [] (plug c fs).toList = before fs ++ pathsAll (labels fs) c.toList
  | [], c => by simp [plug, before, labels]
  | f :: fs, c => by
    rw [plug, paths_plug fs]
    simp [before, pathsAll, paths, pathsAll_append, labels]

theorem before_link {g g' : Open} {fs : List Open} (l : Link) (hp : g'.props = g.props)
    (hs : g.subs = []) (hs' : g'.subs = g.subs)
    (hl : g'.leaf.map (·.2) = some ((g.leaf.map (·.2)).getD [] ++ [l])) :
    before (g' :: fs) = before (g :: fs) ++ [(labels (g :: fs), l)] := by
  have hlab : labels (g' :: fs) = labels (g :: fs) := by simp [labels, hp]
  cases hg' : g'.leaf with
  | none => simp [hg'] at hl
  | some al' =>
    obtain ⟨a', ls'⟩ := al'
    cases hg : g.leaf with
    | none =>
      simp only [hg', hg, Option.map_some, Option.map_none, Option.getD_none, List.nil_append,
        Option.some.injEq] at hl
      simp [before, Open.kids, hs, hs', hg, hg', hl, hlab, pathsAll, paths]
    | some al =>
      obtain ⟨a, ls⟩ := al
      simp only [hg', hg, Option.map_some, Option.getD_some, Option.some.injEq] at hl
      simp [before, Open.kids, hs, hs', hg, hg', hl, hlab, pathsAll, paths]

theorem before_push (f : Open) (fs : List Open) (hl : f.leaf = none) (hs : f.subs = []) :
    before (f :: fs) = before fs := by
  simp [before, Open.kids, hl, hs, pathsAll]

theorem before_pop (t g : Open) (fs : List Open) :
    before ({ g with
      subs := g.subs ++ [.node t.props t.kids]
      subAddrs := g.subAddrs ++ [t.addr] } :: fs) = before (t :: g :: fs) := by
  simp [before, Open.kids, pathsAll, paths, pathsAll_append, labels]

end Burl.Extract
