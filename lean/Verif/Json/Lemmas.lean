import Verif.Json.Model
import Verif.Tree.CountLemmas
import Verif.Extract.Spec
/-! Serialisation of an annotated tree in memory is a function of the tree. -/
namespace Burl.Json
open Burl.Tree (Heap Addr Obj load load_ok RepA RepAs)
open Burl.Tree.Spec (Link Props Annot)
open Burl.Extract.Spec (Named Labelled LabelledAll)
open Spec

/-- Members of a label. -/
def nodeJson (p : Props) (js : List Json) (n k : Int) : Res Empty Json :=
  match p with
  | .fileGroup => .ok (nodeObj "FileGroup" [] js n k)
  | .file path => .ok (nodeObj "File" [(key "path", .str path)] js n k)
  | .heading ln text => .ok (nodeObj "Heading" [(key "lineNo", .num ln), (key "rawText", .str text)] js n k)
  | .unset => .panic
  | .missingHeading => .panic

def isGroup : Props → Bool
  | .fileGroup => true
  | _ => false

mutual
/-- Result of the code. -/
def renderR : Annot → Res Empty Json
  | .body n k ls => .ok (render (.body n k ls))
  | .node n k p cs =>
    match cs with
    | [c] => if isGroup p then renderR c
      else (nodeJson p [] n k).bind fun _ => (renderAllR [c]).bind fun js => nodeJson p js n k
    | cs => (nodeJson p [] n k).bind fun _ => (renderAllR cs).bind fun js => nodeJson p js n k
def renderAllR : List Annot → Res Empty (List Json)
  | [] => .ok []
  | a :: as => (renderR a).bind fun j => (renderAllR as).bind fun js => .ok (j :: js)
end

theorem renderR_node (n k : Int) (p : Props) (cs : List Annot)
    (h : ¬ (isGroup p = true ∧ ∃ c, cs = [c])) : renderR (.node n k p cs) =
      (nodeJson p [] n k).bind fun _ => (renderAllR cs).bind fun js => nodeJson p js n k := by
  match cs with
  | [] => rw [renderR]; intro c h'; cases h'
  | [c] =>
    rw [renderR, if_neg (fun e => h ⟨e, c, rfl⟩)]
  | a :: b :: cs => rw [renderR]; intro c h'; cases h'

theorem renderR_single (n k : Int) (p : Props) (c : Annot) (h : isGroup p = true) :
    renderR (.node n k p [c]) = renderR c := by
  rw [renderR, if_pos h]

theorem isGroup_iff {p : Props} : isGroup p = true ↔ p = .fileGroup := by
  cases p <;> simp [isGroup]

theorem marshalLink_eq (l : Link) : marshalLink l = renderLink l := by
  unfold marshalLink renderLink
  cases l.descr <;> simp [lit, key]

/-- Map of a node. -/
def nodeFields (p : Props) (as : List Addr) (n k : Int) : Res Empty (List (Str × Val)) :=
  (flattenProps p (put (lit "children") (.nodes as) [])).bind fun m =>
    .ok (put (lit "filtered") (.int k) (put (lit "total") (.int n) m))

theorem nodeFields_panic {p : Props} (as : List Addr) (n k : Int) (hp : ¬ Named p) :
    nodeFields p as n k = .panic ∧ ∀ js, nodeJson p js n k = .panic := by
  cases p <;> simp [Named] at hp <;> simp [nodeFields, flattenProps, nodeJson]

/-- The map of a node with a label is the sorted list of members. -/
theorem nodeFields_named {p : Props} (as : List Addr) (n k : Int) (hp : Named p) :
    ∃ own : List (Str × Val), ∃ type : Str, ∃ ownJ : List (Str × Json),
      nodeFields p as n k = .ok ([(lit "_type", .str type), (lit "children", .nodes as),
        (lit "filtered", .int k)] ++ own ++ [(lit "total", .int n)]) ∧
      (∀ js, nodeJson p js n k = .ok (.obj ([(lit "_type", .str type), (lit "children", .arr js),
        (lit "filtered", .num k)] ++ ownJ ++ [(lit "total", .num n)]))) ∧
      ∀ h m r, MarshalMap h (own ++ m) r ↔
        ∃ r', MarshalMap h m r' ∧ r = r'.bind fun o => .ok (ownJ ++ o) := by
  have hid : ∀ {h : Heap} {m r}, MarshalMap h m r ↔
        ∃ r', MarshalMap h m r' ∧ r = r'.bind fun o => .ok ([] ++ o) := by
    intro h m r
    constructor
    · intro hm; exact ⟨r, hm, by cases r <;> simp⟩
    · rintro ⟨r', hm, rfl⟩; cases r' <;> simpa using hm
  cases p with
  | unset => exact hp.elim
  | missingHeading => exact hp.elim
  | fileGroup =>
    exact ⟨[], lit "FileGroup", [], rfl, fun js => rfl, fun h m r => hid⟩
  | file path =>
    refine ⟨[(lit "path", .str path)], lit "File", [(lit "path", .str path)], rfl,
      fun js => rfl, fun h m r => ?_⟩
    constructor
    · intro hm; cases hm with
      | str hm => exact ⟨_, hm, rfl⟩
    · rintro ⟨r', hm, rfl⟩; exact .str hm
  | heading ln text =>
    refine ⟨[(lit "lineNo", .int ln), (lit "rawText", .str text)], lit "Heading",
      [(lit "lineNo", .num ln), (lit "rawText", .str text)], rfl, fun js => rfl, fun h m r => ?_⟩
    constructor
    · intro hm; cases hm with
      | int hm => cases hm with
        | @str _ _ _ r' hm => exact ⟨r', hm, by cases r' <;> rfl⟩
    · rintro ⟨r', hm, rfl⟩
      have := MarshalMap.int (k := lit "lineNo") (n := ln)
        (MarshalMap.str (k := lit "rawText") (s := text) hm)
      cases r' <;> exact this

theorem marshalMap_total {h : Heap} {n : Int} {r : Res Empty (List (Str × Json))} :
    MarshalMap h [(lit "total", .int n)] r ↔ r = .ok [(lit "total", .num n)] := by
  constructor
  · intro hm; cases hm with
    | int hm => cases hm; rfl
  · rintro rfl; exact .int (r := .ok []) .nil

/-- Serialisation of the map of a node given that of its children. -/
theorem marshalMap_node {h : Heap} {p : Props} {as : List Addr} {n k : Int}
    {m : List (Str × Val)} (hp : Named p) (hm : nodeFields p as n k = .ok m)
    {rs : Res Empty (List Json)} (hrs : ∀ r, MarshalAll h as r ↔ r = rs)
    (r : Res Empty (List (Str × Json))) :
    MarshalMap h m r ↔ (r.bind fun o => .ok (Json.obj o)) =
      rs.bind fun js => nodeJson p js n k := by
  obtain ⟨own, type, ownJ, h1, h2, h3⟩ := nodeFields_named as n k hp
  rw [h1] at hm
  have hm := Res.ok.inj hm
  subst hm
  have hrs' := (hrs rs).2 rfl
  constructor
  · intro hm
    cases hm with
    | str hm =>
      cases hm with
      | panic hp => rw [← (hrs _).1 hp]; rfl
      | nodes hc hm =>
        rw [← (hrs _).1 hc]
        cases hm with
        | int hm =>
          obtain ⟨r', hr', rfl⟩ := (h3 _ _ _).1 hm
          rw [marshalMap_total] at hr'
          subst hr'
          simp [h2]
  · intro he
    cases hr : rs with
    | err e => exact e.elim
    | panic =>
      rw [hr] at he hrs'
      have : r = .panic := by cases r with
        | ok o => simp at he
        | err e => exact e.elim
        | panic => rfl
      subst this
      exact .str (r := .panic) (.panic hrs')
    | ok js =>
      rw [hr, Res.bind_ok, h2] at he
      rw [hr] at hrs'
      have : r = .ok ([(lit "_type", .str type), (lit "children", .arr js),
        (lit "filtered", .num k)] ++ ownJ ++ [(lit "total", .num n)]) := by
        cases r with
        | ok o => simp only [Res.bind_ok] at he; have := Res.ok.inj he; injection this with this; rw [this]
        | err e => exact e.elim
        | panic => simp at he
      subst this
      have h4 := (h3 h [(lit "total", .int n)] _).2 ⟨_, marshalMap_total.2 rfl, rfl⟩
      exact .str (.nodes hrs' (.int h4))

theorem onlyChild_node {h : Heap} {a n : Addr} {c t : Int} {p : Props} {as : List Addr}
    (ha : h[a]? = some (.count c t n)) (hn : h[n]? = some (.node p as)) :
    onlyChild h a = if isGroup p then (match as with | [x] => some x | _ => none) else none := by
  unfold onlyChild
  rw [ha]
  simp only [hn]
  cases p <;> simp [isGroup]
  rcases as with _ | ⟨x, _ | ⟨y, as⟩⟩ <;> rfl

mutual
/-- `MarshalJSON` of a tree in memory. -/
theorem marshal_tree {h : Heap} (y : Annot) (a : Addr) (fp : List Addr) (hr : RepA h y a fp)
    (r : Res Empty Json) : Marshal h a r ↔ r = renderR y := by
  match y with
  | .body c t ls =>
    simp only [RepA] at hr
    obtain ⟨n, _, ha, hn⟩ := hr
    have hoc : onlyChild h a = none := by unfold onlyChild; rw [ha]; simp only [hn]
    have hfl : flatten h a = .ok [(lit "_type", .str (lit "Body")), (lit "filtered", .int t),
        (lit "links", .links ls), (lit "total", .int c)] := by
      simp only [flatten, load_ok ha, Res.bind_ok, flattenNode, load_ok hn]
      rfl
    rw [renderR, render]
    have hlinks : ls.map marshalLink = ls.map renderLink := List.map_congr_left fun l _ =>
      marshalLink_eq l
    constructor
    · intro hm
      cases hm with
      | child h1 _ => rw [hoc] at h1; cases h1
      | panic _ h2 => rw [hfl] at h2; cases h2
      | fields _ h2 h3 =>
        rw [hfl] at h2
        have h2 := Res.ok.inj h2
        subst h2
        cases h3 with | str h3 => cases h3 with | int h3 => cases h3 with | links h3 =>
          rw [marshalMap_total] at h3
          subst h3
          simp only [Res.bind_ok, hlinks]
          rfl
    · rintro rfl
      have := Marshal.fields hoc hfl (.str (.int (.links (marshalMap_total.2 rfl))))
      simp only [Res.bind_ok, hlinks] at this
      exact this
  | .node c t p cs =>
    simp only [RepA] at hr
    obtain ⟨n, as, fps, _, ha, hn, hs⟩ := hr
    have hoc := onlyChild_node ha hn
    have hfl : flatten h a = nodeFields p as c t := by
      simp only [flatten, load_ok ha, Res.bind_ok, flattenNode, load_ok hn, nodeFields]
    by_cases hsingle : isGroup p = true ∧ ∃ x, cs = [x]
    · obtain ⟨hg, x, rfl⟩ := hsingle
      simp only [RepAs] at hs
      obtain ⟨b, bs, f1, f2, rfl, _, hx, rfl, _⟩ := hs
      rw [if_pos hg] at hoc
      rw [renderR_single _ _ _ _ hg]
      have ih := marshal_tree x b f1 hx r
      rw [← ih]
      constructor
      · intro hm
        cases hm with
        | child h1 h2 => rw [hoc] at h1; cases h1; exact h2
        | fields h1 _ _ => rw [hoc] at h1; cases h1
        | panic h1 _ => rw [hoc] at h1; cases h1
      · intro hm; exact .child hoc hm
    · have hoc' : onlyChild h a = none := by
        rw [hoc]
        by_cases hg : isGroup p = true
        · rw [if_pos hg]
          match cs, as, hs with
          | [], as, hs => simp only [RepAs] at hs; rw [hs.1]
          | [x], _, _ => exact absurd ⟨hg, x, rfl⟩ hsingle
          | x :: y :: cs, as, hs =>
            simp only [RepAs] at hs
            obtain ⟨_, _, _, _, rfl, _, _, _, _, _, _, rfl, _⟩ := hs
            rfl
        · rw [if_neg hg]
      rw [renderR_node _ _ _ _ hsingle]
      have ihs := marshal_trees cs as fps hs
      by_cases hp : Named p
      · have hex : ∃ j, nodeJson p [] c t = .ok j := by
          cases p <;> first | exact hp.elim | exact ⟨_, rfl⟩
        obtain ⟨j, hj⟩ := hex
        rw [hj, Res.bind_ok]
        obtain ⟨own, type, ownJ, h1, h2, h3⟩ := nodeFields_named as c t hp
        constructor
        · intro hm
          cases hm with
          | child h1 _ => rw [hoc'] at h1; cases h1
          | panic _ h2 => rw [hfl, h1] at h2; cases h2
          | fields _ hf hmm =>
            rw [hfl] at hf
            exact (marshalMap_node hp hf ihs _).1 hmm
        · rintro rfl
          have hx : ∃ r' : Res Empty (List (Str × Json)), (renderAllR cs).bind (fun js => nodeJson p js c t) =
              r'.bind fun o => .ok (Json.obj o) := by
            cases renderAllR cs with
            | ok js => exact ⟨.ok _, by rw [Res.bind_ok, h2]; rfl⟩
            | err e => exact e.elim
            | panic => exact ⟨.panic, rfl⟩
          obtain ⟨r', hr'⟩ := hx
          rw [hr']
          exact .fields hoc' (hfl.trans h1) ((marshalMap_node hp h1 ihs r').2 hr'.symm)
      · obtain ⟨h1, h2⟩ := nodeFields_panic as c t hp
        rw [h2, Res.bind_panic]
        constructor
        · intro hm
          cases hm with
          | child h1 _ => rw [hoc'] at h1; cases h1
          | panic _ _ => rfl
          | fields _ hf _ => rw [hfl, h1] at hf; cases hf
        · rintro rfl
          exact .panic hoc' (hfl.trans h1)
theorem marshal_trees {h : Heap} (ys : List Annot) (as : List Addr) (fp : List Addr)
    (hr : RepAs h ys as fp) (r : Res Empty (List Json)) : MarshalAll h as r ↔ r = renderAllR ys := by
  match ys with
  | [] =>
    simp only [RepAs] at hr
    obtain ⟨rfl, _⟩ := hr
    rw [renderAllR]
    constructor
    · intro hm; cases hm; rfl
    · rintro rfl; exact .nil
  | y :: ys =>
    simp only [RepAs] at hr
    obtain ⟨a, as', f1, f2, rfl, _, h1, h2⟩ := hr
    have i1 := marshal_tree y a f1 h1
    have i2 := marshal_trees ys as' f2 h2
    rw [renderAllR]
    constructor
    · intro hm
      cases hm with
      | panic hp => rw [← (i1 _).1 hp]; rfl
      | cons hj hrest => rw [← (i1 _).1 hj, ← (i2 _).1 hrest]; rfl
    · rintro rfl
      cases hy : renderR y with
      | err e => exact e.elim
      | panic => exact .panic ((i1 _).2 hy.symm)
      | ok j => exact .cons ((i1 _).2 hy.symm) ((i2 _).2 rfl)
end

mutual
/-- With labels everywhere serialisation succeeds. -/
theorem renderR_named (y : Annot) (h : Labelled Named y.erase) : renderR y = .ok (render y) := by
  match y with
  | .body _ _ _ => rfl
  | .node n k p cs =>
    simp only [Burl.Tree.Spec.Annot.erase, Labelled] at h
    have ih := renderAllR_named cs h.2
    by_cases hsingle : isGroup p = true ∧ ∃ x, cs = [x]
    · obtain ⟨hg, x, rfl⟩ := hsingle
      rw [renderR_single _ _ _ _ hg]
      rw [isGroup_iff] at hg
      subst hg
      rw [render]
      simp only [Burl.Tree.Spec.Annot.eraseAll, LabelledAll] at h
      exact renderR_named x h.2.1
    · rw [renderR_node _ _ _ _ hsingle, ih]
      cases p with
      | unset => exact h.1.elim
      | missingHeading => exact h.1.elim
      | file path => simp [nodeJson, render]
      | heading ln text => simp [nodeJson, render]
      | fileGroup =>
        rw [render]
        · simp [nodeJson]
        · intro c hc; exact hsingle ⟨rfl, c, hc⟩
theorem renderAllR_named (ys : List Annot)
    (h : LabelledAll Named (Burl.Tree.Spec.Annot.eraseAll ys)) :
    renderAllR ys = .ok (renderAll ys) := by
  match ys with
  | [] => rfl
  | y :: ys =>
    simp only [Burl.Tree.Spec.Annot.eraseAll, LabelledAll] at h
    rw [renderAllR, renderR_named y h.1, renderAllR_named ys h.2]
    rfl
end

mutual
/-- Without a label somewhere serialisation crashes. -/
theorem renderR_unnamed (y : Annot) (h : ¬Labelled Named y.erase) : renderR y = .panic := by
  match y with
  | .body _ _ _ => exact absurd trivial h
  | .node n k p cs =>
    simp only [Burl.Tree.Spec.Annot.erase, Labelled] at h
    by_cases hsingle : isGroup p = true ∧ ∃ x, cs = [x]
    · obtain ⟨hg, x, rfl⟩ := hsingle
      rw [renderR_single _ _ _ _ hg]
      rw [isGroup_iff] at hg
      subst hg
      refine renderR_unnamed x fun hx => h ⟨trivial, ?_⟩
      simp only [Burl.Tree.Spec.Annot.eraseAll, LabelledAll]
      exact ⟨hx, trivial⟩
    · rw [renderR_node _ _ _ _ hsingle]
      by_cases hp : Named p
      · rw [renderAllR_unnamed cs fun hx => h ⟨hp, hx⟩]
        cases nodeJson p [] n k <;> first | rfl | contradiction
      · rw [(nodeFields_panic [] n k hp).2]
        rfl
theorem renderAllR_unnamed (ys : List Annot)
    (h : ¬LabelledAll Named (Burl.Tree.Spec.Annot.eraseAll ys)) : renderAllR ys = .panic := by
  match ys with
  | [] => exact absurd trivial h
  | y :: ys =>
    simp only [Burl.Tree.Spec.Annot.eraseAll, LabelledAll] at h
    rw [renderAllR]
    by_cases hy : Labelled Named y.erase
    · rw [renderR_named y hy, renderAllR_unnamed ys fun hx => h ⟨hy, hx⟩]
      rfl
    · rw [renderR_unnamed y hy]
      rfl
end

end Burl.Json
