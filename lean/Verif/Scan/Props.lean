import Verif.Scan.Lemmas
import Verif.Links.FileProps
/-! Property C32. -/
namespace Burl.Scan
open Spec
open Burl.Tree.Spec (Link linksAll)
open Burl.Tree (Heap RepT)

/-- Inv holds at the beginning. -/
theorem inv_start (content : Bytes) (fault : Option Unit) : Inv (start content fault) :=
  ⟨by simp [start], by simp [start], rfl, .inl rfl⟩

/-- C32: reading of a file line by line ends for every way the operating system cuts the file into
pieces.  If all the lines are shorter than 65536 bytes, all of them are delivered in order without
line ends, and there is an error only if the file has failed. -/
theorem c32_lines (choice : Nat → Nat) (content : Bytes) (fault : Option Unit) {ls : List Bytes}
    (hl : Lines content ls) (hs : ∀ l ∈ ls, l.length < 65536) :
    ∃ s, Loop done (body choice) (start content fault) (.ok s) ∧
      Extract.All₂ Chomped ls s.tokens ∧ s.error = fault.map fun _ => .read := by
  obtain ⟨s, h1, h2, h3⟩ := loop_spec choice (inv_start content fault) (ls := ls) hl
  refine ⟨s, h1, ?_, ?_⟩
  · have e : leading maxTokenSize ls = ls := by
      unfold leading
      have := List.takeWhile_append_of_pos (p := fun l : Bytes => decide (l.length < maxTokenSize))
        (l₁ := ls) (l₂ := []) (fun l hl' => decide_eq_true (hs l hl'))
      simpa using this
    rw [h2, e]
    simp only [start, List.nil_append]
    clear h2 e h3 h1 hs hl
    induction ls with
    | nil => exact .nil
    | cons l ls ih => exact .cons (dropCR_spec l) ih
  · unfold State.error
    rw [h3, if_pos (show ∀ l ∈ ls, l.length < maxTokenSize from hs)]
    cases fault with
    | none => rfl
    | some u => rfl

/-- C32: a line that is too long makes reading stop with an error after the lines before it. -/
theorem c32_long (choice : Nat → Nat) (content : Bytes) (fault : Option Unit)
    {before after : List Bytes} {long : Bytes} (hl : Lines content (before ++ long :: after))
    (hs : ∀ l ∈ before, l.length < 65536) (hlong : 65536 ≤ long.length) :
    ∃ s, Loop done (body choice) (start content fault) (.ok s) ∧
      Extract.All₂ Chomped before s.tokens ∧ s.error = some .tooLong := by
  obtain ⟨s, h1, h2, h3⟩ := loop_spec choice (inv_start content fault) (ls := before ++ long :: after) hl
  refine ⟨s, h1, ?_, ?_⟩
  · have e : leading maxTokenSize (before ++ long :: after) = before := by
      unfold leading
      rw [List.takeWhile_append_of_pos (fun l h => decide_eq_true (show l.length < maxTokenSize from hs l h)),
        List.takeWhile_cons_of_neg (by rw [decide_eq_true_eq]; unfold maxTokenSize; omega), List.append_nil]
    rw [h2, e]
    simp only [start, List.nil_append]
    clear h2 e h3 h1 hl
    induction before with
    | nil => exact .nil
    | cons l ls ih => exact .cons (dropCR_spec l) (ih fun l h => hs l (by simp [h]))
  · unfold State.error
    have hn : ¬∀ l ∈ before ++ long :: after, l.length < maxTokenSize := by
      intro h
      have := h long (by simp)
      unfold maxTokenSize at this
      omega
    rw [h3, if_neg hn]
    rfl

/-- Every file has lines, and there is one way to divide it. -/
theorem c32_lines_exist (content : Bytes) :
    ∃ ls, Lines content ls ∧ ∀ ls', Lines content ls' → ls' = ls := by
  obtain ⟨ls, h⟩ := lines_exists content
  exact ⟨ls, h, fun ls' h' => lines_unique h' h⟩

/-- What the scanner delivers does not depend on pieces. -/
theorem c32_pieces_irrelevant (c1 c2 : Nat → Nat) (content : Bytes) (fault : Option Unit)
    {s1 s2 : State} (h1 : Loop done (body c1) (start content fault) (.ok s1))
    (h2 : Loop done (body c2) (start content fault) (.ok s2)) :
    s1.tokens = s2.tokens ∧ s1.error = s2.error := by
  obtain ⟨ls, hl⟩ := lines_exists content
  obtain ⟨t1, g1, e1, k1⟩ := loop_spec c1 (inv_start content fault) (ls := ls) hl
  obtain ⟨t2, g2, e2, k2⟩ := loop_spec c2 (inv_start content fault) (ls := ls) hl
  have := Res.ok.inj (h1.unique g1)
  subst this
  have := Res.ok.inj (h2.unique g2)
  subst this
  refine ⟨by rw [e1, e2], ?_⟩
  unfold State.error
  rw [k1, k2]

/-! Numbers of lines in trees. -/

theorem all₂_get {α β : Type} {R : α → β → Prop} {as : List α} {bs : List β}
    (h : Extract.All₂ R as bs) : ∀ (i : Nat) (b : β), bs[i]? = some b → ∃ a, as[i]? = some a ∧ R a b := by
  induction h with
  | nil => intro i b h; simp at h
  | cons hr _ ih =>
    intro i b h
    cases i with
    | zero => simp only [List.getElem?_cons_zero, Option.some.injEq] at h; subst h; exact ⟨_, rfl, hr⟩
    | succ i => exact ih i b h

theorem all₂_get' {α β : Type} {R : α → β → Prop} {as : List α} {bs : List β}
    (h : Extract.All₂ R as bs) : ∀ (i : Nat) (a : α), as[i]? = some a → ∃ b, bs[i]? = some b ∧ R a b := by
  induction h with
  | nil => intro i b h; simp at h
  | cons hr _ ih =>
    intro i b h
    cases i with
    | zero => simp only [List.getElem?_cons_zero, Option.some.injEq] at h; subst h; exact ⟨_, rfl, hr⟩
    | succ i => exact ih i b h

theorem chomped_unique {v a b : Bytes} (h1 : Chomped v a) (h2 : Chomped v b) : a = b := by
  cases h1 with
  | cr =>
    generalize hv : a ++ [13] = v at h2
    cases h2 with
    | cr => exact List.append_cancel_right hv
    | none h => exact absurd hv.symm (h a)
  | none h =>
    cases h2 with
    | cr => exact absurd rfl (h b)
    | none _ => rfl

/-- C32: numbers of lines of links in the tree of an Org file are numbers of lines of the file, and
no link of any line is lost.  `decode` is the conversion of bytes to a string. -/
theorem c32_org (decode : Bytes → Str) (choice : Nat → Nat) (content : Bytes) {ls : List Bytes}
    (hl : Lines content ls) (hs : ∀ l ∈ ls, l.length < 65536) (find : Str → List Link)
    (accept : Link → Bool) (h0 : Heap) :
    ∃ s h' root cs, Loop done (body choice) (start content none) (.ok s) ∧ s.error = none ∧
      Extract.orgExtract find accept h0 (s.tokens.map decode) = .ok (h', root) ∧
      RepT h' (.node .unset cs) root ∧
      ∀ l, l ∈ linksAll cs ↔ ∃ i : Nat, ∃ line text k, ls[i]? = some line ∧ Chomped line text ∧
        k ∈ find (decode text) ∧ accept k = true ∧ l = { k with lineNo := (i : Int) + 1 } := by
  obtain ⟨s, h1, h2, h3⟩ := c32_lines choice content none hl hs
  obtain ⟨h', root, cs, g1, g2, g3, -⟩ := Extract.c25_links find accept h0 (s.tokens.map decode)
  refine ⟨s, h', root, cs, h1, h3, g1, g2, fun l => ?_⟩
  rw [g3, Extract.c25_lineNo]
  constructor
  · rintro ⟨i, line, k, e1, e2, e3, e4⟩
    rw [List.getElem?_map] at e1
    obtain ⟨t, ht, rfl⟩ := Option.map_eq_some_iff.1 e1
    obtain ⟨a, ha, hc⟩ := all₂_get h2 i t ht
    exact ⟨i, a, t, k, ha, hc, e2, e3, e4⟩
  · rintro ⟨i, line, text, k, e1, e2, e3, e4, e5⟩
    obtain ⟨t, ht, hc⟩ := all₂_get' h2 i line e1
    refine ⟨i, decode t, k, by rw [List.getElem?_map, ht]; rfl, ?_, e4, e5⟩
    rw [chomped_unique hc e2]
    exact e3

theorem mem_txtTrace {find : Str → List Link} {accept : Link → Bool} {l : Link} :
    ∀ {lines : List Str} {n : Int} {i : Nat} {line : Str} {k : Link}, lines[i]? = some line →
      k ∈ find line → l = { k with lineNo := (i : Int) + n } → accept l = true →
      l ∈ Extract.txtTrace find accept n lines
  | [], _, i, _, _, h, _, _, _ => by simp at h
  | x :: xs, n, i, line, k, h, hk, e, ha => by
    rw [Extract.txtTrace, List.mem_append, List.mem_filter]
    cases i with
    | zero =>
      simp only [List.getElem?_cons_zero, Option.some.injEq] at h
      subst h
      exact .inl ⟨List.mem_map.2 ⟨k, hk, by rw [e]; simp⟩, ha⟩
    | succ i =>
      refine .inr (mem_txtTrace (i := i) (k := k) (by simpa using h) hk ?_ ha)
      rw [e]; congr 1; omega

/-- C32 for text files: no accepted link of any line is lost, and there are no others. -/
theorem c32_txt (decode : Bytes → Str) (choice : Nat → Nat) (content : Bytes) {ls : List Bytes}
    (hl : Lines content ls) (hs : ∀ l ∈ ls, l.length < 65536) (find : Str → List Link)
    (accept : Link → Bool) (h0 : Heap) :
    ∃ s h' root cs, Loop done (body choice) (start content none) (.ok s) ∧ s.error = none ∧
      Extract.txtExtract find accept h0 (s.tokens.map decode) = .ok (h', root) ∧
      RepT h' (.node .unset cs) root ∧
      ∀ l, l ∈ linksAll cs ↔ accept l = true ∧ ∃ i : Nat, ∃ line text k, ls[i]? = some line ∧
        Chomped line text ∧ k ∈ find (decode text) ∧ l = { k with lineNo := (i : Int) + 1 } := by
  obtain ⟨s, h1, h2, h3⟩ := c32_lines choice content none hl hs
  obtain ⟨h', root, cs, e, b, hp⟩ := Extract.txtExtract_spec find accept h0 (s.tokens.map decode)
  obtain ⟨as, ha, hk⟩ := b.kids
  refine ⟨s, h', root, cs, h1, h3, e, ?_, fun l => ?_⟩
  · simp only [RepT]
    exact ⟨as, ha, Extract.RepFs.rep _ _ hk⟩
  · have hl' : l ∈ linksAll cs ↔ l ∈ Extract.txtTrace find accept 1 (s.tokens.map decode) := by
      rw [← Extract.pathsAll_links [], hp, List.map_map]
      simp
    rw [hl']
    constructor
    · intro h
      obtain ⟨i, line, k, e1, e2, e3, e4⟩ := Links.txtTrace_mem h
      rw [List.getElem?_map] at e1
      obtain ⟨t, ht, rfl⟩ := Option.map_eq_some_iff.1 e1
      obtain ⟨a, ha', hc⟩ := all₂_get h2 i t ht
      exact ⟨e4, i, a, t, k, ha', hc, e2, e3⟩
    · rintro ⟨e4, i, line, text, k, e1, e2, e3, e5⟩
      obtain ⟨t, ht, hc⟩ := all₂_get' h2 i line e1
      refine mem_txtTrace (i := i) (line := decode t) (k := k) (by rw [List.getElem?_map, ht]; rfl) ?_ e5 e4
      rw [chomped_unique hc e2]
      exact e3

/-- Hypotheses of C32 are met: lines with both kinds of line ends, an empty one and the last one
without a newline. -/
example : Lines [97, 13, 10, 10, 98, 99] [[97, 13], [], [98, 99]] ∧
    Chomped [97, 13] [97] ∧ Chomped [98, 99] [98, 99] :=
  ⟨.cons (l := [97, 13]) (by decide) (.cons (l := []) (by decide) (.last (by decide) (by decide))),
    .cr (l := [97]), .none fun t h => by
      have := congrArg List.getLast? h
      simp at this⟩

end Burl.Scan
