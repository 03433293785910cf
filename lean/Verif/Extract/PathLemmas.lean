import Verif.Extract.GroupLemmas
/-! Headings above links: slots of the code against sections of the outline. -/
namespace Burl.Extract
open Burl.Tree (Heap Addr Obj load load_ok RepT RepTs)
open Burl.Tree.Spec (Link Props Tree links linksAll Part PartAll)
open Spec

/-! ### Headlines -/

theorem isSpaceRe_eq : isSpaceRe = blank := by
  funext c
  simp only [isSpaceRe, blank]
  cases (decide (c = '\t')) <;> cases (decide (c = ' ')) <;> cases (decide (c = '\r')) <;>
    cases (decide (c = '\n')) <;> cases (decide (c = '\x0c')) <;> rfl

theorem dropWhile_suffix (p : Char → Bool) : ∀ l : Str, ∃ pre, l = pre ++ l.dropWhile p
  | [] => ⟨[], rfl⟩
  | c :: l => by
    rw [List.dropWhile_cons]
    split
    · obtain ⟨pre, h⟩ := dropWhile_suffix p l
      exact ⟨c :: pre, by rw [List.cons_append, ← h]⟩
    · exact ⟨[], rfl⟩

theorem getLast?_of_suffix {l s pre : Str} (e : l = pre ++ s) {c : Char}
    (h : s.getLast? = some c) : l.getLast? = some c := by
  rw [e, List.getLast?_append, h]; rfl

theorem trim_end {s : Str} (h : ∀ c, s.getLast? = some c → blank c = false) :
    (s.reverse.dropWhile blank).reverse = s := by
  cases hr : s.reverse with
  | nil => have := List.reverse_eq_nil_iff.1 hr; subst this; rfl
  | cons c r =>
    have hl : s.getLast? = some c := by
      rw [← List.head?_reverse, hr]; rfl
    rw [List.dropWhile_cons, h c hl]
    rw [if_neg (by simp), ← hr, List.reverse_reverse]

/-- On tidy lines the regular expression of the code recognises Org headlines. -/
theorem orgHeading_tidy {line : Str} (h : Tidy line) : orgHeading line = headline line := by
  obtain ⟨h1, h2, h3⟩ := h
  unfold orgHeading headline
  simp only [isSpaceRe_eq]
  cases hrest : line.dropWhile (· == '*') with
  | nil => simp
  | cons c r =>
    obtain ⟨pre, hpre⟩ := dropWhile_suffix (· == '*') line
    rw [hrest] at hpre
    by_cases hb : blank c = true
    · have hc := h2 c r hrest hb
      subst hc
      have hbs : blank ' ' = true := rfl
      simp only [List.takeWhile_cons, hbs, if_true, List.isEmpty_cons, List.dropWhile_cons]
      obtain ⟨pre2, hpre2⟩ := dropWhile_suffix blank r
      have hl : ∀ c, (r.dropWhile blank).getLast? = some c → blank c = false := by
        intro c hc
        refine h1 c (getLast?_of_suffix (pre := pre ++ ' ' :: pre2) ?_ hc)
        rw [hpre]
        simp [← hpre2]
      have hn : '\n' ∉ r.dropWhile blank := by
        intro hm
        apply h3
        rw [hpre, hpre2]
        simp [hm]
      rw [trim_end hl]
      by_cases hs : (line.takeWhile (· == '*')).isEmpty = true
      · rw [if_pos hs, if_pos hs]
      · rw [if_neg hs, if_neg hs]
        cases hg : (r.dropWhile blank).getLast? with
        | none =>
          have := List.getLast?_eq_none_iff.1 hg
          simp [this]
        | some c =>
          simp [hl c hg, hn]
    · have hb' : blank c = false := by simpa using hb
      have hc : c ≠ ' ' := by rintro rfl; exact hb rfl
      simp only [List.takeWhile_cons, hb']
      simp only [Bool.false_eq_true, if_false, List.isEmpty_nil, if_true, ite_self]
      split
      · rename_i hcc
        injection hcc with hcc _
        exact absurd hcc hc
      · rfl

theorem dropWhile_all {p : Char → Bool} : ∀ (a b : Str), (∀ c ∈ a, p c = true) →
    (∀ c, b.head? = some c → p c = false) →
    (a ++ b).takeWhile p = a ∧ (a ++ b).dropWhile p = b
  | [], [], _, _ => ⟨rfl, rfl⟩
  | [], c :: b, _, h => by
    have := h c rfl
    simp [this]
  | c :: a, b, h1, h2 => by
    have hc := h1 c (by simp)
    obtain ⟨e1, e2⟩ := dropWhile_all a b (fun d hd => h1 d (by simp [hd])) h2
    simp [hc, e1, e2]

theorem takeWhile_stars : ∀ line : Str,
    line.takeWhile (· == '*') = List.replicate (line.takeWhile (· == '*')).length '*'
  | [] => rfl
  | c :: l => by
    rw [List.takeWhile_cons]
    split
    · rename_i h
      have h : c = '*' := by simpa using h
      rw [List.length_cons, List.replicate_succ, ← takeWhile_stars l, h]
    · rfl

theorem mem_takeWhile {p : Char → Bool} : ∀ {l : Str} {c : Char}, c ∈ l.takeWhile p → p c = true
  | d :: l, c, h => by
    rw [List.takeWhile_cons] at h
    split at h
    · rcases List.mem_cons.1 h with rfl | h
      · assumption
      · exact mem_takeWhile h
    · cases h

theorem head_dropWhile {p : Char → Bool} : ∀ {l : Str} {c : Char},
    (l.dropWhile p).head? = some c → p c = false
  | d :: l, c, h => by
    rw [List.dropWhile_cons] at h
    split at h
    · exact head_dropWhile h
    · obtain rfl := Option.some.inj h
      simpa using ‹¬p d = true›

/-- On every line the code finds the headings of the specification. -/
theorem orgHeading_reads : Reads orgHeading := by
  intro line level title
  constructor
  · intro h
    unfold orgHeading at h
    rw [isSpaceRe_eq] at h
    simp only at h
    split at h
    · cases h
    rename_i h1
    split at h
    · cases h
    rename_i h2
    have key : line = List.replicate (line.takeWhile (· == '*')).length '*' ++
        ((line.dropWhile (· == '*')).takeWhile blank ++ (line.dropWhile (· == '*')).dropWhile blank) := by
      rw [← takeWhile_stars, List.takeWhile_append_dropWhile, List.takeWhile_append_dropWhile]
    refine ⟨(line.dropWhile (· == '*')).takeWhile blank, ?_⟩
    have hl : 0 < (line.takeWhile (· == '*')).length := by
      apply List.length_pos_iff.2
      simpa using h1
    have hg : (line.dropWhile (· == '*')).takeWhile blank ≠ [] := by simpa using h2
    split at h
    · rename_i h3
      obtain ⟨rfl, rfl⟩ := Prod.mk.inj (Option.some.inj h)
      rw [List.getLast?_eq_none_iff] at h3
      rw [h3] at key
      exact ⟨key, hl, hg, fun c hc => mem_takeWhile hc, by simp, by simp, by simp⟩
    · rename_i c h3
      split at h
      · cases h
      rename_i h4
      obtain ⟨rfl, rfl⟩ := Prod.mk.inj (Option.some.inj h)
      simp only [Bool.or_eq_true, decide_eq_true_eq, not_or] at h4
      refine ⟨key, hl, hg, fun c hc => mem_takeWhile hc, h4.2, fun c hc => head_dropWhile hc, ?_⟩
      intro d hd
      rw [h3] at hd
      obtain rfl := Option.some.inj hd
      simpa using h4.1
  · rintro ⟨gap, rfl, h1, h2, h3, h4, h5, h6⟩
    obtain ⟨g, gap', rfl⟩ := List.exists_cons_of_ne_nil h2
    have hg : blank g = true := h3 g (by simp)
    obtain ⟨e1, e2⟩ := dropWhile_all (p := (· == '*')) (List.replicate level '*')
      ((g :: gap') ++ title) (fun c hc => by simp [(List.mem_replicate.1 hc).2]) (by
        intro c hc
        obtain rfl := Option.some.inj hc
        cases hs : g == '*' with
        | false => rfl
        | true =>
          have : g = '*' := by simpa using hs
          subst this
          exact absurd hg (by decide))
    obtain ⟨e3, e4⟩ := dropWhile_all (p := blank) (g :: gap') title h3 h5
    unfold orgHeading
    rw [isSpaceRe_eq]
    simp only [e1, e2, e3, e4]
    rw [if_neg (by cases level with | zero => omega | succ n => simp [List.replicate_succ]),
      if_neg (by simp)]
    cases hl : title.getLast? with
    | none =>
      rw [List.getLast?_eq_none_iff] at hl
      simp [hl]
    | some c => simp [h6 c hl, h4]

theorem reads_unique {head : Str → Option (Nat × Str)} (h : Reads head) : orgHeading = head := by
  funext line
  cases h1 : head line with
  | some x => exact (orgHeading_reads line _ _).2 ((h line _ _).1 h1)
  | none =>
    cases h2 : orgHeading line with
    | none => rfl
    | some y =>
      have := (h line _ _).2 ((orgHeading_reads line _ _).1 h2)
      rw [h1] at this
      cases this

/-! ### Sections -/

theorem enclosing_snoc (h : Headline) : ∀ hs : List Headline,
    enclosing (hs ++ [h]) = (enclosing hs).filter (fun k => decide (k.level < h.level)) ++ [h]
  | [] => rfl
  | k :: hs => by
    rw [List.cons_append, enclosing, enclosing, enclosing_snoc h hs]
    rw [List.all_append]
    by_cases h1 : (hs.all fun k' => decide (k.level < k'.level)) = true
    · by_cases h2 : k.level < h.level
      · simp [h1, h2]
      · simp [h1, h2]
    · rw [if_neg h1, if_neg]
      simp [h1]

theorem take_range' : ∀ (m s n : Nat), m ≤ n → (List.range' s n).take m = List.range' s m
  | 0, _, _, _ => by simp
  | m + 1, s, 0, h => by omega
  | m + 1, s, n + 1, h => by
    rw [List.range'_succ, List.take_succ_cons, take_range' m (s + 1) n (by omega), List.range'_succ]

theorem filter_levels (k : Nat) : ∀ (l : List Headline) (s : Nat),
    l.map Headline.level = List.range' s l.length →
    l.filter (fun x => decide (x.level < s + k)) = l.take k
  | [], _, _ => by simp
  | x :: l, s, h => by
    simp only [List.map_cons, List.length_cons, List.range'_succ, List.cons.injEq] at h
    cases k with
    | zero =>
      simp only [Nat.add_zero, List.take_zero, List.filter_eq_nil_iff, decide_eq_true_eq]
      intro y hy
      rcases List.mem_cons.1 hy with rfl | hy
      · omega
      · have : y.level ∈ l.map Headline.level := List.mem_map_of_mem hy
        rw [h.2, List.mem_range'] at this
        obtain ⟨i, _, hi⟩ := this
        omega
    | succ k =>
      rw [List.filter_cons, if_pos (by simp [h.1]), List.take_succ_cons]
      have := filter_levels k l (s + 1) h.2
      rw [show s + 1 + k = s + (k + 1) by omega] at this
      rw [this]

def slotOf (h : Headline) : Slot := some (h.lineNo, h.title)

theorem trace_regular (find : Str → List Link) (accept : Link → Bool) : ∀ (lines : List Str)
    (n : Int) (slots : List Slot) (len : Nat) (seen : List Headline),
    Regular orgHeading len lines → slots.length = 10 → len ≤ 10 →
    slots.take len = (enclosing seen).map slotOf →
    (enclosing seen).map Headline.level = List.range' 1 len →
    trace find accept n slots len lines =
      (expected orgHeading find accept n seen lines).map fun e => (e.1.map slotOf, e.2)
  | [], _, _, _, _, _, _, _, _, _ => rfl
  | l :: ls, n, slots, len, seen, hreg, hs, hlen, htake, hlev => by
    rw [trace, expected]
    unfold slotStep
    rw [Regular] at hreg
    cases hh : orgHeading l with
    | none =>
      rw [hh] at hreg
      simp only [List.map_append, List.map_map]
      rw [trace_regular find accept ls (n + 1) slots len seen hreg hs hlen htake hlev, htake]
      simp [Function.comp_def]
    | some st =>
      obtain ⟨level, title⟩ := st
      rw [hh] at hreg
      simp only at hreg
      obtain ⟨r1, r2, r3, r4⟩ := hreg
      have hlo : levelOf level = level := by unfold levelOf; rw [if_neg (by omega)]
      have hll : (enclosing seen).length = len := by
        have := congrArg List.length hlev; simpa using this
      have henc : enclosing (seen ++ [⟨level, n, title⟩]) =
          (enclosing seen).take (level - 1) ++ [⟨level, n, title⟩] := by
        rw [enclosing_snoc]
        have := filter_levels (level - 1) (enclosing seen) 1 (by rw [hll]; exact hlev)
        rw [show 1 + (level - 1) = level by omega] at this
        rw [this]
      have htake' : (slots.set (level - 1) (some (n, title))).take level =
          (enclosing (seen ++ [⟨level, n, title⟩])).map slotOf := by
        obtain ⟨m, rfl⟩ : ∃ m, level = m + 1 := ⟨level - 1, by omega⟩
        rw [henc]
        simp only [Nat.add_sub_cancel] at *
        rw [List.take_add_one, List.take_set_of_le (Nat.le_refl _),
          List.getElem?_set_self (by omega), List.map_append, List.map_take, ← htake,
          List.take_take, Nat.min_eq_left (by omega)]
        rfl
      have hlev' : (enclosing (seen ++ [⟨level, n, title⟩])).map Headline.level =
          List.range' 1 level := by
        obtain ⟨m, rfl⟩ : ∃ m, level = m + 1 := ⟨level - 1, by omega⟩
        rw [henc]
        simp only [Nat.add_sub_cancel, List.map_append, List.map_take, hlev]
        rw [take_range' _ _ _ (by omega), List.range'_concat]
        simp; omega
      simp only [hlo, List.map_append, List.map_map]
      rw [trace_regular find accept ls (n + 1) _ level _ r4 (by simpa using hs) r3 htake' hlev',
        htake']
      simp [Function.comp_def]

theorem expected_congr {head head' : Str → Option (Nat × Str)} (find : Str → List Link)
    (accept : Link → Bool) : ∀ (lines : List Str) (n : Int) (seen : List Headline),
    (∀ l ∈ lines, head l = head' l) →
    expected head find accept n seen lines = expected head' find accept n seen lines
  | [], _, _, _ => rfl
  | l :: ls, n, seen, h => by
    rw [expected, expected, h l (by simp),
      expected_congr find accept ls (n + 1) _ fun k hk => h k (by simp [hk])]

theorem regular_congr {head head' : Str → Option (Nat × Str)} : ∀ (lines : List Str) (d : Nat),
    (∀ l ∈ lines, head l = head' l) → Regular head d lines → Regular head' d lines
  | [], _, _, _ => trivial
  | l :: ls, d, h, hr => by
    rw [Regular] at hr ⊢
    rw [← h l (by simp)]
    revert hr
    cases head l with
    | none =>
      intro hr
      exact regular_congr ls d (fun k hk => h k (by simp [hk])) hr
    | some st =>
      intro hr
      exact ⟨hr.1, hr.2.1, hr.2.2.1, regular_congr ls _ (fun k hk => h k (by simp [hk])) hr.2.2.2⟩

/-! ### Labels -/

mutual
theorem labelled_of_paths (P : Props → Prop) : ∀ (t : Tree) (above : List Props), Full t →
    (∀ e ∈ paths above t, ∀ p ∈ e.1, P p) → Labelled P t
  | .body _, _, _, _ => trivial
  | .node p cs, above, hf, h => by
    rw [paths] at h
    refine ⟨?_, labelledAll_of_paths P cs (above ++ [p]) hf.2 h⟩
    have hne := FullAll.links_ne cs hf.2 hf.1
    rw [← pathsAll_links (above ++ [p])] at hne
    cases hp : pathsAll (above ++ [p]) cs with
    | nil => rw [hp] at hne; exact absurd rfl hne
    | cons e es =>
      have hpre : ∃ tl, e.1 = (above ++ [p]) ++ tl := by
        have := pathsAll_shift (above ++ [p]) [] cs
        rw [List.append_nil, hp] at this
        cases hq : pathsAll [] cs with
        | nil => rw [hq] at this; cases this
        | cons e' es' => rw [hq] at this; injection this with h1 _; exact ⟨e'.1, by rw [h1]⟩
      obtain ⟨tl, htl⟩ := hpre
      exact h e (by rw [hp]; simp) p (by rw [htl]; simp)
theorem labelledAll_of_paths (P : Props → Prop) : ∀ (ts : List Tree) (above : List Props),
    FullAll ts → (∀ e ∈ pathsAll above ts, ∀ p ∈ e.1, P p) → LabelledAll P ts
  | [], _, _, _ => trivial
  | t :: ts, above, hf, h => by
    rw [pathsAll] at h
    exact ⟨labelled_of_paths P t above hf.1 fun e he => h e (List.mem_append_left _ he),
      labelledAll_of_paths P ts above hf.2 fun e he => h e (List.mem_append_right _ he)⟩
end

mutual
theorem paths_of_labelled (P : Props → Prop) : ∀ (t : Tree) (above : List Props), Labelled P t →
    (∀ p ∈ above, P p) → ∀ e ∈ paths above t, ∀ p ∈ e.1, P p
  | .body _, above, _, ha, e, he, p, hp => by
    simp only [paths, List.mem_map] at he
    obtain ⟨_, _, rfl⟩ := he
    exact ha p hp
  | .node q cs, above, h, ha, e, he, p, hp => by
    rw [paths] at he
    refine pathsAll_of_labelled P cs (above ++ [q]) h.2 ?_ e he p hp
    intro p hp
    rcases List.mem_append.1 hp with h1 | h1
    · exact ha p h1
    · rw [List.mem_singleton.1 h1]; exact h.1
theorem pathsAll_of_labelled (P : Props → Prop) : ∀ (ts : List Tree) (above : List Props),
    LabelledAll P ts → (∀ p ∈ above, P p) → ∀ e ∈ pathsAll above ts, ∀ p ∈ e.1, P p
  | [], _, _, _, e, he, _, _ => by simp [pathsAll] at he
  | t :: ts, above, h, ha, e, he, p, hp => by
    rw [pathsAll] at he
    rcases List.mem_append.1 he with h1 | h1
    · exact paths_of_labelled P t above h.1 ha e h1 p hp
    · exact pathsAll_of_labelled P ts above h.2 ha e h1 p hp
end

theorem paths_part {t t' : Tree} (h : Part t t') :
    ∀ above, (paths above t).Sublist (paths above t') := by
  refine Part.rec (motive_1 := fun t t' _ => ∀ above, (paths above t).Sublist (paths above t'))
    (motive_2 := fun ts ts' _ => ∀ above, (pathsAll above ts).Sublist (pathsAll above ts'))
    ?_ ?_ ?_ ?_ ?_ h
  · intro ls ls' hs above; simp only [paths]; exact hs.map _
  · intro p cs cs' _ ih above; simp only [paths]; exact ih _
  · intro above; simp [pathsAll]
  · intro t t' ts ts' _ _ i1 i2 above; simp only [pathsAll]; exact (i1 above).append (i2 above)
  · intro t' ts ts' _ ih above
    rw [pathsAll]
    exact (ih above).trans (List.sublist_append_right _ _)

theorem labelled_part (P : Props → Prop) {t t' : Tree} (h : Part t t') :
    Labelled P t' → Labelled P t := by
  refine Part.rec (motive_1 := fun t t' _ => Labelled P t' → Labelled P t)
    (motive_2 := fun ts ts' _ => LabelledAll P ts' → LabelledAll P ts) ?_ ?_ ?_ ?_ ?_ h
  · intro _ _ _ _; exact trivial
  · intro p cs cs' _ ih h; exact ⟨h.1, ih h.2⟩
  · intro h; exact trivial
  · intro t t' ts ts' _ _ i1 i2 h; exact ⟨i1 h.1, i2 h.2⟩
  · intro t' ts ts' _ ih h; exact ih h.2

/-- In an outline going deeper step by step no slot in use is empty. -/
theorem trace_stepwise (find : Str → List Link) (accept : Link → Bool) : ∀ (lines : List Str)
    (n : Int) (slots : List Slot) (len deepest : Nat),
    Stepwise orgHeading deepest lines → slots.length = 10 → len ≤ min deepest 10 →
    (∀ i, i < min deepest 10 → ∃ x, slots[i]? = some (some x)) →
    ∀ e ∈ trace find accept n slots len lines, ∀ s ∈ e.1, s ≠ none
  | [], _, _, _, _, _, _, _, _ => by simp [trace]
  | l :: ls, n, slots, len, deepest, hst, hs, hlen, hfill => by
    have hnow : ∀ (sl : List Slot) (ln d : Nat), ln ≤ min d 10 →
        (∀ i, i < min d 10 → ∃ x, sl[i]? = some (some x)) → ∀ s ∈ sl.take ln, s ≠ none := by
      intro sl ln d h1 h2 s hsm
      obtain ⟨i, hi⟩ := List.getElem?_of_mem hsm
      rw [List.getElem?_take] at hi
      split at hi
      · obtain ⟨x, hx⟩ := h2 i (by omega)
        rw [hx] at hi
        have := Option.some.inj hi
        rw [← this]; simp
      · cases hi
    rw [trace]
    unfold slotStep
    rw [Stepwise] at hst
    cases hh : orgHeading l with
    | none =>
      rw [hh] at hst
      intro e he
      rcases List.mem_append.1 he with he | he
      · obtain ⟨k, _, rfl⟩ := List.mem_map.1 he
        exact hnow slots len deepest hlen hfill
      · exact trace_stepwise find accept ls (n + 1) slots len deepest hst hs hlen hfill e he
    | some st =>
      obtain ⟨level, title⟩ := st
      rw [hh] at hst
      simp only at hst
      have hpos := orgHeading_pos hh
      have hb := levelOf_bounds hpos
      have hle : levelOf level ≤ min (max deepest level) 10 := by
        unfold levelOf; split <;> omega
      have hfill' : ∀ i, i < min (max deepest level) 10 →
          ∃ x, (slots.set (levelOf level - 1) (some (n, title)))[i]? = some (some x) := by
        intro i hi
        rw [List.getElem?_set]
        by_cases hii : levelOf level - 1 = i
        · rw [if_pos hii, if_pos (by omega)]; exact ⟨_, rfl⟩
        · rw [if_neg hii]
          apply hfill
          unfold levelOf at hii
          split at hii <;> omega
      intro e he
      rcases List.mem_append.1 he with he | he
      · obtain ⟨k, _, rfl⟩ := List.mem_map.1 he
        exact hnow _ _ _ hle hfill'
      · exact trace_stepwise find accept ls (n + 1) _ _ _ hst.2 (by simpa using hs) hle hfill' e he

end Burl.Extract
