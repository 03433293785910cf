import Verif.Scan.RuneLemmas
import Verif.Scan.Lemmas
/-! The loop of the scanner delivers words. -/
namespace Burl.Scan
open Spec
open Burl.JsonText (getRune)
open Burl.Links (isSpaceWord)

/-- Characters. -/
abbrev Piece := Bytes × Char

/-- All the characters are white space. -/
def Blank (ps : List Piece) : Prop := ∀ p ∈ ps, isSpaceWord p.2 = true
/-- No character is white space. -/
def Solid (ps : List Piece) : Prop := ∀ p ∈ ps, isSpaceWord p.2 = false

theorem skipSpace_cut {g r : List Piece} (hg : Blank g) (hr : ∀ p, r.head? = some p → isSpaceWord p.2 = false) :
    ∀ {s : Bytes} {f : Nat}, Cut s (g ++ r) → s.length ≤ f → skipSpace f s = (bytes g).length := by
  induction g with
  | nil =>
    intro s f h hf
    cases f with
    | zero => simp [skipSpace, bytes]
    | succ f =>
      rw [skipSpace]
      split
      · simp [bytes]
      · rename_i hs
        cases r with
        | nil => exact absurd (cut_bytes h).symm (by simpa [bytes] using hs)
        | cons p r =>
          obtain ⟨h1, _, _, _⟩ := cut_getRune h
          rw [h1]
          simp [hr p rfl, bytes]
  | cons p g ih =>
    intro s f h hf
    rw [List.cons_append] at h
    obtain ⟨h1, h2, h3, h4⟩ := cut_getRune h
    have hpos := List.length_pos_iff.2 h3
    have hlen : s.length = p.1.length + (bytes (g ++ r)).length := by
      rw [← List.length_append]; exact congrArg List.length h2
    have hs : s ≠ [] := by rw [h2]; simp [h3]
    cases f with
    | zero => omega
    | succ f =>
      rw [skipSpace, if_neg hs, h1]
      have hd : s.drop p.1.length = bytes (g ++ r) := by
        have := congrArg (List.drop p.1.length) h2
        rwa [List.drop_left] at this
      simp only [hg p (by simp), if_true]
      rw [hd, ih (fun q hq => hg q (List.mem_cons_of_mem _ hq)) h4 (by omega), bytes_cons,
        List.length_append]

theorem findSpace_some {w r : List Piece} {sp : Piece} (hw : Solid w) (hsp : isSpaceWord sp.2 = true) :
    ∀ {s : Bytes} {f : Nat}, Cut s (w ++ sp :: r) → s.length ≤ f →
      findSpace f s = some ((bytes w).length, sp.1.length) := by
  induction w with
  | nil =>
    intro s f h hf
    obtain ⟨h1, h2, h3, _⟩ := cut_getRune h
    have hs : s ≠ [] := by rw [h2]; simp [h3]
    cases f with
    | zero => have := List.length_pos_iff.2 hs; omega
    | succ f =>
      rw [findSpace, if_neg hs, h1]
      simp [hsp, bytes]
  | cons p w ih =>
    intro s f h hf
    rw [List.cons_append] at h
    obtain ⟨h1, h2, h3, h4⟩ := cut_getRune h
    have hpos := List.length_pos_iff.2 h3
    have hlen : s.length = p.1.length + (bytes (w ++ sp :: r)).length := by
      rw [← List.length_append]; exact congrArg List.length h2
    have hs : s ≠ [] := by rw [h2]; simp [h3]
    cases f with
    | zero => omega
    | succ f =>
      rw [findSpace, if_neg hs, h1]
      have hd : s.drop p.1.length = bytes (w ++ sp :: r) := by
        have := congrArg (List.drop p.1.length) h2
        rwa [List.drop_left] at this
      simp only [hw p (by simp), Bool.false_eq_true, if_false]
      rw [hd, ih (fun q hq => hw q (List.mem_cons_of_mem _ hq)) h4 (by omega), bytes_cons]
      simp

theorem findSpace_none {w : List Piece} (hw : Solid w) :
    ∀ {s : Bytes} {f : Nat}, Cut s w → findSpace f s = none := by
  induction w with
  | nil =>
    intro s f h
    have := cut_bytes h
    simp only [bytes, List.flatMap_nil] at this
    subst this
    cases f <;> simp [findSpace]
  | cons p w ih =>
    intro s f h
    obtain ⟨h1, h2, h3, h4⟩ := cut_getRune h
    cases f with
    | zero => rfl
    | succ f =>
      rw [findSpace]
      split
      · rfl
      · rw [h1]
        have hd : s.drop p.1.length = bytes w := by
          have := congrArg (List.drop p.1.length) h2
          rwa [List.drop_left] at this
        simp only [hw p (by simp), Bool.false_eq_true, if_false]
        rw [hd, ih (fun q hq => hw q (List.mem_cons_of_mem _ hq)) h4]
        rfl

theorem drop_bytes {s : Bytes} {g r : List Piece} (h : Cut s (g ++ r)) :
    s.drop (bytes g).length = bytes r := by
  rw [← cut_bytes h, bytes_append, List.drop_left]

theorem scanWords_some {s : Bytes} {g w r : List Piece} {sp : Piece} (h : Cut s (g ++ (w ++ sp :: r)))
    (hg : Blank g) (hne : w ≠ []) (hw : Solid w) (hsp : isSpaceWord sp.2 = true) (e : Bool) :
    scanWords s e = ((bytes g).length + (bytes w).length + sp.1.length, some (bytes w)) := by
  unfold scanWords
  rw [skipSpace_cut hg (r := w ++ sp :: r) (by
    intro p hp
    cases w with
    | nil => exact absurd rfl hne
    | cons q w => simp at hp; subst hp; exact hw _ (by simp)) h (Nat.le_refl _)]
  simp only
  rw [drop_bytes h, findSpace_some hw hsp (cut_append h) (by
    rw [← cut_bytes h, bytes_append g, List.length_append]; omega)]
  simp only [bytes_append, List.take_left]

theorem scanWords_none {s : Bytes} {g w : List Piece} (h : Cut s (g ++ w))
    (hg : Blank g) (hw : Solid w) (e : Bool) (hn : e = false ∨ w = []) :
    scanWords s e = ((bytes g).length, none) := by
  unfold scanWords
  rw [skipSpace_cut hg (r := w) (by
    intro p hp
    exact hw p (List.mem_of_mem_head? hp)) h (Nat.le_refl _)]
  simp only
  rw [drop_bytes h, findSpace_none hw (cut_append h)]
  simp only
  rw [if_neg]
  rintro ⟨h1, h2⟩
  rcases hn with hn | rfl
  · rw [hn] at h1; exact absurd h1 (by simp)
  · rw [List.append_nil] at h
    rw [← cut_bytes h] at h2
    omega

theorem bytes_ne {s : Bytes} {ps : List Piece} (h : Cut s ps) (hne : ps ≠ []) : s ≠ [] := by
  cases ps with
  | nil => exact absurd rfl hne
  | cons p ps =>
    obtain ⟨_, h2, h3, _⟩ := cut_getRune h
    rw [h2]; simp [h3]

theorem scanWords_last {s : Bytes} {g w : List Piece} (h : Cut s (g ++ w))
    (hg : Blank g) (hw : Solid w) (hne : w ≠ []) :
    scanWords s true = (s.length, some (bytes w)) := by
  unfold scanWords
  rw [skipSpace_cut hg (r := w) (by
    intro p hp
    exact hw p (List.mem_of_mem_head? hp)) h (Nat.le_refl _)]
  simp only
  rw [drop_bytes h, findSpace_none hw (cut_append h)]
  simp only
  rw [if_pos]
  refine ⟨trivial, ?_⟩
  have := List.length_pos_iff.2 (bytes_ne (cut_append h) hne)
  have e : s.length = (bytes g).length + (bytes w).length := by
    rw [← List.length_append, ← bytes_append, cut_bytes h]
  omega

/-- White space, a word and what is after it. -/
theorem pieces_cases (ps : List Piece) :
    (∃ g w sp r, ps = g ++ (w ++ sp :: r) ∧ Blank g ∧ w ≠ [] ∧ Solid w ∧ isSpaceWord sp.2 = true) ∨
    ∃ g w, ps = g ++ w ∧ Blank g ∧ Solid w := by
  let g := ps.takeWhile fun p => isSpaceWord p.2
  let r := ps.dropWhile fun p => isSpaceWord p.2
  let w := r.takeWhile fun p => !isSpaceWord p.2
  have e1 : ps = g ++ r := List.takeWhile_append_dropWhile.symm
  have e2 : r = w ++ r.dropWhile fun p => !isSpaceWord p.2 := List.takeWhile_append_dropWhile.symm
  have hg : Blank g := fun p hp => by
    have := List.all_eq_true.1 List.all_takeWhile p hp
    simpa using this
  have hw : Solid w := fun p hp => by
    have := List.all_eq_true.1 List.all_takeWhile p hp
    simpa using this
  cases hr : r.dropWhile fun p => !isSpaceWord p.2 with
  | nil => right; rw [hr, List.append_nil] at e2; exact ⟨g, w, by rw [e1, ← e2], hg, hw⟩
  | cons sp r' =>
    have hsp : isSpaceWord sp.2 = true := by
      have := List.head?_dropWhile_not (fun p : Piece => !isSpaceWord p.2) r
      rw [hr] at this
      simpa using this
    left
    rw [hr] at e2
    refine ⟨g, w, sp, r', by rw [e1, ← e2], hg, ?_, hw, hsp⟩
    intro h0
    rw [h0, List.nil_append] at e2
    have := List.head?_dropWhile_not (fun p : Piece => isSpaceWord p.2) ps
    rw [show ps.dropWhile (fun p => isSpaceWord p.2) = r from rfl, e2] at this
    simp [hsp] at this

/-! ### Words of characters -/

theorem span_unique {α : Type} {q : α → Bool} {a b x y : List α} (h : a ++ x = b ++ y)
    (ha : ∀ p ∈ a, q p = true) (hb : ∀ p ∈ b, q p = true)
    (hx : ∀ p, x.head? = some p → q p = false) (hy : ∀ p, y.head? = some p → q p = false) :
    a = b ∧ x = y := by
  have take : ∀ {a x : List α}, (∀ p ∈ a, q p = true) → (∀ p, x.head? = some p → q p = false) →
      (a ++ x).takeWhile q = a := by
    intro a x ha hx
    rw [List.takeWhile_append_of_pos ha]
    cases x with
    | nil => simp
    | cons p x => rw [List.takeWhile_cons_of_neg (by simp [hx p rfl]), List.append_nil]
  have e : a = b := by rw [← take ha hx, h, take hb hy]
  subst e
  exact ⟨rfl, List.append_cancel_left h⟩

theorem solid_head {w x : List Piece} (hne : w ≠ []) (hw : Solid w) :
    ∀ p, (w ++ x).head? = some p → isSpaceWord p.2 = false := by
  intro p hp
  cases w with
  | nil => exact absurd rfl hne
  | cons q w => simp at hp; subst hp; exact hw _ (by simp)

theorem words_some {g w r : List Piece} {sp : Piece} (hg : Blank g) (hne : w ≠ []) (hw : Solid w)
    (hsp : isSpaceWord sp.2 = true) {ws : List (List Piece × Nat)}
    (h : Words isSpaceWord (g ++ (w ++ sp :: r)) ws) :
    ∃ ws', ws = (w, sp.1.length) :: ws' ∧ Words isSpaceWord r ws' := by
  generalize hc : g ++ (w ++ sp :: r) = c at h
  cases h with
  | blank hb =>
    cases w with
    | nil => exact absurd rfl hne
    | cons p w =>
      have h1 := hb p (by rw [← hc]; simp)
      rw [hw p (by simp)] at h1
      exact absurd h1 (by simp)
  | @last g' w' hg' hne' hw' =>
    have := (span_unique (q := fun p : Piece => isSpaceWord p.2) hc hg hg' (solid_head hne hw)
      (by have := solid_head (x := []) hne' hw'; rwa [List.append_nil] at this)).2
    have h1 := hw' sp (by rw [← this]; simp)
    rw [hsp] at h1
    exact absurd h1 (by simp)
  | @cons g' w' sp' r' ws' hg' hne' hw' hsp' h' =>
    rw [List.append_assoc] at hc
    obtain ⟨_, e⟩ := span_unique (q := fun p : Piece => isSpaceWord p.2) hc hg hg' (solid_head hne hw)
      (solid_head hne' hw')
    obtain ⟨e1, e2⟩ := span_unique (q := fun p : Piece => !isSpaceWord p.2) e
      (fun p hp => by simp [hw p hp]) (fun p hp => by simp [hw' p hp])
      (fun p hp => by simp at hp; subst hp; simp [hsp]) (fun p hp => by simp at hp; subst hp; simp [hsp'])
    simp only [List.cons.injEq] at e2
    obtain ⟨e3, e4⟩ := e2
    subst e1 e3 e4
    exact ⟨ws', rfl, h'⟩

theorem words_last {g w : List Piece} (hg : Blank g) (hne : w ≠ []) (hw : Solid w)
    {ws : List (List Piece × Nat)} (h : Words isSpaceWord (g ++ w) ws) : ws = [(w, 1)] := by
  generalize hc : g ++ w = c at h
  have hh : ∀ p, w.head? = some p → isSpaceWord p.2 = false := by
    have := solid_head (x := []) hne hw; rwa [List.append_nil] at this
  cases h with
  | blank hb =>
    cases w with
    | nil => exact absurd rfl hne
    | cons p w =>
      have h1 := hb p (by rw [← hc]; simp)
      rw [hw p (by simp)] at h1
      exact absurd h1 (by simp)
  | @last g' w' hg' hne' hw' =>
    have := (span_unique (q := fun p : Piece => isSpaceWord p.2) hc hg hg' hh
      (by have := solid_head (x := []) hne' hw'; rwa [List.append_nil] at this)).2
    rw [this]
  | @cons g' w' sp' r' ws' hg' hne' hw' hsp' h' =>
    rw [List.append_assoc] at hc
    have := (span_unique (q := fun p : Piece => isSpaceWord p.2) hc hg hg' hh (solid_head hne' hw')).2
    have h1 := hw sp' (by rw [this]; simp)
    rw [hsp'] at h1
    exact absurd h1 (by simp)

theorem words_blank {g : List Piece} (hg : Blank g) {ws : List (List Piece × Nat)}
    (h : Words isSpaceWord g ws) : ws = [] := by
  generalize hc : g = c at h
  cases h with
  | blank _ => rfl
  | @last g' w' hg' hne' hw' =>
    cases w' with
    | nil => exact absurd rfl hne'
    | cons p w =>
      have h1 := hg p (by rw [hc]; simp)
      rw [hw' p (by simp)] at h1
      exact absurd h1 (by simp)
  | @cons g' w' sp' r' ws' hg' hne' hw' hsp' h' =>
    cases w' with
    | nil => exact absurd rfl hne'
    | cons p w =>
      have h1 := hg p (by rw [hc]; simp)
      rw [hw' p (by simp)] at h1
      exact absurd h1 (by simp)

theorem words_exists (ps : List Piece) : ∃ ws, Words isSpaceWord ps ws := by
  induction hn : ps.length using Nat.strongRecOn generalizing ps with
  | ind n ih =>
    rcases pieces_cases ps with ⟨g, w, sp, r, rfl, hg, hne, hw, hsp⟩ | ⟨g, w, rfl, hg, hw⟩
    · obtain ⟨ws, h⟩ := ih r.length (by rw [← hn]; simp; omega) r rfl
      refine ⟨(w, sp.1.length) :: ws, ?_⟩
      rw [← List.append_assoc]
      exact .cons hg hne hw hsp h
    · by_cases h : w = []
      · subst h
        rw [List.append_nil]
        exact ⟨_, .blank hg⟩
      · exact ⟨_, .last hg h hw⟩

theorem words_unique {ps : List Piece} {ws ws' : List (List Piece × Nat)}
    (h : Words isSpaceWord ps ws) (h' : Words isSpaceWord ps ws') : ws = ws' := by
  induction h generalizing ws' with
  | blank hg => exact (words_blank hg h').symm
  | last hg hne hw => exact (words_last hg hne hw h').symm
  | cons hg hne hw hsp _ ih =>
    rw [List.append_assoc] at h'
    obtain ⟨ws2, rfl, h2⟩ := words_some hg hne hw hsp h'
    rw [ih h2]

theorem words_skip {g r : List Piece} (hg : Blank g) {ws : List (List Piece × Nat)}
    (h : Words isSpaceWord (g ++ r) ws) : Words isSpaceWord r ws := by
  obtain ⟨ws', h'⟩ := words_exists r
  have : Words isSpaceWord (g ++ r) ws' := by
    cases h' with
    | blank hb =>
      refine .blank fun p hp => ?_
      rcases List.mem_append.1 hp with hp | hp
      · exact hg p hp
      · exact hb p hp
    | @last g' w hg' hne hw =>
      rw [← List.append_assoc]
      refine .last (fun p hp => ?_) hne hw
      rcases List.mem_append.1 hp with hp | hp
      · exact hg p hp
      · exact hg' p hp
    | @cons g' w sp r' ws' hg' hne hw hsp h' =>
      rw [List.append_assoc g', ← List.append_assoc g, ← List.append_assoc]
      refine .cons (fun p hp => ?_) hne hw hsp h'
      rcases List.mem_append.1 hp with hp | hp
      · exact hg p hp
      · exact hg' p hp
  rwa [words_unique h this]

/-! ### The loop -/

/-- The scanner finds the end of the word before its buffer is full. -/
def fits (w : List Piece × Nat) : Bool := (bytes w.1).length + w.2 ≤ maxTokenSize

theorem broken_solid (t : Bytes) : Solid (t.map broken) := by
  intro p hp
  obtain ⟨b, _, rfl⟩ := List.mem_map.1 hp
  show isSpaceWord (Char.ofNat 0xFFFD) = false
  decide

/-- White space among characters of a beginning is in the whole. -/
theorem blank_part {a b g w x : List Piece} (h : a ++ b = g ++ (w ++ x)) (hb : Solid b) (hg : Blank g) :
    ∃ a', a = g ++ a' ∧ (∀ sp x', x = sp :: x' → isSpaceWord sp.2 = true →
      ∃ x'', a = g ++ (w ++ sp :: x'') ∧ x' = x'' ++ b) := by
  have pre : ∀ {c y : List Piece}, a ++ b = c ++ y → (∃ p, c.getLast? = some p ∧ isSpaceWord p.2 = true) ∨ c = [] →
      ∃ z, a = c ++ z ∧ y = z ++ b := by
    intro c y hc hl
    rcases List.append_eq_append_iff.1 hc with ⟨z, e1, e2⟩ | ⟨z, e1, e2⟩
    · rcases List.eq_nil_or_concat z with rfl | ⟨z, p, rfl⟩
      · exact ⟨[], by rw [e1]; simp, by rw [e2]; simp⟩
      · exfalso
        rw [List.concat_eq_append] at e1 e2
        rcases hl with ⟨q, hq, hq'⟩ | hl
        · rw [e1, ← List.append_assoc, List.getLast?_concat] at hq
          cases hq
          have := hb p (by rw [e2]; simp)
          rw [hq'] at this
          exact absurd this (by simp)
        · rw [hl] at e1
          simp at e1
    · exact ⟨z, e1, e2⟩
  have hgl : (∃ p, g.getLast? = some p ∧ isSpaceWord p.2 = true) ∨ g = [] := by
    cases hl : g.getLast? with
    | none => right; simpa using hl
    | some p => left; exact ⟨p, rfl, hg p (List.mem_of_getLast? hl)⟩
  obtain ⟨z, hz, _⟩ := pre h hgl
  refine ⟨z, hz, fun sp x' hxe hsp => ?_⟩
  subst hxe
  have h' : a ++ b = (g ++ (w ++ [sp])) ++ x' := by rw [h]; simp
  obtain ⟨z', hz', hx'⟩ := pre h' (.inl ⟨sp, by rw [← List.append_assoc, List.getLast?_concat], hsp⟩)
  exact ⟨z', by rw [hz']; simp, hx'⟩

theorem cut_short {s : Bytes} {ps : List Piece} (h : Cut s ps) : ∀ p ∈ ps, p.1.length ≤ 4 := by
  induction h with
  | nil => simp
  | char _ ih =>
    intro p hp
    rcases List.mem_cons.1 hp with rfl | hp
    · simp only [String.length_utf8EncodeChar]
      exact Char.utf8Size_le_four _
    · exact ih p hp
  | bad _ _ ih =>
    intro p hp
    rcases List.mem_cons.1 hp with rfl | hp
    · simp
    · exact ih p hp

/-- If there is no white space at the beginning, the first word and the white space after it take
more. -/
theorem words_long {d rest : Bytes} {ps qs : List Piece} (h : Cut (d ++ rest) ps) (hq : Cut d qs)
    (hs : Solid qs) (hne : 4 ≤ d.length) {ws : List (List Piece × Nat)}
    (hw : Words isSpaceWord ps ws) :
    ∃ w ws', ws = w :: ws' ∧ d.length < (bytes w.1).length + w.2 := by
  obtain ⟨a, b, t, e1, e2, e3, e4⟩ := cut_prefix h (List.prefix_append d rest)
  have : qs = a ++ t.map broken := cut_unique hq e3
  subst this
  have ha : Solid a := fun p hp => hs p (List.mem_append_left _ hp)
  have hlen : d.length = (bytes a).length + t.length := by rw [e2, List.length_append]
  have ha0 : a ≠ [] := by
    rintro rfl
    rcases e4 with rfl | ⟨p, b', hb', _, hlt⟩
    · rw [hlen] at hne; simp [bytes] at hne
    · have := cut_short h p (by rw [e1, hb']; simp)
      simp [bytes] at hlen; omega
  let w := b.takeWhile fun p => !isSpaceWord p.2
  have eb : b = w ++ b.dropWhile fun p => !isSpaceWord p.2 := List.takeWhile_append_dropWhile.symm
  have hws : Solid w := fun p hp => by
    have := List.all_eq_true.1 List.all_takeWhile p hp
    simpa using this
  have haw : Solid (a ++ w) := fun p hp => by
    rcases List.mem_append.1 hp with hp | hp
    · exact ha p hp
    · exact hws p hp
  have ht : w ≠ [] → t.length ≤ (bytes w).length := by
    intro hwne
    rcases e4 with rfl | ⟨p, b', hb', _, hlt⟩
    · simp
    · cases hw' : w with
      | nil => exact absurd hw' hwne
      | cons q w' =>
        rw [hb', hw', List.cons_append] at eb
        simp only [List.cons.injEq] at eb
        rw [bytes_cons, List.length_append, ← eb.1]
        omega
  have hb : (bytes (a ++ w)).length = (bytes a).length + (bytes w).length := by
    rw [bytes_append, List.length_append]
  cases hr : b.dropWhile fun p => !isSpaceWord p.2 with
  | nil =>
    rw [hr, List.append_nil] at eb
    have hps : ps = [] ++ (a ++ w) := by rw [e1, ← eb]; simp
    rw [hps] at hw
    have := words_last (by simp [Blank]) (by simp [ha0]) haw hw
    subst this
    refine ⟨_, [], rfl, ?_⟩
    simp only
    by_cases hw0 : w = []
    · rcases e4 with rfl | ⟨p, b', hb', _, hlt⟩
      · simp at hlen; omega
      · rw [hb', hw0] at eb; cases eb
    · have := ht hw0; omega
  | cons sp r =>
    have hsp : isSpaceWord sp.2 = true := by
      have := List.head?_dropWhile_not (fun p : Piece => !isSpaceWord p.2) b
      rw [hr] at this
      simpa using this
    rw [hr] at eb
    have hps : ps = [] ++ ((a ++ w) ++ sp :: r) := by rw [e1, List.nil_append, List.append_assoc, ← eb]
    rw [hps] at hw
    obtain ⟨ws', rfl, _⟩ := words_some (by simp [Blank]) (by simp [ha0]) haw hsp hw
    refine ⟨_, ws', rfl, ?_⟩
    have hspne := List.length_pos_iff.2 (cut_ne h sp (by rw [hps]; simp))
    simp only
    by_cases hw0 : w = []
    · rcases e4 with rfl | ⟨p, b', hb', _, hlt⟩
      · simp at hlen; omega
      · rw [hb', hw0] at eb
        simp only [List.nil_append, List.cons.injEq] at eb
        rw [eb.1] at hlt
        omega
    · have := ht hw0; omega

/-- The loop of the scanner of words. -/
theorem word_loop (choice : Nat → Nat) : ∀ {s : State}, Inv s → ∀ {ps : List Piece}
    {ws : List (List Piece × Nat)}, Cut (s.data ++ s.file.rest) ps → Words isSpaceWord ps ws →
    ∃ s', Loop done (wordBody choice) s (.ok s') ∧
      s'.tokens = s.tokens ++ (ws.takeWhile fits).map (fun w => bytes w.1) ∧
      s'.err = some (if ∀ w ∈ ws, fits w = true then finalErr s.file.fault else .tooLong) := by
  intro s
  induction hn : measure s using Nat.strongRecOn generalizing s with
  | ind n ih =>
  intro h ps ws hc hws
  have hd : done s = false := h.stopped
  have hroom := h.room
  have hcap := h.cap
  obtain ⟨a, b, t, e1, e2, e3, e4⟩ := cut_prefix hc (List.prefix_append s.data s.file.rest)
  have hsol := broken_solid t
  rcases pieces_cases (a ++ t.map broken) with ⟨g, w, sp, r, eq, hg, hne, hw, hsp⟩ | ⟨g, w, eq, hg, hw⟩
  · -- a word with white space after it in the buffer
    obtain ⟨_, _, hx⟩ := blank_part eq hsol hg
    obtain ⟨x, ha, _⟩ := hx sp r rfl hsp
    rw [eq] at e3
    have hscan := scanWords_some e3 hg hne hw hsp s.err.isSome
    have hlen : s.data.length = (bytes g).length + ((bytes w).length + (sp.1.length + (bytes r).length)) := by
      rw [← cut_bytes e3, bytes_append, bytes_append, bytes_cons]
      simp only [List.length_append]
    have hsp0 := List.length_pos_iff.2 (cut_ne e3 sp (by simp))
    have hdata : s.data ≠ [] := by
      intro h0; rw [h0] at hlen; simp at hlen; omega
    generalize hk : (bytes g).length + (bytes w).length + sp.1.length = k at hscan
    have hb : wordBody choice s = .ok { s with
        start := s.start + k
        data := s.data.drop k
        tokens := s.tokens ++ [bytes w] } := by
      unfold wordBody bodyOf
      rw [if_pos (.inl hdata), hscan]
      simp only
      rw [if_neg (by omega)]
    have hps : ps = g ++ (w ++ sp :: (x ++ b)) := by rw [e1, ha]; simp
    rw [hps] at hws hc
    obtain ⟨ws', rfl, hws'⟩ := words_some hg hne hw hsp hws
    have hrest : s.data.drop k ++ s.file.rest = bytes (x ++ b) := by
      have h1 := cut_bytes hc
      have h2 : (s.data ++ s.file.rest).drop k = bytes (x ++ b) := by
        rw [← h1, bytes_append, bytes_append, bytes_cons, ← List.append_assoc, ← List.append_assoc]
        exact List.drop_left' (by simp only [List.length_append]; omega)
      rw [← h2, List.drop_append_of_le_length (by omega)]
    have hc' : Cut (bytes (x ++ b)) (x ++ b) := by
      have h1 : g ++ (w ++ sp :: (x ++ b)) = (g ++ w ++ [sp]) ++ (x ++ b) := by simp
      rw [h1] at hc
      exact cut_append hc
    have hfit : fits (w, sp.1.length) = true := by
      simp only [fits, decide_eq_true_eq]; omega
    obtain ⟨s', g1, g2, g3⟩ := ih _ (by
        rw [← hn]; unfold measure; simp only [List.length_drop]; omega)
      (s := { s with
        start := s.start + k
        data := s.data.drop k
        tokens := s.tokens ++ [bytes w] }) rfl
      ⟨by simp only [List.length_drop]; omega, h.cap, h.stopped, by
        rcases h.err with h | ⟨h3, h4, h5⟩
        · exact .inl h
        · exact .inr ⟨h3, h4, by simp only [List.length_drop]; omega⟩⟩
      (ps := x ++ b) (ws := ws') (by simp only; rw [hrest]; exact hc') hws'
    refine ⟨s', .step hd hb g1, ?_, ?_⟩
    · rw [g2, List.takeWhile_cons_of_pos hfit]; simp
    · rw [g3]
      simp only [List.mem_cons, forall_eq_or_imp, hfit, true_and]
  · -- no white space after a word
    obtain ⟨a', ha, _⟩ := blank_part (a := a) (g := g) (w := w) (x := []) (by rw [List.append_nil]; exact eq)
      hsol hg
    rw [eq] at e3
    have hlen : s.data.length = (bytes g).length + (bytes w).length := by
      rw [← cut_bytes e3, bytes_append]
      simp only [List.length_append]
    rcases h.err with he | ⟨he, hr, hlt⟩
    · generalize hs' : ({ s with
        start := s.start + (bytes g).length
        data := s.data.drop (bytes g).length } : State) = s'
      have hb : wordBody choice s = .ok (fill choice s') := by
        unfold wordBody bodyOf
        split
        · rw [scanWords_none e3 hg hw s.err.isSome (.inl (by simp [he]))]
          simp only
          rw [if_neg (by omega), hs']
        · rename_i h0
          have hd0 : s.data = [] := Classical.byContradiction fun h1 => h0 (.inl h1)
          have : (bytes g).length = 0 := by rw [hd0] at hlen; simp at hlen; omega
          rw [← hs', this]
          rfl
      have hdata' : s'.data = bytes w := by subst hs'; exact drop_bytes e3
      have hlen' : s'.data.length ≤ s.data.length := by rw [hdata']; omega
      have hinv : Inv s' := by
        subst hs'
        refine ⟨?_, h.cap, h.stopped, .inl he⟩
        simp only [List.length_drop]; omega
      have he' : s'.err = none := by subst hs'; exact he
      have ht' : s'.tokens = s.tokens := by subst hs'; rfl
      have hf' : s'.file = s.file := by subst hs'; rfl
      have hps : ps = g ++ (a' ++ b) := by rw [e1, ha]; simp
      rw [hps] at hws hc
      have hws' := words_skip hg hws
      have hc' : Cut (s'.data ++ s'.file.rest) (a' ++ b) := by
        have : s'.data ++ s'.file.rest = bytes (a' ++ b) := by
          rw [hf', ← drop_bytes hc, List.drop_append_of_le_length (by omega)]
          subst hs'; rfl
        rw [this]
        exact cut_append hc
      have hm : measure s' ≤ measure s := by
        unfold measure; rw [he, he', hf']; omega
      rcases fill_spec choice hinv he' with ⟨f1, f2, f3, f4⟩ | ⟨f1, f2, f3, f4, f5⟩
      · have hcw : Cut s'.data w := by rw [hdata']; exact cut_append e3
        obtain ⟨w0, ws', rfl, hlong⟩ := words_long hc' hcw hw (by rw [f2]; decide) hws'
        have hfit : fits w0 = false := by
          simp only [fits, decide_eq_false_iff_not]; omega
        refine ⟨_, .step hd hb (.done f1), ?_, ?_⟩
        · rw [f4, ht', List.takeWhile_cons_of_neg (by simp [hfit])]; simp
        · rw [f3, if_neg]
          intro hall
          have := hall w0 (by simp)
          rw [hfit] at this
          exact absurd this (by simp)
      · obtain ⟨s'', g1, g2, g3⟩ := ih _ (by omega) rfl f1 (by rw [f4]; exact hc') hws'
        exact ⟨s'', .step hd hb g1, by rw [g2, f2, ht'], by rw [g3, f3, hf']⟩
    · -- the end
      have hdc : Cut s.data ps := by rw [hr, List.append_nil] at hc; exact hc
      have hps : ps = g ++ w := cut_unique hdc e3
      rw [hps] at hws
      by_cases hw0 : w = []
      · subst hw0
        rw [List.append_nil] at hws
        have := words_blank hg hws
        subst this
        have hb : wordBody choice s = .ok { s with start := 0, data := [], stopped := true } := by
          unfold wordBody bodyOf
          rw [if_pos (.inr (by simp [he])), scanWords_none e3 hg hw s.err.isSome (.inr rfl)]
          simp only
          rw [if_neg (by omega)]
          simp [fill, he]
        exact ⟨_, .step hd hb (.done rfl), by simp, by simp [he]⟩
      · have := words_last hg hw0 hw hws
        subst this
        have hdata : s.data ≠ [] := bytes_ne e3 (by simp [hw0])
        have hb : wordBody choice s = .ok { s with
            start := s.start + s.data.length
            data := []
            tokens := s.tokens ++ [bytes w] } := by
          unfold wordBody bodyOf
          rw [if_pos (.inl hdata), show s.err.isSome = true by simp [he], scanWords_last e3 hg hw hw0]
          simp
        have hfit : fits (w, 1) = true := by
          simp only [fits, decide_eq_true_eq]; omega
        obtain ⟨s', g1, g2, g3⟩ := ih _ (by
            rw [← hn]; unfold measure
            have := List.length_pos_iff.2 hdata
            simp only [List.length_nil]; omega)
          (s := { s with
            start := s.start + s.data.length
            data := []
            tokens := s.tokens ++ [bytes w] }) rfl
          ⟨by simp only [List.length_nil]; exact h.room, h.cap, h.stopped,
            .inr ⟨he, hr, by simp [maxTokenSize]⟩⟩ (ps := []) (ws := [])
          (by simp only [hr, List.append_nil]; exact .nil) (.blank (by simp))
        refine ⟨s', .step hd hb g1, ?_, ?_⟩
        · rw [g2]; simp [hfit]
        · rw [g3]; simp [hfit]

end Burl.Scan
