import Verif.Url.Model
import Verif.Url.Spec
/-! Loop lemmas for URL variants. -/
namespace Burl.Url
open Spec

theorem backOnce_le (s : Str) (c : Char) (i : Nat) : backOnce s c i ≤ i := by
  unfold backOnce; split <;> omega

theorem backWhile_le (s : Str) (c : Char) (i : Nat) : backWhile s c i ≤ i := by
  induction i with
  | zero => simp [backWhile]
  | succ i ih => unfold backWhile; split <;> omega

theorem backOnce_take (s : Str) (c : Char) (i : Nat) (hi : i ≤ s.length) :
    ∃ q : Bool, s.take i = s.take (backOnce s c i) ++ (if q then [c] else []) := by
  unfold backOnce
  split
  · rename_i h
    refine ⟨true, ?_⟩
    obtain ⟨h0, h1⟩ := h
    obtain ⟨j, rfl⟩ : ∃ j, i = j + 1 := ⟨i - 1, by omega⟩
    simp at h1 ⊢
    rw [List.take_add_one, h1]; simp
  · exact ⟨false, by simp⟩

theorem backWhile_take (s : Str) (c : Char) (i : Nat) (hi : i ≤ s.length) :
    ∃ b : Nat, s.take i = s.take (backWhile s c i) ++ List.replicate b c := by
  induction i with
  | zero => exact ⟨0, by simp [backWhile]⟩
  | succ i ih =>
    unfold backWhile
    split
    · rename_i h
      obtain ⟨b, hb⟩ := ih (by omega)
      refine ⟨b + 1, ?_⟩
      rw [List.take_add_one, h, hb]
      simp [List.replicate_succ']
    · exact ⟨0, by simp⟩

theorem getElem?_of_take {s w : Str} {c : Char} {m k : Nat} (h : s.take m = w ++ [c])
    (hm : m = k + 1) (hl : m ≤ s.length) : s[k]? = some c ∧ s.take k = w := by
  subst hm
  have hlen : w.length = k := by
    have := congrArg List.length h; simp at this; omega
  have h1 : s.take (k+1) = s.take k ++ [s[k]] := by
    rw [List.take_add_one, List.getElem?_eq_getElem (by omega)]; rfl
  rw [h1] at h
  have := List.append_inj h (by simp; omega)
  simp at this
  simp [this.1]
  exact List.getElem?_eq_some_iff.mpr ⟨by omega, this.2⟩

theorem backOnce_max {s w : Str} {c : Char} {m : Nat} (q : Bool) (hm : m ≤ s.length)
    (h : s.take m = w ++ (if q then [c] else [])) :
    backOnce s c m = w.length ∨ (backOnce s c m < w.length ∧ w.getLast? = some c) := by
  have hlen := congrArg List.length h
  unfold backOnce
  cases q with
  | true =>
    simp at h hlen
    left
    have hm' : m = (m-1)+1 := by omega
    have := (getElem?_of_take h hm' hm).1
    rw [if_pos ⟨by omega, this⟩]; omega
  | false =>
    simp at h hlen
    split
    · rename_i h1
      right
      refine ⟨by omega, ?_⟩
      rw [← h, List.getLast?_take]
      simp [h1.2, show m ≠ 0 by omega]
    · left; omega

theorem backWhile_max {s : Str} {c : Char} {m : Nat} (w : Str) (b : Nat) (hm : m ≤ s.length)
    (h : s.take m = w ++ List.replicate b c) :
    backWhile s c m = w.length ∨ (backWhile s c m < w.length ∧ w.getLast? = some c) := by
  induction m generalizing b w with
  | zero => simp at h; simp [backWhile, h]
  | succ m ih =>
    unfold backWhile
    cases b with
    | zero =>
      have hlen := congrArg List.length h
      simp at h hlen
      split
      · rename_i h1
        right
        have := backWhile_le s c m
        refine ⟨by omega, ?_⟩
        rw [← h, List.getLast?_take]
        simp [h1]
      · left; omega
    | succ b =>
      rw [List.replicate_succ', ← List.append_assoc] at h
      obtain ⟨h1, h2⟩ := getElem?_of_take h rfl hm
      rw [if_pos h1]
      exact ih w b (by omega) h2

/-- Index where the longest redundant tail begins. -/
def tailStart (url : Str) : Nat :=
  backWhile url '/' (backOnce url '?' (backWhile url '&' (backOnce url '#' url.length)))

theorem tailStart_le (u : Str) : tailStart u ≤ u.length := by
  unfold tailStart
  have h1 := backOnce_le u '#' u.length
  have h2 := backWhile_le u '&' (backOnce u '#' u.length)
  have h3 := backOnce_le u '?' (backWhile u '&' (backOnce u '#' u.length))
  have h4 := backWhile_le u '/' (backOnce u '?' (backWhile u '&' (backOnce u '#' u.length)))
  omega

theorem tail_redundant (u : Str) : RedundantTail (u.drop (tailStart u)) := by
  have h1 := backOnce_le u '#' u.length
  have h2 := backWhile_le u '&' (backOnce u '#' u.length)
  have h3 := backOnce_le u '?' (backWhile u '&' (backOnce u '#' u.length))
  obtain ⟨h, e1⟩ := backOnce_take u '#' u.length (Nat.le_refl _)
  obtain ⟨b, e2⟩ := backWhile_take u '&' (backOnce u '#' u.length) h1
  obtain ⟨q, e3⟩ := backOnce_take u '?' (backWhile u '&' (backOnce u '#' u.length)) (by omega)
  obtain ⟨a, e4⟩ := backWhile_take u '/' (backOnce u '?' (backWhile u '&' (backOnce u '#' u.length)))
    (by omega)
  refine ⟨a, b, q, h, ?_⟩
  rw [e2, e3, e4] at e1
  simp only [List.take_length] at e1
  have hd : u = u.take (tailStart u) ++ u.drop (tailStart u) := by simp
  rw [show backWhile u '/' (backOnce u '?' (backWhile u '&' (backOnce u '#' u.length))) = tailStart u
    from rfl] at e1
  simp only [List.append_assoc] at e1
  have := List.append_cancel_left (hd.symm.trans e1)
  simpa [List.append_assoc] using this

theorem redundant_tail {c : Char} {t : Str} (h : RedundantTail (c :: t)) : RedundantTail t := by
  obtain ⟨a, b, q, f, e⟩ := h
  cases a with
  | succ a =>
    refine ⟨a, b, q, f, ?_⟩
    simp [List.replicate_succ] at e
    simp [e.2]
  | zero =>
    cases q with
    | true =>
      simp at e
      exact ⟨0, b, false, f, by simp [e.2]⟩
    | false =>
      cases b with
      | succ b =>
        simp [List.replicate_succ] at e
        exact ⟨0, b, false, f, by simp [e.2]⟩
      | zero =>
        cases f with
        | true => simp at e; exact ⟨0, 0, false, false, by simp [e.2]⟩
        | false => simp at e

theorem redundant_drop {t : Str} (h : RedundantTail t) (k : Nat) : RedundantTail (t.drop k) := by
  induction k generalizing t with
  | zero => simpa
  | succ k ih =>
    cases t with
    | nil => simpa using h
    | cons c t => simpa using ih (redundant_tail h)

theorem tailStart_max {u v t : Str} (ht : RedundantTail t) (hu : u = v ++ t) :
    tailStart u ≤ v.length := by
  obtain ⟨a, b, q, f, rfl⟩ := ht
  unfold tailStart
  have hn : u.take u.length = (v ++ (List.replicate a '/' ++ (if q then ['?'] else []) ++
      List.replicate b '&')) ++ (if f then ['#'] else []) := by
    rw [List.take_length, hu]; simp only [List.append_assoc]
  have l1 := backOnce_le u '#' u.length
  have m2 := backWhile_le u '&' (backOnce u '#' u.length)
  have m3 := backOnce_le u '?' (backWhile u '&' (backOnce u '#' u.length))
  have m4 := backWhile_le u '/' (backOnce u '?' (backWhile u '&' (backOnce u '#' u.length)))
  have tk : ∀ i w r, u = w ++ r → i = w.length → u.take i = w := by
    intro i w r h1 h2; subst h2; rw [h1]; simp
  rcases backOnce_max f (Nat.le_refl _) hn with e1 | ⟨e1, g1⟩
  · rcases backWhile_max (s := u) (c := '&') (m := backOnce u '#' u.length)
        (v ++ (List.replicate a '/' ++ (if q then ['?'] else []))) b l1
        (by rw [tk _ _ (if f then ['#'] else []) (by rw [hu]; simp only [List.append_assoc]) e1]
            simp only [List.append_assoc]) with e2 | ⟨e2, g2⟩
    · rcases backOnce_max (s := u) (c := '?') (m := backWhile u '&' (backOnce u '#' u.length))
        (w := v ++ List.replicate a '/') q (by omega)
        (by rw [tk _ _ (List.replicate b '&' ++ if f then ['#'] else [])
              (by rw [hu]; simp only [List.append_assoc]) e2]
            simp only [List.append_assoc]) with e3 | ⟨e3, g3⟩
      · rcases backWhile_max (s := u) (c := '/')
          (m := backOnce u '?' (backWhile u '&' (backOnce u '#' u.length))) v a (by omega)
          (by rw [tk _ _ ((if q then ['?'] else []) ++ List.replicate b '&' ++ if f then ['#'] else [])
                (by rw [hu]; simp only [List.append_assoc]) e3]) with e4 | ⟨e4, _⟩ <;> omega
      · have ha : a = 0 := by
          cases a with
          | zero => rfl
          | succ a => simp [List.replicate_succ'] at g3
        subst ha; simp at e3; omega
    · have hq : q = false := by
        cases q with
        | false => rfl
        | true => simp at g2
      have ha : a = 0 := by
        cases a with
        | zero => rfl
        | succ a => subst hq; simp [List.replicate_succ'] at g2
      subst ha hq; simp at e2; omega
  · have hb : b = 0 := by
      cases b with
      | zero => rfl
      | succ b => simp [List.replicate_succ', List.getLast?_append] at g1
    have hq : q = false := by
      cases q with
      | false => rfl
      | true => subst hb; simp at g1
    have ha : a = 0 := by
      cases a with
      | zero => rfl
      | succ a => subst hq hb; simp [List.replicate_succ'] at g1
    subst ha hq hb; simp at e1; omega

theorem mem_redundantTailVariants (u v : Str) :
    v ∈ redundantTailVariants u ↔ u ≠ [] ∧ Truncation u v := by
  unfold redundantTailVariants
  by_cases hu : u = []
  · simp [hu]
  · have hl : u.length ≠ 0 := by simpa using hu
    rw [if_neg hl]
    simp only [ne_eq, hu, not_false_eq_true, true_and]
    change v ∈ List.map (fun k => List.take k u)
      (List.range' (tailStart u) (u.length + 1 - tailStart u)) ↔ _
    simp only [List.mem_map, List.mem_range'_1]
    have hle := tailStart_le u
    constructor
    · rintro ⟨k, ⟨h1, h2⟩, rfl⟩
      refine ⟨u.drop k, ?_, by simp⟩
      have := redundant_drop (tail_redundant u) (k - tailStart u)
      rwa [List.drop_drop, show tailStart u + (k - tailStart u) = k by omega] at this
    · rintro ⟨t, ht, e⟩
      refine ⟨v.length, ⟨tailStart_max ht e, ?_⟩, by rw [e]; simp⟩
      have := congrArg List.length e
      simp at this; omega

end Burl.Url
