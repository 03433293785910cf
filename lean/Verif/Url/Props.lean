import Verif.Url.Lemmas
/-! Property theorems for `pkg/burl_url` (C10, C11). -/
namespace Burl.Url
open Spec

/-- C10: the variants of `u` are exactly the truncations of redundant tails of `u` and of its
http/https counterpart (and there are none for the empty string). -/
theorem c10_urlVariants_mem (order : List (Str × Str)) (ho : order.Perm replacements)
    (u v : Str) :
    v ∈ urlVariants order u ↔ u ≠ [] ∧ ∃ u', SchemeAlt u u' ∧ Truncation u' v := by
  have key : ∀ (l : List (Str × Str)) (acc : List Str),
      v ∈ l.foldl (replaceStep u) acc ↔
        v ∈ acc ∨ ∃ kv ∈ l, kv.1.isPrefixOf u = true ∧
          v ∈ redundantTailVariants (kv.2 ++ u.drop kv.1.length) := by
    intro l
    induction l with
    | nil => simp
    | cons kv l ih =>
      intro acc
      rw [List.foldl_cons, ih]
      unfold replaceStep
      split <;> simp_all [or_assoc]
  unfold urlVariants
  rw [key, mem_redundantTailVariants]
  have mem : ∀ kv, kv ∈ order ↔ kv ∈ replacements := fun kv => ho.mem_iff
  simp only [mem, mem_redundantTailVariants, List.isPrefixOf_iff_prefix]
  constructor
  · rintro (⟨h1, h2⟩ | ⟨kv, hkv, ⟨r, hr⟩, h3, h4⟩)
    · exact ⟨h1, u, Or.inl rfl, h2⟩
    · subst hr
      simp [replacements] at hkv
      rcases hkv with rfl | rfl
      · exact ⟨by simp, _, Or.inr (Or.inl ⟨r, rfl, rfl⟩), by simpa using h4⟩
      · exact ⟨by simp, _, Or.inr (Or.inr ⟨r, rfl, rfl⟩), by simpa using h4⟩
  · rintro ⟨h1, u', h2 | ⟨r, h2, h3⟩ | ⟨r, h2, h3⟩, h4⟩
    · subst h2; exact Or.inl ⟨h1, h4⟩
    · refine Or.inr ⟨("http:".toList, "https:".toList), by simp [replacements], ⟨r, h2.symm⟩, by simp, ?_⟩
      rw [h2, List.drop_left, ← h3]; exact h4
    · refine Or.inr ⟨("https:".toList, "http:".toList), by simp [replacements], ⟨r, h2.symm⟩, by simp, ?_⟩
      rw [h2, List.drop_left, ← h3]; exact h4

/-- C10 is not vacuous: a variant that needs both the scheme exchange and a tail cut. -/
example : "http://a.b".toList ∈ urlVariants replacements "https://a.b/?&#".toList ∧
    "http://a".toList ∉ urlVariants replacements "https://a.b/?&#".toList := by decide +kernel

/-- C10 (order): within one scheme the variants are listed from the shortest to the longest,
without repetition, and the last one is the URL itself. -/
theorem c10_tail_order (u : Str) (hu : u ≠ []) :
    (redundantTailVariants u).Pairwise (fun a b => a.length < b.length) ∧
    (redundantTailVariants u).getLast? = some u := by
  have hle := tailStart_le u
  have e : redundantTailVariants u = List.map (fun k => List.take k u)
      (List.range' (tailStart u) (u.length + 1 - tailStart u)) := by
    unfold redundantTailVariants
    rw [if_neg (by simpa using hu)]; rfl
  rw [e]
  constructor
  · rw [List.pairwise_map]
    have hp := List.pairwise_lt_range' (s := tailStart u) (n := u.length + 1 - tailStart u) 1 (by omega)
    refine List.Pairwise.imp_of_mem ?_ hp
    intro a b ha hb hab
    rw [List.mem_range'_1] at ha hb
    simp; omega
  · rw [List.getLast?_map, List.getLast?_range']
    rw [if_neg (by omega)]
    simp only [Option.map_some, Option.some.injEq]
    rw [show tailStart u + (u.length + 1 - tailStart u) - 1 = u.length by omega]
    simp

/-- C11: the URL itself is always among its variants. -/
theorem c11_self_mem (order : List (Str × Str)) (ho : order.Perm replacements) (u : Str)
    (hu : u ≠ []) : u ∈ urlVariants order u :=
  (c10_urlVariants_mem order ho u u).mpr
    ⟨hu, u, Or.inl rfl, [], ⟨0, 0, false, false, by simp⟩, by simp⟩

/-- C11: `http:` and `https:` forms of a URL have the same variants. -/
theorem c11_http_https (order order' : List (Str × Str)) (ho : order.Perm replacements)
    (ho' : order'.Perm replacements) (r v : Str) :
    v ∈ urlVariants order ("http:".toList ++ r) ↔
      v ∈ urlVariants order' ("https:".toList ++ r) := by
  rw [c10_urlVariants_mem _ ho, c10_urlVariants_mem _ ho']
  have key : ∀ w, SchemeAlt ("http:".toList ++ r) w ↔ SchemeAlt ("https:".toList ++ r) w := by
    intro w
    unfold SchemeAlt
    constructor
    · rintro (h | ⟨s, h, h'⟩ | ⟨s, h, h'⟩)
      · exact Or.inr (Or.inr ⟨r, rfl, h⟩)
      · have := List.append_cancel_left h; subst this; exact Or.inl h'
      · simp at h
    · rintro (h | ⟨s, h, h'⟩ | ⟨s, h, h'⟩)
      · exact Or.inr (Or.inl ⟨r, rfl, h⟩)
      · simp at h
      · have := List.append_cancel_left h; subst this; exact Or.inl h'
  simp only [key, ne_eq, List.append_eq_nil_iff, String.toList_eq_nil_iff]
  simp

/-- C11: the produced list does not depend on the map iteration order. -/
theorem c11_order_irrelevant (o₁ o₂ : List (Str × Str)) (h₁ : o₁.Perm replacements)
    (h₂ : o₂.Perm replacements) (u : Str) : urlVariants o₁ u = urlVariants o₂ u := by
  have key : ∀ o : List (Str × Str), o.Perm replacements →
      urlVariants o u = urlVariants replacements u := by
    intro o ho
    have cases2 : o = replacements ∨ o = replacements.reverse := by
      have hl := ho.length_eq
      have hm : ∀ kv, kv ∈ o ↔ kv ∈ replacements := fun kv => ho.mem_iff
      match o, hl with
      | [x, y], _ =>
        have hx := (hm x).mp (by simp)
        have hy := (hm y).mp (by simp)
        have hn : x ≠ y := by
          have := ho.symm.nodup (by decide)
          simp at this; exact this
        simp [replacements] at hx hy
        rcases hx with rfl | rfl <;> rcases hy with rfl | rfl <;>
          first
          | exact absurd rfl hn
          | exact Or.inl rfl
          | exact Or.inr rfl
    rcases cases2 with rfl | rfl
    · rfl
    · simp only [urlVariants, replacements, List.reverse_cons, List.reverse_nil, List.nil_append,
        List.cons_append, List.foldl_cons, List.foldl_nil, replaceStep, List.isPrefixOf_iff_prefix]
      by_cases h1 : "http:".toList <+: u <;> by_cases h2 : "https:".toList <+: u
      · exfalso
        obtain ⟨a, rfl⟩ := h1
        obtain ⟨b, hb⟩ := h2
        simp at hb
      all_goals simp only [h1, h2, if_false, if_pos]
      all_goals simp
  rw [key _ h₁, key _ h₂]

/-- Both iteration orders really are permutations of the map's contents. -/
example : replacements.reverse.Perm replacements ∧ replacements.reverse ≠ replacements :=
  ⟨List.reverse_perm _, by decide⟩

end Burl.Url
