import Verif.File.Names
/-! Facts about names of files. -/
namespace Burl.File
open Burl

theorem takeWhile_append_dropWhile' (p : Char → Bool) (l : Str) :
    l.takeWhile p ++ l.dropWhile p = l := List.takeWhile_append_dropWhile

theorem trimSlashes_spec (p : Str) : ∃ n, p = trimSlashes p ++ List.replicate n '/' := by
  unfold trimSlashes
  have h := congrArg List.reverse (takeWhile_append_dropWhile' (· == '/') p.reverse)
  rw [List.reverse_append, List.reverse_reverse] at h
  refine ⟨(p.reverse.takeWhile (· == '/')).length, ?_⟩
  have h2 : (p.reverse.takeWhile (· == '/')).reverse =
      List.replicate (p.reverse.takeWhile (· == '/')).length '/' := by
    rw [List.eq_replicate_iff]
    refine ⟨by simp, fun b hb => ?_⟩
    have hb' := List.mem_reverse.1 hb
    have := List.all_takeWhile (p := (· == '/')) (l := p.reverse)
    have := List.all_eq_true.1 this b hb'
    simpa using this
  rw [← h2]
  exact h.symm

theorem afterSlash_noslash (p : Str) : '/' ∉ afterSlash p := by
  unfold afterSlash
  intro hb
  have hb' := List.mem_reverse.1 hb
  have := List.all_eq_true.1 (List.all_takeWhile (p := (· != '/')) (l := p.reverse)) _ hb'
  simp at this

/-- What precedes the last part of a path. -/
def DirPart (d : Str) : Prop := d = [] ∨ ∃ d', d = d' ++ ['/']

theorem afterSlash_spec (p : Str) : ∃ d, DirPart d ∧ p = d ++ afterSlash p := by
  unfold afterSlash
  have h := congrArg List.reverse (takeWhile_append_dropWhile' (· != '/') p.reverse)
  rw [List.reverse_append, List.reverse_reverse] at h
  refine ⟨(p.reverse.dropWhile (· != '/')).reverse, ?_, h.symm⟩
  cases hd : p.reverse.dropWhile (· != '/') with
  | nil => exact .inl rfl
  | cons c cs =>
    have hc : c = '/' := by
      have := List.head?_dropWhile_not (· != '/') p.reverse
      rw [hd] at this
      simpa using this
    exact .inr ⟨cs.reverse, by rw [hc]; simp⟩

theorem takeWhile_of_noslash {f l : Str} (hf : '/' ∉ f) (hl : l = [] ∨ ∃ l', l = '/' :: l') :
    (f ++ l).takeWhile (· != '/') = f := by
  induction f with
  | nil =>
    rcases hl with rfl | ⟨l', rfl⟩
    · rfl
    · simp
  | cons c cs ih =>
    have hc : c ≠ '/' := fun hh => hf (by rw [hh]; exact List.mem_cons_self)
    have hcs : '/' ∉ cs := fun hh => hf (List.mem_cons_of_mem _ hh)
    rw [List.cons_append, List.takeWhile_cons_of_pos (by simpa using hc), ih hcs]

theorem afterSlash_of {d f : Str} (hd : DirPart d) (hf : '/' ∉ f) : afterSlash (d ++ f) = f := by
  unfold afterSlash
  rw [List.reverse_append, takeWhile_of_noslash, List.reverse_reverse]
  · exact fun hh => hf (List.mem_reverse.1 hh)
  · rcases hd with rfl | ⟨d', rfl⟩
    · exact .inl rfl
    · exact .inr ⟨d'.reverse, by simp⟩

theorem trimSlashes_of {p : Str} {n : Nat} (hp : p = [] ∨ ∃ p' c, p = p' ++ [c] ∧ c ≠ '/') :
    trimSlashes (p ++ List.replicate n '/') = p := by
  unfold trimSlashes
  rw [List.reverse_append, List.reverse_replicate]
  have : ∀ n, (List.replicate n '/' ++ p.reverse).dropWhile (· == '/') = p.reverse := by
    intro n
    induction n with
    | zero =>
      rcases hp with rfl | ⟨p', c, rfl, hc⟩
      · rfl
      · simp [hc]
    | succ n ih => rw [List.replicate_succ, List.cons_append, List.dropWhile_cons_of_pos (by rfl), ih]
  rw [this, List.reverse_reverse]

theorem last_of_ne {f : Str} (hf : '/' ∉ f) (hne : f ≠ []) : ∃ f' c, f = f' ++ [c] ∧ c ≠ '/' := by
  refine ⟨f.dropLast, f.getLast hne, (List.dropLast_concat_getLast hne).symm, fun hh => hf ?_⟩
  rw [← hh]
  exact List.getLast_mem hne

/-- `filepath.Base` of a path with a last part. -/
theorem base_of {d f : Str} {n : Nat} (hd : DirPart d) (hf : '/' ∉ f) (hne : f ≠ []) :
    base (d ++ f ++ List.replicate n '/') = f := by
  obtain ⟨f', c, hfc, hc⟩ := last_of_ne hf hne
  have h1 : trimSlashes (d ++ f ++ List.replicate n '/') = d ++ f :=
    trimSlashes_of (.inr ⟨d ++ f', c, by rw [hfc, List.append_assoc], hc⟩)
  have hdf : d ++ f ≠ [] := fun hh => hne (List.append_eq_nil_iff.1 hh).2
  unfold base
  rw [if_neg (fun hh => hdf (List.append_eq_nil_iff.1 hh).1), h1, if_neg hdf, afterSlash_of hd hf]

/-- The path is its directory, its base name and perhaps slashes. -/
theorem base_spec {p : Str} (h1 : p ≠ []) (h2 : base p ≠ ['/']) :
    ∃ d n, DirPart d ∧ '/' ∉ base p ∧ p = d ++ base p ++ List.replicate n '/' := by
  unfold base at h2 ⊢
  rw [if_neg h1] at h2 ⊢
  by_cases h3 : trimSlashes p = []
  · rw [if_pos h3] at h2
    exact absurd rfl h2
  · rw [if_neg h3] at h2 ⊢
    obtain ⟨n, hn⟩ := trimSlashes_spec p
    obtain ⟨d, hd, hdp⟩ := afterSlash_spec (trimSlashes p)
    exact ⟨d, n, hd, afterSlash_noslash _, by rw [← hdp, ← hn]⟩

/-- `filepath.Ext` of a name that ends with an extension. -/
theorem ext_of {s e : Str} (h1 : '.' ∉ e) (h2 : '/' ∉ e) : ext (s ++ '.' :: e) = '.' :: e := by
  have hr : (s ++ '.' :: e).reverse = e.reverse ++ '.' :: s.reverse := by simp
  have htd : ∀ (l m : Str), '.' ∉ l → '/' ∉ l →
      (l ++ '.' :: m).takeWhile (fun c => c != '.' && c != '/') = l ∧
      (l ++ '.' :: m).dropWhile (fun c => c != '.' && c != '/') = '.' :: m := by
    intro l m hd hs
    induction l with
    | nil => simp
    | cons c cs ih =>
      have hc : c ≠ '.' := fun hh => hd (by rw [hh]; exact List.mem_cons_self)
      have hc' : c ≠ '/' := fun hh => hs (by rw [hh]; exact List.mem_cons_self)
      have := ih (fun hh => hd (List.mem_cons_of_mem _ hh)) (fun hh => hs (List.mem_cons_of_mem _ hh))
      rw [List.cons_append, List.takeWhile_cons_of_pos (by simp [hc, hc']),
        List.dropWhile_cons_of_pos (by simp [hc, hc'])]
      exact ⟨by rw [this.1], this.2⟩
  have := htd e.reverse s.reverse (fun hh => h1 (List.mem_reverse.1 hh))
    (fun hh => h2 (List.mem_reverse.1 hh))
  unfold ext
  rw [hr, this.2, this.1, List.reverse_reverse]
  rfl

theorem ext_suffix (b : Str) : ∃ s, b = s ++ ext b := by
  unfold ext
  have h := congrArg List.reverse (takeWhile_append_dropWhile'
    (fun c => c != '.' && c != '/') b.reverse)
  rw [List.reverse_append, List.reverse_reverse] at h
  split
  · rename_i t hd
    rw [hd, List.reverse_cons, List.append_assoc] at h
    exact ⟨t.reverse, h.symm⟩
  · exact ⟨b, by simp⟩

theorem stem_append_ext (b : Str) : stem b ++ ext b = b := by
  obtain ⟨s, hs⟩ := ext_suffix b
  unfold stem
  have hl : b.length - (ext b).length = s.length := by
    have := congrArg List.length hs
    rw [List.length_append] at this
    omega
  rw [hl]
  have : b.take s.length = s := by
    rw [hs]
    generalize ext (s ++ ext b) = e
    simp
  rw [this]
  exact hs.symm

theorem stem_of {s e : Str} (h : ext (s ++ e) = e) : stem (s ++ e) = s := by
  unfold stem
  rw [h]
  simp

/-- Spellings of `.json`. -/
def IsJsonExt (e : Str) : Prop := lower e = dotJson

theorem toLower_ascii {c d : Char} (h : c.toLower = d) (hd : d = 'j' ∨ d = 's' ∨ d = 'o' ∨ d = 'n') :
    c ≠ '.' ∧ c ≠ '/' := by
  constructor
  · rintro rfl
    rw [← h] at hd
    revert hd
    decide
  · rintro rfl
    rw [← h] at hd
    revert hd
    decide

theorem toLower_dot {c : Char} (h : c.toLower = '.') : c = '.' := by
  unfold Char.toLower at h
  split at h
  · rename_i hc
    exfalso
    have h1 := congrArg (fun x : Char => x.val) h
    simp only at h1
    have h2 : 65 ≤ c.val.toNat := hc.1
    have h3 : c.val.toNat ≤ 90 := hc.2
    have h4 := congrArg UInt32.toNat h1
    rw [UInt32.toNat_add] at h4
    have h5 : ('a'.val - 'A'.val).toNat = 32 := by decide
    have h6 : ('.').val.toNat = 46 := by decide
    rw [h5, h6] at h4
    omega
  · exact h

theorem jsonExt_shape {e : Str} (h : IsJsonExt e) : ∃ e', e = '.' :: e' ∧ '.' ∉ e' ∧ '/' ∉ e' := by
  unfold IsJsonExt lower dotJson at h
  cases e with
  | nil => simp at h
  | cons a e =>
    simp only [List.map_cons, List.cons.injEq] at h
    have ha := toLower_dot h.1
    refine ⟨e, by rw [ha], ?_⟩
    have hall : ∀ c ∈ e, c ≠ '.' ∧ c ≠ '/' := by
      intro c hc
      have hm : c.toLower ∈ ['j', 's', 'o', 'n'] := by
        rw [← h.2]
        exact List.mem_map_of_mem hc
      exact toLower_ascii rfl (by simpa using hm)
    exact ⟨fun hh => (hall _ hh).1 rfl, fun hh => (hall _ hh).2 rfl⟩

theorem ext_of_json {s e : Str} (h : IsJsonExt e) : ext (s ++ e) = e := by
  obtain ⟨e', rfl, h1, h2⟩ := jsonExt_shape h
  exact ext_of h1 h2

theorem json_noslash {e : Str} (h : IsJsonExt e) : '/' ∉ e := by
  obtain ⟨e', rfl, h1, h2⟩ := jsonExt_shape h
  intro hh
  rcases List.mem_cons.1 hh with h3 | h3
  · cases h3
  · exact h2 h3

theorem json_ne {e : Str} (h : IsJsonExt e) : e ≠ [] := by
  obtain ⟨e', rfl, _⟩ := jsonExt_shape h
  nofun

theorem json_self : IsJsonExt dotJson := by
  unfold IsJsonExt
  decide

theorem splitSlash_ne (p : Str) : splitSlash p ≠ [] := by
  induction p with
  | nil => simp [splitSlash]
  | cons c cs ih =>
    unfold splitSlash
    split
    · simp
    · split <;> simp

theorem splitSlash_append (p r : Str) : splitSlash (p ++ '/' :: r) = splitSlash p ++ splitSlash r := by
  induction p with
  | nil => simp [splitSlash]
  | cons c cs ih =>
    rw [List.cons_append, splitSlash, splitSlash]
    by_cases hc : c = '/'
    · simp [hc, ih]
    · simp only [hc, if_false, ih]
      cases hs : splitSlash cs with
      | nil => exact absurd hs (splitSlash_ne cs)
      | cons h t => simp

theorem splitSlash_noslash {f : Str} (h : '/' ∉ f) : splitSlash f = [f] := by
  induction f with
  | nil => rfl
  | cons c cs ih =>
    have hc : c ≠ '/' := fun hh => h (by rw [hh]; exact List.mem_cons_self)
    rw [splitSlash, if_neg hc, ih (fun hh => h (List.mem_cons_of_mem _ hh))]

theorem splitSlash_parts (p : Str) : ∀ c ∈ splitSlash p, '/' ∉ c := by
  induction p with
  | nil => simp [splitSlash]
  | cons c cs ih =>
    rw [splitSlash]
    split
    · intro x hx
      rcases List.mem_cons.1 hx with rfl | hx
      · simp
      · exact ih x hx
    · rename_i hc
      cases hs : splitSlash cs with
      | nil => exact absurd hs (splitSlash_ne cs)
      | cons h t =>
        intro x hx
        rw [hs] at ih
        rcases List.mem_cons.1 hx with rfl | hx
        · intro hh
          rcases List.mem_cons.1 hh with hh | hh
          · exact hc hh.symm
          · exact ih h List.mem_cons_self hh
        · exact ih x (List.mem_cons_of_mem _ hx)

/-- A part that may stand in a clean path. -/
def GoodPart (c : Str) : Prop := c ≠ [] ∧ '/' ∉ c ∧ c ≠ ['.'] ∧ c ≠ ['.', '.']

theorem pushPart_good {acc : List Str} {c : Str} (ha : ∀ x ∈ acc, GoodPart x) (hc : '/' ∉ c) :
    ∀ x ∈ pushPart acc c, GoodPart x := by
  unfold pushPart
  split
  · exact ha
  · rename_i h1
    split
    · exact fun x hx => ha x (List.dropLast_subset _ hx)
    · rename_i h2
      intro x hx
      rcases List.mem_append.1 hx with hx | hx
      · exact ha x hx
      · rw [List.mem_singleton] at hx
        subst hx
        exact ⟨fun h => h1 (.inl h), hc, fun h => h1 (.inr h), h2⟩

theorem foldl_good (l : List Str) (acc : List Str) (ha : ∀ x ∈ acc, GoodPart x)
    (hl : ∀ c ∈ l, '/' ∉ c) : ∀ x ∈ l.foldl pushPart acc, GoodPart x := by
  induction l generalizing acc with
  | nil => exact ha
  | cons c cs ih =>
    exact ih _ (pushPart_good ha (hl c List.mem_cons_self)) (fun x hx => hl x (List.mem_cons_of_mem _ hx))

theorem pushPart_of_good {acc : List Str} {c : Str} (h : GoodPart c) :
    pushPart acc c = acc ++ [c] := by
  unfold pushPart
  rw [if_neg (fun hh => hh.elim h.1 h.2.2.1), if_neg h.2.2.2]

theorem joinParts_append (a b : List Str) : joinParts (a ++ b) = joinParts a ++ joinParts b := by
  induction a with
  | nil => rfl
  | cons c cs ih => simp [joinParts, ih]

/-- Clean rooted paths. -/
def CleanPath (p : Str) : Prop := p = ['/'] ∨ ∃ d f, p = d ++ '/' :: f ∧ GoodPart f ∧
  (d = [] ∨ isAbs d = true)

theorem joinParts_abs {l : List Str} : joinParts l = [] ∨ isAbs (joinParts l) = true := by
  cases l with
  | nil => exact .inl rfl
  | cons c cs =>
    right
    simp [joinParts, isAbs]

theorem cleanAbs_clean (p : Str) : CleanPath (cleanAbs p) := by
  unfold cleanAbs
  have hg := foldl_good (splitSlash p) [] nofun (splitSlash_parts p)
  cases hl : (splitSlash p).foldl pushPart [] with
  | nil => exact .inl rfl
  | cons c cs =>
    right
    rw [hl] at hg
    have hne : c :: cs ≠ [] := by simp
    refine ⟨joinParts (c :: cs).dropLast, (c :: cs).getLast hne, ?_,
      hg _ (List.getLast_mem hne), joinParts_abs⟩
    show joinParts (c :: cs) = _
    have h := congrArg joinParts (List.dropLast_concat_getLast hne)
    rw [joinParts_append] at h
    rw [← h]
    simp [joinParts]

theorem cleanAbs_join {p f : Str} (hf : GoodPart f) :
    ∃ d, cleanAbs (p ++ '/' :: f) = d ++ '/' :: f ∧ (d = [] ∨ isAbs d = true) := by
  have h : (splitSlash (p ++ '/' :: f)).foldl pushPart [] =
      (splitSlash p).foldl pushPart [] ++ [f] := by
    rw [splitSlash_append, splitSlash_noslash hf.2.1, List.foldl_append]
    simp only [List.foldl_cons, List.foldl_nil]
    rw [pushPart_of_good hf]
  refine ⟨joinParts ((splitSlash p).foldl pushPart []), ?_, joinParts_abs⟩
  unfold cleanAbs
  rw [h]
  have : joinParts ((splitSlash p).foldl pushPart [] ++ [f]) =
      joinParts ((splitSlash p).foldl pushPart []) ++ '/' :: f := by
    rw [joinParts_append]
    simp [joinParts]
  cases hc : (splitSlash p).foldl pushPart [] ++ [f] with
  | nil => simp at hc
  | cons a b => rw [← this, hc]

theorem clean_abs {p : Str} (h : CleanPath p) : isAbs p = true := by
  rcases h with rfl | ⟨d, f, rfl, _, rfl | hd⟩
  · decide
  · simp [isAbs]
  · cases d with
    | nil => simp [isAbs]
    | cons c cs =>
      simp [isAbs] at hd ⊢
      exact hd

theorem clean_base {d f : Str} (hf : GoodPart f) : base (d ++ '/' :: f) = f := by
  have := base_of (d := d ++ ['/']) (n := 0) (.inr ⟨d, rfl⟩) hf.2.1 hf.1
  simpa using this

end Burl.File
