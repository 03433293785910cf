import Verif.File.PathSpec
import Verif.File.NamesProps
/-! C44: exactly when a file name is accepted, and where the file goes. -/
namespace Burl.File
open Burl Spec

/-! ## `filepath.Clean` and `filepath.Abs` -/

theorem slashed_cons {a b : Str} {l : List Str} : slashed (a :: b :: l) = a ++ '/' :: slashed (b :: l) := by
  simp [slashed, List.intercalate, List.intersperse]

theorem slashed_split (p : Str) : slashed (splitSlash p) = p := by
  induction p with
  | nil => simp [splitSlash, slashed, List.intercalate]
  | cons c cs ih =>
    rw [splitSlash]
    split
    · rename_i hc
      subst hc
      cases hs : splitSlash cs with
      | nil => exact absurd hs (splitSlash_ne cs)
      | cons h t =>
        rw [slashed_cons, ← hs, ih]
        rfl
    · cases hs : splitSlash cs with
      | nil => exact absurd hs (splitSlash_ne cs)
      | cons h t =>
        rw [hs] at ih
        simp only
        cases t with
        | nil => simpa [slashed, List.intercalate] using ih
        | cons b t =>
          rw [slashed_cons] at ih ⊢
          rw [← ih]
          rfl

theorem split_slashed {ps : List Str} (h : ∀ c ∈ ps, '/' ∉ c) (hne : ps ≠ []) :
    splitSlash (slashed ps) = ps := by
  induction ps with
  | nil => exact absurd rfl hne
  | cons a l ih =>
    cases l with
    | nil =>
      simp only [slashed, List.intercalate, List.intersperse, List.flatten_cons, List.flatten_nil,
        List.append_nil]
      exact splitSlash_noslash (h a List.mem_cons_self)
    | cons b l =>
      rw [slashed_cons, splitSlash_append, splitSlash_noslash (h a List.mem_cons_self),
        ih (fun c hc => h c (List.mem_cons_of_mem _ hc)) (by simp)]
      rfl

theorem walk_iff {ps here to : List Str} :
    Walk here ps to ↔ ps.foldl pushPart here.reverse = to.reverse := by
  induction ps generalizing here with
  | nil =>
    constructor
    · intro h
      cases h
      rfl
    · intro h
      have := List.reverse_inj.1 h
      subst this
      exact .done
  | cons c cs ih =>
    rw [List.foldl_cons]
    constructor
    · intro h
      cases h with
      | empty h => exact ih.1 h
      | stay h =>
        have : pushPart here.reverse ".".toList = here.reverse := by
          unfold pushPart
          rw [if_pos (.inr rfl)]
        rw [this]
        exact ih.1 h
      | @up here d _ _ h =>
        have : pushPart (d :: here).reverse "..".toList = here.reverse := by
          unfold pushPart
          rw [if_neg (by decide), if_pos (show "..".toList = ['.', '.'] from rfl)]
          simp
        rw [this]
        exact ih.1 h
      | upRoot h =>
        have : pushPart ([] : List Str).reverse "..".toList = ([] : List Str).reverse := by
          unfold pushPart
          rw [if_neg (by decide), if_pos (show "..".toList = ['.', '.'] from rfl)]
          simp
        rw [this]
        exact ih.1 h
      | down h1 h2 h3 h =>
        have : pushPart here.reverse c = (c :: here).reverse := by
          unfold pushPart
          rw [if_neg (fun hh => hh.elim h1 h2), if_neg (show ¬ c = ['.', '.'] from h3)]
          simp
        rw [this]
        exact ih.1 h
    · intro h
      generalize hp : pushPart here.reverse c = x at h
      unfold pushPart at hp
      split at hp
      · subst hp
        rename_i hc
        rcases hc with rfl | rfl
        · exact .empty (ih.2 h)
        · exact .stay (ih.2 h)
      · rename_i hc
        split at hp
        · rename_i hd
          subst hd hp
          cases here with
          | nil => exact .upRoot (ih.2 (by simpa using h))
          | cons d here => exact .up (ih.2 (by simpa using h))
        · subst hp
          rename_i hd
          exact .down (fun hh => hc (.inl hh)) (fun hh => hc (.inr hh)) hd (ih.2 (by simpa using h))

theorem pathTo_eq (l : List Str) : pathTo l.reverse = (match l with | [] => ['/'] | cs => joinParts cs) := by
  have : ∀ (a : Str) (l : List Str), '/' :: slashed (a :: l) = joinParts (a :: l) := by
    intro a l
    induction l generalizing a with
    | nil => simp [slashed, List.intercalate, joinParts]
    | cons b l ih =>
      rw [slashed_cons, joinParts, ih]
  unfold pathTo
  rw [List.reverse_reverse]
  cases l with
  | nil => rfl
  | cons a l => exact this a l

theorem cleanOf_iff {p q : Str} : CleanOf p q ↔ q = cleanAbs p := by
  constructor
  · rintro ⟨ps, up, h1, h2, rfl, h3, rfl⟩
    have := walk_iff.1 h3
    unfold cleanAbs
    rw [split_slashed h1 h2]
    simp only [List.reverse_nil] at this
    rw [this]
    have h4 := pathTo_eq up.reverse
    rw [List.reverse_reverse] at h4
    rw [h4]
    cases up.reverse <;> rfl
  · rintro rfl
    refine ⟨splitSlash p, ((splitSlash p).foldl pushPart []).reverse, splitSlash_parts p,
      splitSlash_ne p, (slashed_split p).symm, walk_iff.2 ?_, ?_⟩
    · rw [List.reverse_reverse]
      rfl
    · rw [pathTo_eq]
      unfold cleanAbs
      cases (splitSlash p).foldl pushPart [] <;> rfl

theorem absolute_iff {wd : Option Str} {p q : Str} : Absolute wd p q ↔ absPath wd p = .ok q := by
  unfold absPath
  constructor
  · intro h
    cases h with
    | rooted h =>
      rw [if_pos (by simp [isAbs]), cleanOf_iff.1 h]
    | relative hw hc h =>
      rw [if_neg (by simp [isAbs, Ne.symm hc]), hw, cleanOf_iff.1 h]
      simp
    | here hw h =>
      rw [if_neg (by simp [isAbs]), hw, cleanOf_iff.1 h]
      simp
  · intro h
    cases p with
    | nil =>
      rw [if_neg (by simp [isAbs])] at h
      cases wd with
      | none => cases h
      | some w =>
        cases h
        exact .here rfl (cleanOf_iff.2 rfl)
    | cons c cs =>
      by_cases hc : c = '/'
      · subst hc
        rw [if_pos (by simp [isAbs])] at h
        cases h
        exact .rooted (cleanOf_iff.2 rfl)
      · rw [if_neg (by simp [isAbs, Ne.symm hc])] at h
        cases wd with
        | none => cases h
        | some w =>
          cases h
          exact .relative rfl hc (cleanOf_iff.2 (by simp))

/-! ## Directories and names -/

/-- Parts of a clean path. -/
theorem cleanAbs_parts (p : Str) : ∃ l, (∀ x ∈ l, GoodPart x) ∧
    (cleanAbs p = ['/'] ∧ l = [] ∨ l ≠ [] ∧ cleanAbs p = joinParts l) := by
  refine ⟨(splitSlash p).foldl pushPart [], foldl_good _ [] nofun (splitSlash_parts p), ?_⟩
  unfold cleanAbs
  cases (splitSlash p).foldl pushPart [] with
  | nil => exact .inl ⟨rfl, rfl⟩
  | cons a l => exact .inr ⟨by simp, rfl⟩

theorem joinParts_split {l : List Str} (h : ∀ x ∈ l, GoodPart x) :
    splitSlash (joinParts l) = [] :: l := by
  induction l with
  | nil => rfl
  | cons a l ih =>
    rw [joinParts, splitSlash, if_pos rfl]
    cases l with
    | nil =>
      simp only [joinParts, List.append_nil]
      rw [splitSlash_noslash (h a List.mem_cons_self).2.1]
    | cons b l =>
      have := ih (fun x hx => h x (List.mem_cons_of_mem _ hx))
      rw [joinParts] at this ⊢
      rw [splitSlash, if_pos rfl] at this
      rw [splitSlash_append, splitSlash_noslash (h a List.mem_cons_self).2.1]
      rw [(List.cons.inj this).2]
      rfl

theorem foldl_push_good {l : List Str} (acc : List Str) (h : ∀ x ∈ l, GoodPart x) :
    l.foldl pushPart acc = acc ++ l := by
  induction l generalizing acc with
  | nil => simp
  | cons a l ih =>
    rw [List.foldl_cons, pushPart_of_good (h a List.mem_cons_self),
      ih _ (fun x hx => h x (List.mem_cons_of_mem _ hx))]
    simp

theorem cleanAbs_join_good {l : List Str} (h : ∀ x ∈ l, GoodPart x) (hne : l ≠ []) :
    cleanAbs (joinParts l) = joinParts l := by
  unfold cleanAbs
  rw [joinParts_split h, List.foldl_cons, foldl_push_good _ h]
  have : pushPart [] [] = [] := rfl
  rw [this, List.nil_append]
  cases l with
  | nil => exact absurd rfl hne
  | cons a l => rfl

theorem cleanAbs_join_slash {l : List Str} (h : ∀ x ∈ l, GoodPart x) (hne : l ≠ []) :
    cleanAbs (joinParts l ++ ['/']) = joinParts l := by
  unfold cleanAbs
  have : splitSlash (joinParts l ++ ['/']) = ([] :: l) ++ [[]] := by
    have := splitSlash_append (joinParts l) []
    rw [this, joinParts_split h]
    rfl
  have h0 : ([] :: l).foldl pushPart [] = l := by
    rw [List.foldl_cons, foldl_push_good _ h]
    rfl
  have h2 : ∀ l : List Str, [([] : Str)].foldl pushPart l = l := fun l => rfl
  rw [this, List.foldl_append, h0, h2]
  cases l with
  | nil => exact absurd rfl hne
  | cons a l => rfl

/-- A clean path is the root or it has a directory and a name. -/
theorem clean_splits {p : Str} : cleanAbs p = ['/'] ∨
    ∃ l f, (∀ x ∈ l, GoodPart x) ∧ GoodPart f ∧ cleanAbs p = joinParts l ++ '/' :: f ∧
      dirAbs (cleanAbs p) = (if l = [] then ['/'] else joinParts l) := by
  obtain ⟨l, h1, ⟨h2, _⟩ | ⟨hne, h2⟩⟩ := cleanAbs_parts p
  · exact .inl h2
  · right
    rcases List.eq_nil_or_concat l with rfl | ⟨l', f, rfl⟩
    · exact absurd rfl hne
    · rw [List.concat_eq_append] at h1 h2
      have hf : GoodPart f := h1 f (by simp)
      have hl : ∀ x ∈ l', GoodPart x := fun x hx => h1 x (by simp [hx])
      refine ⟨l', f, hl, hf, ?_, ?_⟩
      · rw [h2, joinParts_append]
        simp [joinParts]
      · rw [h2, joinParts_append]
        unfold dirAbs
        have : ((joinParts l' ++ joinParts [f]).reverse.dropWhile (· != '/')).reverse =
            joinParts l' ++ ['/'] := by
          simp only [joinParts, List.append_nil, List.reverse_append, List.reverse_cons,
            List.append_assoc]
          have hdw : ∀ (a r : Str), '/' ∉ a →
              (a ++ ('/' :: r)).dropWhile (· != '/') = '/' :: r := by
            intro a r ha
            induction a with
            | nil => simp
            | cons c cs ih =>
              have hc : c ≠ '/' := fun hh => ha (by rw [hh]; exact List.mem_cons_self)
              rw [List.cons_append, List.dropWhile_cons, if_pos (by simpa using hc)]
              exact ih fun hh => ha (List.mem_cons_of_mem _ hh)
          rw [List.singleton_append, hdw _ _ (fun hh => hf.2.1 (List.mem_reverse.1 hh))]
          simp
        rw [this]
        by_cases hl' : l' = []
        · rw [if_pos hl', hl']
          rfl
        · rw [if_neg hl', cleanAbs_join_slash hl hl']

theorem append_slash_inj {a b f g : Str} (hf : '/' ∉ f) (hg : '/' ∉ g)
    (h : a ++ '/' :: f = b ++ '/' :: g) : a = b ∧ f = g := by
  have h1 := afterSlash_of (d := a ++ ['/']) (.inr ⟨a, rfl⟩) hf
  have h2 := afterSlash_of (d := b ++ ['/']) (.inr ⟨b, rfl⟩) hg
  have e : a ++ ['/'] ++ f = b ++ ['/'] ++ g := by simpa using h
  rw [e, h2] at h1
  subst h1
  exact ⟨(List.append_inj' h rfl).1, rfl⟩

theorem joinParts_ne {l : List Str} (h : l ≠ []) : joinParts l ≠ [] := by
  cases l with
  | nil => exact absurd rfl h
  | cons a l => simp [joinParts]

theorem joinParts_ne_root {l : List Str} (h : ∀ x ∈ l, GoodPart x) : joinParts l ≠ ['/'] := by
  cases l with
  | nil => simp [joinParts]
  | cons a l =>
    intro hh
    simp only [joinParts, List.cons.injEq, true_and, List.append_eq_nil_iff] at hh
    exact (h a List.mem_cons_self).1 hh.1

/-- The directory of a clean path. -/
theorem splits_clean {p dir file : Str} (h : Splits (cleanAbs p) dir file) :
    dirAbs (cleanAbs p) = dir ∧
      (cleanAbs p = ['/'] ∧ file = [] ∨ GoodPart file ∧ base (cleanAbs p) = file) := by
  obtain ⟨hf, h⟩ := h
  rcases clean_splits (p := p) with h1 | ⟨l, f, hl, hg, h1, h2⟩
  · rw [h1] at h ⊢
    rcases h with ⟨rfl, h⟩ | ⟨hd, hne, h, _⟩
    · refine ⟨by decide +kernel, .inl ⟨rfl, ?_⟩⟩
      simpa using h.symm
    · exfalso
      cases dir with
      | nil => exact hd rfl
      | cons c d =>
        have := congrArg List.length h
        simp at this
  · have hb : base (cleanAbs p) = f := by rw [h1]; exact clean_base hg
    rw [h1] at h
    rcases h with ⟨rfl, h⟩ | ⟨hd, hne, h, hr⟩
    · have h' : joinParts l ++ '/' :: f = [] ++ '/' :: file := h
      obtain ⟨h3, h4⟩ := append_slash_inj hg.2.1 hf h'
      subst h4
      have hl0 : l = [] := Classical.not_not.1 fun hh => joinParts_ne hh h3
      rw [if_pos hl0] at h2
      exact ⟨h2, .inr ⟨hg, hb⟩⟩
    · obtain ⟨h3, h4⟩ := append_slash_inj hg.2.1 hf h
      subst h4
      have hl0 : l ≠ [] := fun hh => hd (by rw [← h3, hh]; rfl)
      rw [if_neg hl0, h3] at h2
      exact ⟨h2, .inr ⟨hg, hb⟩⟩

theorem splits_exists (p : Str) : ∃ file, Splits (cleanAbs p) (dirAbs (cleanAbs p)) file := by
  rcases clean_splits (p := p) with h1 | ⟨l, f, hl, hg, h1, h2⟩
  · rw [h1]
    exact ⟨[], by simp, .inl ⟨by decide +kernel, rfl⟩⟩
  · refine ⟨f, hg.2.1, ?_⟩
    by_cases h : l = []
    · rw [if_pos h] at h2
      left
      rw [h2, h1, h]
      exact ⟨rfl, rfl⟩
    · rw [if_neg h] at h2
      right
      rw [h2, h1]
      exact ⟨joinParts_ne h, hg.1, rfl, joinParts_ne_root hl⟩

theorem absolute_clean {wd : Option Str} {p q : Str} (h : absPath wd p = .ok q) :
    ∃ r, q = cleanAbs r := by
  unfold absPath at h
  split at h
  · cases h; exact ⟨_, rfl⟩
  · cases wd with
    | none => cases h
    | some w =>
      cases h
      split
      · exact ⟨_, rfl⟩
      · exact ⟨_, rfl⟩

theorem mayBe_iff {stat : Str → Stat} {p : Str} : MayBeFile stat (cleanAbs p) ↔
    stat (cleanAbs p) = .nonDir ∨ (stat (cleanAbs p) = .missing ∧ stat (dirAbs (cleanAbs p)) = .dir) := by
  unfold MayBeFile
  refine or_congr Iff.rfl (and_congr Iff.rfl ?_)
  constructor
  · rintro ⟨dir, file, h1, h2⟩
    rw [(splits_clean h1).1]
    exact h2
  · intro h
    obtain ⟨f, hf⟩ := splits_exists p
    exact ⟨_, f, hf, h⟩

/-- `AsAbsFileName` in one formula. -/
theorem asAbs_iff {wd : Option Str} {stat : Str → Stat} {file path n : Str} {o : Opts} :
    asAbsFileName wd stat file o = .ok (path, n) ↔
      (file = ['-'] ∧ path = file ∧ n = (if o.name ≠ [] then o.name else o.defaultName)) ∨
      (file ≠ ['-'] ∧ ∃ p, absPath wd file = .ok p ∧
        ((stat p = .dir ∧ n = (if o.name ≠ [] then o.name else o.defaultName) ∧ n ≠ [] ∧
            path = cleanAbs (p ++ '/' :: (n ++ o.ext))) ∨
          (MayBeFile stat p ∧ path = p ∧ nameFromPath o p = .ok n))) := by
  unfold asAbsFileName
  simp only
  generalize (if o.name ≠ [] then o.name else o.defaultName) = nm
  by_cases hf : file = ['-']
  · rw [if_pos hf]
    constructor
    · intro h
      cases h
      exact .inl ⟨hf, rfl, rfl⟩
    · rintro (⟨_, rfl, rfl⟩ | ⟨h, _⟩)
      · rfl
      · exact absurd hf h
  rw [if_neg hf]
  cases ha : absPath wd file with
  | err e =>
    refine ⟨nofun, ?_⟩
    rintro (⟨h, _⟩ | ⟨_, p, h, _⟩)
    · exact absurd h hf
    · cases h
  | panic =>
    refine ⟨nofun, ?_⟩
    rintro (⟨h, _⟩ | ⟨_, p, h, _⟩)
    · exact absurd h hf
    · cases h
  | ok p =>
    rw [Res.bind_ok]
    obtain ⟨r, hr⟩ := absolute_clean ha
    have hm := mayBe_iff (stat := stat) (p := r)
    rw [← hr] at hm
    have hn : (nameFromPath o p).bind (fun n => Res.ok (p, n)) = .ok (path, n) ↔
        path = p ∧ nameFromPath o p = .ok n := by
      cases nameFromPath o p with
      | err e => exact ⟨nofun, fun h => nomatch h.2⟩
      | panic => exact ⟨nofun, fun h => nomatch h.2⟩
      | ok m =>
        rw [Res.bind_ok]
        constructor
        · intro h
          cases h
          exact ⟨rfl, rfl⟩
        · rintro ⟨rfl, h⟩
          cases h
          rfl
    have side : ∀ {P : Prop}, ((file = ['-'] ∧ path = file ∧ n = nm) ∨
        (file ≠ ['-'] ∧ ∃ p', Res.ok p = (Res.ok p' : Res Unit Str) ∧
        ((stat p' = .dir ∧ n = nm ∧ n ≠ [] ∧ path = cleanAbs (p' ++ '/' :: (n ++ o.ext))) ∨
          (MayBeFile stat p' ∧ path = p' ∧ nameFromPath o p' = .ok n))) ↔ P) ↔
        (((stat p = .dir ∧ n = nm ∧ n ≠ [] ∧ path = cleanAbs (p ++ '/' :: (n ++ o.ext))) ∨
          (MayBeFile stat p ∧ path = p ∧ nameFromPath o p = .ok n)) ↔ P) := by
      intro P
      have : ((file = ['-'] ∧ path = file ∧ n = nm) ∨
        (file ≠ ['-'] ∧ ∃ p', Res.ok p = (Res.ok p' : Res Unit Str) ∧
        ((stat p' = .dir ∧ n = nm ∧ n ≠ [] ∧ path = cleanAbs (p' ++ '/' :: (n ++ o.ext))) ∨
          (MayBeFile stat p' ∧ path = p' ∧ nameFromPath o p' = .ok n)))) ↔
        ((stat p = .dir ∧ n = nm ∧ n ≠ [] ∧ path = cleanAbs (p ++ '/' :: (n ++ o.ext))) ∨
          (MayBeFile stat p ∧ path = p ∧ nameFromPath o p = .ok n)) := by
        constructor
        · rintro (⟨h, _⟩ | ⟨_, p', h, h2⟩)
          · exact absurd h hf
          · cases h
            exact h2
        · intro h
          exact .inr ⟨hf, p, rfl, h⟩
      rw [this]
    rw [iff_comm, side, hm, iff_comm]
    cases hs : stat p with
    | dir =>
      simp only
      constructor
      · intro h
        split at h
        · rename_i hne
          cases h
          exact .inl ⟨trivial, rfl, hne, rfl⟩
        · cases h
      · rintro (⟨_, rfl, hne, rfl⟩ | ⟨h | ⟨h, _⟩, _⟩)
        · rw [if_pos hne]
        · cases h
        · cases h
    | nonDir =>
      simp only
      rw [hn]
      constructor
      · intro h
        exact .inr ⟨.inl trivial, h⟩
      · rintro (⟨h, _⟩ | ⟨_, h⟩)
        · cases h
        · exact h
    | fail =>
      refine ⟨nofun, ?_⟩
      rintro (⟨h, _⟩ | ⟨h | ⟨h, _⟩, _⟩) <;> cases h
    | missing =>
      simp only
      cases hd : stat (dirAbs p) with
      | dir =>
        simp only
        rw [hn]
        constructor
        · intro h
          exact .inr ⟨.inr ⟨trivial, trivial⟩, h⟩
        · rintro (⟨h, _⟩ | ⟨_, h⟩)
          · cases h
          · exact h
      | _ =>
        refine ⟨nofun, ?_⟩
        rintro (⟨h, _⟩ | ⟨h | ⟨_, h⟩, _⟩) <;> cases h

/-- **C44.** Without options the name is accepted exactly if there is a file that is not a
directory, or nothing in a directory that is there; the path is the absolute one. -/
theorem c44_plain {wd : Option Str} {stat : Str → Stat} {file path : Str} (hf : file ≠ "-".toList) :
    (∃ n, asAbsFileName wd stat file ⟨[], [], []⟩ = .ok (path, n)) ↔ FileAt wd stat file path := by
  unfold FileAt
  rw [absolute_iff]
  constructor
  · rintro ⟨n, h⟩
    rcases asAbs_iff.1 h with ⟨h, _⟩ | ⟨_, p, h1, ⟨_, h2, h3, _⟩ | ⟨h2, rfl, _⟩⟩
    · exact absurd h hf
    · exact absurd h2 h3
    · exact ⟨h1, h2⟩
  · rintro ⟨h1, h2⟩
    refine ⟨base path, asAbs_iff.2 (.inr ⟨hf, path, h1, .inr ⟨h2, rfl, ?_⟩⟩)⟩
    unfold nameFromPath
    rw [if_neg (fun hh => hh.1 rfl), if_pos rfl]

theorem name_choice (a b : Str) : (if a ≠ [] then a else b) = (if a = [] then b else a) := by
  by_cases h : a = []
  · rw [if_pos h, if_neg (fun hh => hh h)]
  · rw [if_neg h, if_pos h]

/-- **C44.** For a manifest, exactly which path and name are given. -/
theorem c44_exact {wd : Option Str} {stat : Str → Stat} {name dflt file path n : Str} :
    asAbsFileName wd stat file ⟨name, dflt, dotJson⟩ = .ok (path, n) ↔
      ManifestAt wd stat name dflt file path n := by
  have hj : (".json".toList : Str) = dotJson := rfl
  have hroot : base ['/'] = ['/'] := by decide +kernel
  rw [asAbs_iff]
  simp only
  rw [name_choice]
  constructor
  · rintro (⟨rfl, rfl, h⟩ | ⟨hf, p, h1, ⟨h2, h3, h4, rfl⟩ | ⟨h2, rfl, h3⟩⟩)
    · exact .stdout h
    · refine .inside hf (absolute_iff.2 h1) h2 h3 h4 (cleanOf_iff.2 ?_)
      rw [hj]
      simp
    · obtain ⟨r, hr⟩ := absolute_clean h1
      obtain ⟨f, hs⟩ := splits_exists r
      rw [← hr] at hs
      have hat : FileAt wd stat file path := ⟨absolute_iff.2 h1, h2⟩
      unfold nameFromPath at h3
      simp only at h3
      split at h3
      · cases h3
      rename_i hne
      rw [if_neg (by decide)] at h3
      split at h3
      · cases h3
      rename_i hex
      cases h3
      have hex := Classical.not_not.1 hex
      have hb : base path = f := by
        have := (splits_clean (p := r) (by rw [← hr]; exact hs)).2
        rw [← hr] at this
        rcases this with ⟨h5, _⟩ | ⟨_, h5⟩
        · rw [h5, hroot] at hex
          exact absurd hex (by decide +kernel)
        · exact h5
      by_cases hn : name = []
      · refine .gives hf hat hn (dir := dirAbs path) (e := ext (base path)) ?_ hex
        rw [stem_append_ext, hb]
        exact hs
      · have h6 : base path = name ++ dotJson := Classical.not_not.1 fun hh => hne ⟨hn, hh⟩
        have h7 : stem (base path) = name := by
          rw [h6]
          exact stem_of (ext_of_json json_self)
        rw [h7]
        refine .called hf hat hn (dir := dirAbs path) ?_
        rw [hj, ← h6, hb]
        exact hs
  · have hfile : ∀ {dir g : Str}, FileAt wd stat file path → Splits path dir g → g ≠ [] →
        base path = g := by
      intro dir g hat hs hg
      obtain ⟨r, hr⟩ := absolute_clean (absolute_iff.1 hat.1)
      have := (splits_clean (p := r) (by rw [← hr]; exact hs)).2
      rw [← hr] at this
      rcases this with ⟨_, h⟩ | ⟨_, h⟩
      · exact absurd h hg
      · exact h
    intro h
    cases h with
    | stdout h => exact .inl ⟨rfl, rfl, h⟩
    | inside hf h1 h2 h3 h4 h5 =>
      refine .inr ⟨hf, _, absolute_iff.1 h1, .inl ⟨h2, h3, h4, ?_⟩⟩
      rw [cleanOf_iff.1 h5, hj]
      simp
    | called hf hat hn hs =>
      refine .inr ⟨hf, path, absolute_iff.1 hat.1, .inr ⟨hat.2, rfl, ?_⟩⟩
      have hb := hfile hat hs (by rw [hj]; simp [dotJson])
      unfold nameFromPath
      simp only
      rw [if_neg (fun hh => hh.2 hb), if_neg (by decide), hb]
      have he := ext_of_json (s := name) json_self
      rw [hj, he, if_neg (fun hh => hh (by decide)), stem_of he]
    | gives hf hat hn hs he =>
      refine .inr ⟨hf, path, absolute_iff.1 hat.1, .inr ⟨hat.2, rfl, ?_⟩⟩
      have hje : IsJsonExt _ := he
      have hb := hfile hat hs (fun hh => json_ne hje (List.append_eq_nil_iff.1 hh).2)
      unfold nameFromPath
      simp only
      have hx := ext_of_json (s := n) hje
      rw [if_neg (fun hh => hh.1 hn), if_neg (by decide), hb, hx,
        if_neg (fun hh => hh hje), stem_of hx]

/-! ## Examples -/

/-- A relative name with dots. -/
example : Absolute (some "/home".toList) "./x/../d/".toList "/home/d".toList :=
  absolute_iff.2 (by decide +kernel)

/-- A new manifest in a directory that is there. -/
example : ManifestAt (some "/home".toList)
    (fun p => if p = "/home/d".toList then .dir else .missing) [] "burl".toList
    "d/my.Json".toList "/home/d/my.Json".toList "my".toList :=
  c44_exact.1 (by decide +kernel)

/-- A directory that is not there. -/
example : ¬ ∃ p, FileAt (some "/home".toList) (fun _ => .missing) "d/wrapper".toList p := by
  rintro ⟨p, h, h2⟩
  have h1 := absolute_iff.1 h
  rcases h2 with h2 | ⟨_, dir, f, _, h2⟩ <;> cases h2

end Burl.File
