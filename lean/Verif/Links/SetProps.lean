import Verif.Links.SetLemmas
import Verif.Extract.GroupLemmas
import Mathlib.Tactic.ByContra
/-! Properties of the `linkSet` method: C29-C31. -/
namespace Burl.Links
open Burl.Regex Spec
open Burl.Extract (fileErr fileLines Source Files)

variable {letter : Char → Bool} {files : Files} {ps : List Str}

/-- Keys of all the files up to the first failure. -/
theorem setGroup_valid (hne : ps ≠ []) (hv : ∀ p ∈ ps, ValidPrefix p) (list : List Source)
    (result : List Str) :
    ∃ e opened, setGroup letter files ps list result =
      .ok ((((Extract.Spec.untilFailure (fileErr files) list).1.flatMap fun src =>
          fileKeys letter src.kind ps (fileLines files src))).foldl addKey result,
        e, opened) ∧
      e = (Extract.Spec.untilFailure (fileErr files) list).2.map .file := by
  induction list generalizing result with
  | nil => exact ⟨_, _, rfl, rfl⟩
  | cons src rest ih =>
    simp only [setGroup, Extract.Spec.untilFailure, fileErr]
    cases hf : files src.name with
    | none =>
      refine ⟨_, [], ?_, rfl⟩
      simp [fileLines, hf, fileKeys]
    | some le =>
      obtain ⟨lines, err⟩ := le
      simp only [extractSet_valid hne hv, Res.bind_ok]
      cases err with
      | some e =>
        refine ⟨_, [src.name], ?_, rfl⟩
        simp [fileLines, hf]
      | none =>
        obtain ⟨e, opened, h1, h2⟩ := ih
          ((fileKeys letter src.kind ps lines).foldl addKey result)
        simp only [Option.map_none, h1, Res.bind_ok]
        refine ⟨_, src.name :: opened, ?_, h2⟩
        simp [List.flatMap_cons, fileLines, hf]

/-- Prefixes that are not valid. -/
theorem setGroup_invalid (h : ps = [] ∨ ∃ p ∈ ps, ¬ValidPrefix p) (src : Source)
    (rest : List Source) (result : List Str) :
    ∃ e opened, setGroup letter files ps (src :: rest) result = .ok (result, some e, opened) := by
  simp only [setGroup]
  cases files src.name with
  | none => exact ⟨_, _, rfl⟩
  | some le =>
    obtain ⟨lines, err⟩ := le
    rcases h with rfl | h
    · simp only [extractSet_empty, Res.bind_ok]
      exact ⟨_, _, rfl⟩
    · by_cases hp : ps = []
      · subst hp; simp at h
      · simp only [extractSet_invalid hp h, Res.bind_ok]
        exact ⟨_, _, rfl⟩

theorem untilFailure_none {α ε : Type} {status : α → Option ε} {l : List α}
    (h : (Extract.Spec.untilFailure status l).2 = none) :
    (Extract.Spec.untilFailure status l).1 = l ∧ ∀ x ∈ l, status x = none := by
  induction l with
  | nil => simp [Extract.Spec.untilFailure]
  | cons x xs ih =>
    simp only [Extract.Spec.untilFailure] at h ⊢
    cases hx : status x with
    | some e => rw [hx] at h; simp at h
    | none =>
      rw [hx] at h
      simp only at h ⊢
      obtain ⟨i1, i2⟩ := ih h
      exact ⟨by rw [i1], by simpa [hx] using i2⟩

theorem untilFailure_all {α ε : Type} {status : α → Option ε} {l : List α}
    (h : ∀ x ∈ l, status x = none) :
    Extract.Spec.untilFailure status l = (l, none) := by
  induction l with
  | nil => rfl
  | cons x xs ih =>
    simp only [Extract.Spec.untilFailure, h x (by simp), ih fun y hy => h y (by simp [hy])]

/-- Keys after success. -/
theorem setGroup_ok {list : List Source} {result : List Str} {opened : List Str}
    (h : setGroup letter files ps list [] = .ok (result, none, opened)) :
    list = [] ∧ result = [] ∨
    (ps ≠ [] ∧ (∀ p ∈ ps, ValidPrefix p) ∧ (∀ src ∈ list, fileErr files src = none) ∧
      result = (list.flatMap fun src =>
        fileKeys letter src.kind ps (fileLines files src)).foldl addKey []) := by
  cases list with
  | nil =>
    simp only [setGroup] at h
    have := Res.ok.inj h
    simp only [Prod.mk.injEq] at this
    exact .inl ⟨rfl, this.1.symm⟩
  | cons src rest =>
    right
    by_cases hv : ps ≠ [] ∧ ∀ p ∈ ps, ValidPrefix p
    · obtain ⟨e, o, h1, h2⟩ := setGroup_valid (letter := letter) (files := files) hv.1 hv.2
        (src :: rest) []
      rw [h] at h1
      have h1 := Res.ok.inj h1
      simp only [Prod.mk.injEq] at h1
      obtain ⟨g1, rfl, rfl⟩ := h1
      obtain ⟨k1, k2⟩ := untilFailure_none (Option.map_eq_none_iff.1 h2.symm)
      rw [k1] at g1
      exact ⟨hv.1, hv.2, k2, g1⟩
    · exfalso
      have hv' : ps = [] ∨ ∃ p ∈ ps, ¬ValidPrefix p := by
        by_cases hp : ps = []
        · exact .inl hp
        · right
          by_contra hc
          simp only [not_exists, not_and, not_not] at hc
          exact hv ⟨hp, hc⟩
      obtain ⟨e, o, h1⟩ := setGroup_invalid (letter := letter) (files := files) hv' src rest []
      rw [h] at h1
      have h1 := Res.ok.inj h1
      simp at h1

/-! ### C29 -/

/-- C29: `linkSet` never crashes, and every address it returns begins with one of the requested
prefixes, a colon being added to a bare scheme. -/
theorem c29_prefix {enabled : Bool} {sources : List Source} {r : Res SetErr (List Str)}
    {opened : List Str} (h : LinkSet letter enabled files sources ps r opened) :
    r ≠ .panic ∧ ∀ urls, r = .ok urls → ∀ u ∈ urls, ∃ p ∈ ps, wanted p <+: u := by
  constructor
  · rintro rfl
    cases h with
    | panic h1 h2 h3 =>
      by_cases hv : ps ≠ [] ∧ ∀ p ∈ ps, ValidPrefix p
      · obtain ⟨e, o, h1, -⟩ := setGroup_valid (letter := letter) (files := files) hv.1 hv.2
          sources []
        rw [h3] at h1
        cases h1
      · cases sources with
        | nil => simp [setGroup] at h3
        | cons src rest =>
          have hv' : ps = [] ∨ ∃ p ∈ ps, ¬ValidPrefix p := by
            by_cases hp : ps = []
            · exact .inl hp
            · right
              by_contra hc
              simp only [not_exists, not_and, not_not] at hc
              exact hv ⟨hp, hc⟩
          obtain ⟨e, o, h1⟩ := setGroup_invalid (letter := letter) (files := files) hv' src rest []
          rw [h3] at h1
          cases h1
  · rintro urls rfl u hu
    cases h with
    | ok h1 h2 h3 hp =>
      have hu := hp.mem_iff.1 hu
      rcases setGroup_ok h3 with ⟨-, rfl⟩ | ⟨-, -, -, rfl⟩
      · simp at hu
      · rcases mem_addKeys.1 hu with h | h
        · simp at h
        · obtain ⟨src, -, h⟩ := List.mem_flatMap.1 h
          obtain ⟨line, -, h⟩ := List.mem_flatMap.1 h
          obtain ⟨l, hl, hpre⟩ := keysOf_prefix h
          obtain ⟨p, hp, rfl⟩ := List.mem_map.1 hl
          exact ⟨p, hp, hpre⟩

/-- C29: addresses returned by `linkSet` are written in lines of the files, each one is returned
once. -/
theorem c29_written {enabled : Bool} {sources : List Source} {urls opened : List Str}
    (h : LinkSet letter enabled files sources ps (.ok urls) opened) :
    urls.Nodup ∧ ∀ u ∈ urls, ∃ src ∈ sources, ∃ line ∈ fileLines files src, Within u line := by
  cases h with
  | ok h1 h2 h3 hp =>
    rcases setGroup_ok h3 with ⟨-, rfl⟩ | ⟨-, -, -, rfl⟩
    · exact ⟨hp.nodup_iff.2 (by simp), fun u hu => by have := hp.mem_iff.1 hu; simp at this⟩
    · refine ⟨hp.nodup_iff.2 (nodup_addKeys (by simp)), fun u hu => ?_⟩
      rcases mem_addKeys.1 (hp.mem_iff.1 hu) with h | h
      · simp at h
      · obtain ⟨src, hs, h⟩ := List.mem_flatMap.1 h
        obtain ⟨line, hl, h⟩ := List.mem_flatMap.1 h
        exact ⟨src, hs, line, hl, keysOf_within h⟩

/-! ### C30 -/

/-- C30: what prefixes are accepted; the pattern made of accepted prefixes is well-formed for both
kinds of files; and the check of links in brackets compares with the prefixes as literal text. -/
theorem c30_literal (letter : Char → Bool) (ps : List Str) :
    ((∃ base, makeLinkSetBase letter ps = .ok base) ↔ ps ≠ [] ∧ ∀ p ∈ ps, ValidPrefix p) ∧
    ∀ base, makeLinkSetBase letter ps = .ok base →
      (∀ k, ∃ r, compile (setPattern k base) = some r) ∧
      ∃ r, compile ("^".toList ++ base) = some r ∧
        ∀ text, matchString letter r text = true ↔ ∃ p ∈ ps, wanted p <+: text := by
  constructor
  · constructor
    · rintro ⟨base, h⟩
      have := makeLinkSetBase_ok.1 h
      exact ⟨this.1, this.2.1⟩
    · rintro ⟨h1, h2⟩
      exact ⟨_, makeLinkSetBase_ok.2 ⟨h1, h2, rfl⟩⟩
  · intro base h
    obtain ⟨hne, hv, rfl⟩ := makeLinkSetBase_ok.1 h
    have hw : ps.map wanted ≠ [] := by simpa using hne
    refine ⟨fun k => ⟨_, compile_set k hw⟩, _, compile_prefix hw, fun text => ?_⟩
    rw [matchString_prefix]
    constructor
    · rintro ⟨l, hl, hp⟩
      obtain ⟨p, hp', rfl⟩ := List.mem_map.1 hl
      exact ⟨p, hp', hp⟩
    · rintro ⟨p, hp', hp⟩
      exact ⟨_, List.mem_map_of_mem hp', hp⟩

/-- C30: an empty list of prefixes and prefixes of a wrong form are refused with an error, whatever
the files are; the only exception is the case when there are no files at all. -/
theorem c30_refused {sources : List Source} (hs : sources ≠ [])
    (h : ps = [] ∨ ∃ p ∈ ps, ¬ValidPrefix p) {enabled : Bool} {r : Res SetErr (List Str)}
    {opened : List Str} (hr : LinkSet letter enabled files sources ps r opened) :
    ∃ e, r = .err e := by
  obtain ⟨src, rest, rfl⟩ := List.exists_cons_of_ne_nil hs
  obtain ⟨e, o, h1⟩ := setGroup_invalid (letter := letter) (files := files) h src rest []
  cases hr with
  | disabled _ => exact ⟨_, rfl⟩
  | tooMany _ _ => exact ⟨_, rfl⟩
  | err _ _ _ => exact ⟨_, rfl⟩
  | ok _ _ h3 _ => rw [h3] at h1; have := Res.ok.inj h1; simp at this
  | panic _ _ h3 => rw [h3] at h1; cases h1

/-- Prefixes with characters special in patterns are accepted and are literal text. -/
example : ValidPrefix "http://a.b/?q=(x|y)*[".toList ∧ ValidPrefix "git+ssh".toList ∧
    ¬ValidPrefix "http.*".toList := by
  refine ⟨⟨"http".toList, "://a.b/?q=(x|y)*[".toList, rfl,
    ⟨'h', "ttp".toList, [], rfl, by unfold SchemeLetter; decide, by unfold SchemeChar SchemeLetter; decide, .nil⟩,
    .inr ⟨_, rfl, by decide⟩⟩,
    ⟨"git+ssh".toList, [], rfl, ⟨'g', "it".toList, "+ssh".toList, rfl, by unfold SchemeLetter; decide,
      by unfold SchemeChar SchemeLetter; decide,
      .cons (sep := '+') (part := "ssh".toList) (rest := []) (.inr rfl) (by decide)
        (by unfold SchemeChar SchemeLetter; decide) .nil⟩, .inl rfl⟩, ?_⟩
  intro h
  obtain ⟨m, hm⟩ := findSub_valid (fun _ => false) h
  have : findSub (fun _ => false) reSetPrefix "http.*".toList = none := by decide +kernel
  rw [this] at hm
  cases hm

/-! ### C31 -/

/-- C31: the method is refused and no file is opened if it is disabled or there are too many
prefixes. -/
theorem c31_refused {enabled : Bool} {sources : List Source} (h : enabled = false ∨ 16 < ps.length)
    {r : Res SetErr (List Str)} {opened : List Str}
    (hr : LinkSet letter enabled files sources ps r opened) : (∃ e, r = .err e) ∧ opened = [] := by
  cases hr with
  | disabled _ => exact ⟨⟨_, rfl⟩, rfl⟩
  | tooMany _ _ => exact ⟨⟨_, rfl⟩, rfl⟩
  | err h1 h2 _ => simp only [prefixLimit] at h2; exact absurd h (by simp [h1]; omega)
  | ok h1 h2 _ _ => simp only [prefixLimit] at h2; exact absurd h (by simp [h1]; omega)
  | panic h1 h2 _ => simp only [prefixLimit] at h2; exact absurd h (by simp [h1]; omega)

/-- C31: with at most 16 valid prefixes and readable files the method succeeds; each address occurs
once; and an address is in the result exactly when it is in the result for one of the files. -/
theorem c31_union {sources : List Source} (hn : ps.length ≤ 16) (hne : ps ≠ [])
    (hv : ∀ p ∈ ps, ValidPrefix p) (hf : ∀ src ∈ sources, fileErr files src = none) :
    (∃ urls opened, LinkSet letter true files sources ps (.ok urls) opened) ∧
    ∀ r opened, LinkSet letter true files sources ps r opened → ∃ urls, r = .ok urls ∧
      urls.Nodup ∧ ∀ u, u ∈ urls ↔ ∃ src ∈ sources, ∃ one o,
        LinkSet letter true files [src] ps (.ok one) o ∧ u ∈ one := by
  have key : ∀ list : List Source, (∀ src ∈ list, fileErr files src = none) →
      ∃ opened, setGroup letter files ps list [] = .ok ((list.flatMap fun src =>
        fileKeys letter src.kind ps (fileLines files src)).foldl addKey [], none, opened) := by
    intro list hl
    obtain ⟨e, o, h1, h2⟩ := setGroup_valid (letter := letter) (files := files) hne hv list []
    rw [untilFailure_all hl] at h1 h2
    subst h2
    exact ⟨o, h1⟩
  obtain ⟨o, hk⟩ := key sources hf
  refine ⟨⟨_, _, .ok rfl hn hk (List.Perm.refl _)⟩, ?_⟩
  intro r opened hr
  cases hr with
  | tooMany _ h2 => simp only [prefixLimit] at h2; omega
  | err _ _ h3 => rw [hk] at h3; have := Res.ok.inj h3; simp at this
  | panic _ _ h3 => rw [hk] at h3; cases h3
  | disabled h => simp at h
  | @ok result _ urls _ _ h3 hp =>
    rw [hk] at h3
    have h3 := Res.ok.inj h3
    simp only [Prod.mk.injEq] at h3
    obtain ⟨rfl, -⟩ := h3
    refine ⟨urls, rfl, hp.nodup_iff.2 (nodup_addKeys (by simp)), fun u => ?_⟩
    rw [hp.mem_iff, mem_addKeys, List.mem_flatMap]
    constructor
    · rintro (h | ⟨src, hs, hu⟩)
      · simp at h
      · obtain ⟨o1, hk1⟩ := key [src] (by simpa using hf src hs)
        exact ⟨src, hs, _, _, .ok rfl hn hk1 (List.Perm.refl _), mem_addKeys.2 (.inr (by simpa using hu))⟩
    · rintro ⟨src, hs, one, o1, h1, hu⟩
      obtain ⟨o2, hk1⟩ := key [src] (by simpa using hf src hs)
      cases h1 with
      | ok _ _ h4 hp1 =>
        rw [hk1] at h4
        have h4 := Res.ok.inj h4
        simp only [Prod.mk.injEq] at h4
        obtain ⟨rfl, -⟩ := h4
        have := hp1.mem_iff.1 hu
        rw [mem_addKeys] at this
        rcases this with h | h
        · simp at h
        · exact .inr ⟨src, hs, by simpa using h⟩

/-- Files are opened only if they are among the sources. -/
theorem c31_opened {enabled : Bool} {sources : List Source} {r : Res SetErr (List Str)}
    {opened : List Str} (hr : LinkSet letter enabled files sources ps r opened) :
    ∀ f ∈ opened, ∃ src ∈ sources, src.name = f := by
  have key : ∀ (list : List Source) (a b : List Str) e o,
      setGroup letter files ps list a = .ok (b, e, o) → ∀ f ∈ o, ∃ src ∈ list, src.name = f := by
    intro list
    induction list with
    | nil =>
      intro a b e o h
      simp only [setGroup] at h
      have := Res.ok.inj h
      simp only [Prod.mk.injEq] at this
      simp [← this.2.2]
    | cons src rest ih =>
      intro a b e o h
      simp only [setGroup] at h
      cases hf : files src.name with
      | none =>
        rw [hf] at h
        have := Res.ok.inj h
        simp only [Prod.mk.injEq] at this
        simp [← this.2.2]
      | some le =>
        rw [hf] at h
        simp only at h
        cases he : extractSet letter src.kind ps le.1 le.2 a with
        | panic => rw [he] at h; simp at h
        | err e => exact e.elim
        | ok v =>
          obtain ⟨v1, v2⟩ := v
          rw [he] at h
          simp only [Res.bind_ok] at h
          cases v2 with
          | some e =>
            have := Res.ok.inj h
            simp only [Prod.mk.injEq] at this
            simp [← this.2.2]
          | none =>
            simp only at h
            cases hg : setGroup letter files ps rest v1 with
            | panic => rw [hg] at h; simp at h
            | err e => exact e.elim
            | ok w =>
              obtain ⟨w1, w2, w3⟩ := w
              rw [hg] at h
              have := Res.ok.inj h
              simp only [Prod.mk.injEq] at this
              obtain ⟨-, -, rfl⟩ := this
              intro f hf'
              rcases List.mem_cons.1 hf' with rfl | hf'
              · exact ⟨src, by simp, rfl⟩
              · obtain ⟨s, hs, he⟩ := ih _ _ _ _ hg f hf'
                exact ⟨s, by simp [hs], he⟩
  cases hr with
  | err _ _ h => exact key _ _ _ _ _ h
  | ok _ _ h _ => exact key _ _ _ _ _ h
  | disabled _ => simp
  | tooMany _ _ => simp
  | panic _ _ _ => simp

/-- When there are no files, even wrong prefixes are accepted. -/
theorem c30_no_sources (letter : Char → Bool) (files : Files) :
    LinkSet letter true files [] ["(".toList] (.ok []) [] :=
  .ok rfl (by decide) rfl (List.Perm.refl _)

/-- Hypotheses of C29 and C31 are met, with addresses from two kinds of files. -/
example : ∃ o, LinkSet (fun _ => false) true
    (fun n => if n = "a".toList then some (["[[http://a][A]]".toList, "<http://b c>".toList], none)
      else if n = "b".toList then some (["see http://a, http://c".toList], none) else none)
    [⟨.org, "a".toList⟩, ⟨.txt, "b".toList⟩] ["http".toList]
    (.ok ["http://c".toList, "http://a".toList, "http://b c".toList]) o := by
  refine ⟨["a".toList, "b".toList], .ok rfl (by decide) (result :=
    ["http://a".toList, "http://b c".toList, "http://c".toList]) (by decide +kernel) ?_⟩
  decide

end Burl.Links
