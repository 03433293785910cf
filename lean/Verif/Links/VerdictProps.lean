import Verif.Links.SetProps
/-! Exact outcome of the `linkSet` method: which error is reported and which files are opened (C31). -/
namespace Burl.Links.Spec
open Burl.Extract (Source Files FileErr)

/-- Files are read in order up to the first failure: the failure and the files opened. -/
inductive Reads (files : Files) : List Source → Option FileErr → List Str → Prop where
  | done : Reads files [] none []
  | missing {src rest} : files src.name = none → Reads files (src :: rest) (some .open_) []
  | broken {src rest lines e} : files src.name = some (lines, some e) →
      Reads files (src :: rest) (some e) [src.name]
  | next {src rest lines e opened} : files src.name = some (lines, none) →
      Reads files rest e opened → Reads files (src :: rest) e (src.name :: opened)

/-- The error of `linkSet`, if any, and the files opened.  Prefixes are checked after the first file
is opened. -/
inductive Verdict (enabled : Bool) (files : Files) (sources : List Source) (ps : List Str) :
    Option SetErr → List Str → Prop where
  | disabled : enabled = false → Verdict enabled files sources ps (some .disabled) []
  | tooMany : enabled = true → 16 < ps.length → Verdict enabled files sources ps (some .tooMany) []
  | nothing : enabled = true → ps.length ≤ 16 → sources = [] →
      Verdict enabled files sources ps none []
  | missing {src rest} : enabled = true → ps.length ≤ 16 → sources = src :: rest →
      files src.name = none → Verdict enabled files sources ps (some (.file .open_)) []
  | empty {src rest le} : enabled = true → sources = src :: rest → files src.name = some le →
      ps = [] → Verdict enabled files sources ps (some .emptyList) [src.name]
  | invalid {src rest le} : enabled = true → ps.length ≤ 16 → sources = src :: rest →
      files src.name = some le → (∃ p ∈ ps, ¬ValidPrefix p) →
      Verdict enabled files sources ps (some .invalidPrefix) [src.name]
  | valid {e opened} : enabled = true → ps.length ≤ 16 → ps ≠ [] → (∀ p ∈ ps, ValidPrefix p) →
      Reads files sources e opened →
      Verdict enabled files sources ps (e.map .file) opened

end Burl.Links.Spec

namespace Burl.Links
open Burl.Regex Spec
open Burl.Extract (fileErr fileLines Source Files)

variable {letter : Char → Bool} {files : Files} {ps : List Str}

theorem setGroup_reads (hne : ps ≠ []) (hv : ∀ p ∈ ps, ValidPrefix p) (list : List Source)
    (result : List Str) :
    ∃ keys e opened, setGroup letter files ps list result = .ok (keys, e.map .file, opened) ∧
      Reads files list e opened := by
  induction list generalizing result with
  | nil => exact ⟨_, none, _, rfl, .done⟩
  | cons src rest ih =>
    simp only [setGroup]
    cases hf : files src.name with
    | none => exact ⟨_, some .open_, _, rfl, .missing hf⟩
    | some le =>
      obtain ⟨lines, err⟩ := le
      simp only [extractSet_valid hne hv, Res.bind_ok]
      cases err with
      | some e => exact ⟨_, some e, _, rfl, .broken hf⟩
      | none =>
        obtain ⟨keys, e, opened, h1, h2⟩ := ih
          ((fileKeys letter src.kind ps lines).foldl addKey result)
        simp only [Option.map_none, h1, Res.bind_ok]
        exact ⟨_, e, _, rfl, .next hf h2⟩

/-- One of the errors is determined, and the files opened. -/
theorem setGroup_verdict (sources : List Source) (hn : ps.length ≤ 16) :
    ∃ keys e opened, setGroup letter files ps sources [] = .ok (keys, e, opened) ∧
      Verdict true files sources ps e opened := by
  cases sources with
  | nil => exact ⟨_, _, _, rfl, .nothing rfl hn rfl⟩
  | cons src rest =>
    by_cases hv : ps ≠ [] ∧ ∀ p ∈ ps, ValidPrefix p
    · obtain ⟨keys, e, o, h1, h2⟩ := setGroup_reads (letter := letter) (files := files) hv.1 hv.2
        (src :: rest) []
      exact ⟨_, _, _, h1, .valid rfl hn hv.1 hv.2 h2⟩
    · simp only [setGroup]
      cases hf : files src.name with
      | none => exact ⟨_, _, _, rfl, .missing rfl hn rfl hf⟩
      | some le =>
        by_cases hp : ps = []
        · subst hp
          simp only [extractSet_empty, Res.bind_ok]
          exact ⟨_, _, _, rfl, .empty rfl rfl hf rfl⟩
        · have hb : ∃ p ∈ ps, ¬ValidPrefix p := by
            by_contra hc
            simp only [not_exists, not_and, not_not] at hc
            exact hv ⟨hp, hc⟩
          simp only [extractSet_invalid hp hb, Res.bind_ok]
          exact ⟨_, _, _, rfl, .invalid rfl hn rfl hf hb⟩

theorem Reads.unique {l : List Source} {e e' o o'} (h : Reads files l e o) (h' : Reads files l e' o') :
    e = e' ∧ o = o' := by
  induction h generalizing e' o' with
  | done => cases h'; exact ⟨rfl, rfl⟩
  | missing hf => cases h' <;> simp_all
  | broken hf => cases h' <;> simp_all
  | next hf _ ih =>
    cases h' with
    | missing hf' => simp_all
    | broken hf' => simp_all
    | next hf' h2 => obtain ⟨rfl, rfl⟩ := ih h2; exact ⟨rfl, rfl⟩

/-- There is one verdict only. -/
theorem Verdict.unique {enabled : Bool} {sources : List Source} {e e' o o'}
    (h : Verdict enabled files sources ps e o) (h' : Verdict enabled files sources ps e' o') :
    e = e' ∧ o = o' := by
  cases h with
  | valid h1 h2 h3 h4 h5 =>
    cases h' with
    | valid _ _ _ _ k5 => obtain ⟨rfl, rfl⟩ := Reads.unique h5 k5; exact ⟨rfl, rfl⟩
    | disabled k => simp_all
    | tooMany _ k => omega
    | nothing _ _ k => subst k; cases h5; exact ⟨rfl, rfl⟩
    | missing _ _ k kf => subst k; cases h5 <;> simp_all
    | empty _ _ _ k => exact absurd k h3
    | invalid _ _ _ _ k => obtain ⟨p, hp, hn⟩ := k; exact absurd (h4 p hp) hn
  | disabled h => cases h' <;> simp_all
  | tooMany h1 h2 => cases h' <;> first | omega | simp_all
  | nothing h1 h2 h3 =>
    cases h' with
    | valid _ _ _ _ k5 => subst h3; cases k5; exact ⟨rfl, rfl⟩
    | disabled k => simp_all
    | tooMany _ k => omega
    | nothing _ _ k => exact ⟨rfl, rfl⟩
    | missing _ _ k kf => simp_all
    | empty _ k _ _ => simp_all
    | invalid _ _ k _ _ => simp_all
  | missing h1 h2 h3 h4 =>
    cases h' with
    | valid _ _ _ _ k5 => subst h3; cases k5 <;> simp_all
    | disabled k => simp_all
    | tooMany _ k => omega
    | nothing _ _ k => simp_all
    | missing _ _ k kf => exact ⟨rfl, rfl⟩
    | empty _ k _ _ => simp_all
    | invalid _ _ k _ _ => simp_all
  | empty h1 h2 h3 h4 =>
    cases h' with
    | valid _ _ k _ _ => exact absurd h4 k
    | disabled k => simp_all
    | tooMany _ k => simp_all
    | nothing _ _ k => simp_all
    | missing _ _ k kf => simp_all
    | empty _ k _ _ => simp_all
    | invalid _ _ k _ k' => simp_all
  | invalid h1 h2 h3 h4 h5 =>
    cases h' with
    | valid _ _ _ k _ => obtain ⟨p, hp, hn⟩ := h5; exact absurd (k p hp) hn
    | disabled k => simp_all
    | tooMany _ k => omega
    | nothing _ _ k => simp_all
    | missing _ _ k kf => simp_all
    | empty _ k _ _ => simp_all
    | invalid _ _ k _ k' => simp_all

/-- C31: the exact outcome of the method: whether it fails, with what error, and which files are
opened. -/
theorem c31_exact {enabled : Bool} {sources : List Source} :
    (∀ e opened, LinkSet letter enabled files sources ps (.err e) opened ↔
      Verdict enabled files sources ps (some e) opened) ∧
    (∀ opened, (∃ urls, LinkSet letter enabled files sources ps (.ok urls) opened) ↔
      Verdict enabled files sources ps none opened) ∧
    ∃ e opened, Verdict enabled files sources ps e opened := by
  have key : ∀ r opened, LinkSet letter enabled files sources ps r opened →
      ∃ e, Verdict enabled files sources ps e opened ∧
        ((∃ x, e = some x ∧ r = .err x) ∨ (e = none ∧ ∃ urls, r = .ok urls)) := by
    intro r opened h
    cases h with
    | disabled h => exact ⟨_, .disabled h, .inl ⟨_, rfl, rfl⟩⟩
    | tooMany h1 h2 => exact ⟨_, .tooMany h1 h2, .inl ⟨_, rfl, rfl⟩⟩
    | err h1 h2 h3 =>
      subst h1
      obtain ⟨k, e, o, h4, h5⟩ := setGroup_verdict (letter := letter) (files := files) sources h2
      rw [h3] at h4
      have h4 := Res.ok.inj h4
      simp only [Prod.mk.injEq] at h4
      obtain ⟨-, rfl, rfl⟩ := h4
      exact ⟨_, h5, .inl ⟨_, rfl, rfl⟩⟩
    | ok h1 h2 h3 _ =>
      subst h1
      obtain ⟨k, e, o, h4, h5⟩ := setGroup_verdict (letter := letter) (files := files) sources h2
      rw [h3] at h4
      have h4 := Res.ok.inj h4
      simp only [Prod.mk.injEq] at h4
      obtain ⟨-, rfl, rfl⟩ := h4
      exact ⟨_, h5, .inr ⟨rfl, _, rfl⟩⟩
    | panic h1 h2 h3 =>
      obtain ⟨k, e, o, h4, h5⟩ := setGroup_verdict (letter := letter) (files := files) sources h2
      rw [h3] at h4
      cases h4
  have some_ : ∃ r opened, LinkSet letter enabled files sources ps r opened := by
    by_cases h1 : enabled = true
    · by_cases h2 : ps.length ≤ 16
      · obtain ⟨k, e, o, h4, h5⟩ := setGroup_verdict (letter := letter) (files := files) sources h2
        cases e with
        | none => exact ⟨_, _, .ok h1 h2 h4 (List.Perm.refl _)⟩
        | some e => exact ⟨_, _, .err h1 h2 h4⟩
      · exact ⟨_, _, .tooMany h1 (by simp only [prefixLimit]; omega)⟩
    · exact ⟨_, _, .disabled (by simpa using h1)⟩
  obtain ⟨r, o, hr⟩ := some_
  obtain ⟨e, hv, hc⟩ := key _ _ hr
  refine ⟨fun x opened => ⟨fun h => ?_, fun h => ?_⟩, fun opened => ⟨fun ⟨urls, h⟩ => ?_, fun h => ?_⟩,
    e, o, hv⟩
  · obtain ⟨e', h1, h2⟩ := key _ _ h
    rcases h2 with ⟨y, rfl, h3⟩ | ⟨-, u, h3⟩
    · cases h3; exact h1
    · cases h3
  · obtain ⟨rfl, rfl⟩ := Verdict.unique hv h
    rcases hc with ⟨y, h3, rfl⟩ | ⟨h3, -⟩
    · cases h3; exact hr
    · cases h3
  · obtain ⟨e', h1, h2⟩ := key _ _ h
    rcases h2 with ⟨y, -, h3⟩ | ⟨rfl, -⟩
    · cases h3
    · exact h1
  · obtain ⟨rfl, rfl⟩ := Verdict.unique hv h
    rcases hc with ⟨y, h3, -⟩ | ⟨-, u, rfl⟩
    · cases h3
    · exact ⟨u, hr⟩

/-- The second of three files is missing: the first one has been opened. -/
example : LinkSet (fun _ => false) true
    (fun n => if n = "a".toList then some (["<http://b c>".toList], none) else none)
    [⟨.org, "a".toList⟩, ⟨.txt, "b".toList⟩, ⟨.org, "a".toList⟩] ["http".toList]
    (.err (.file .open_)) ["a".toList] := by
  refine (c31_exact.1 _ _).2 (.valid (e := some .open_) rfl (by decide) (by decide) ?_
    (.next (lines := ["<http://b c>".toList]) (by decide) (.missing (by decide))))
  intro p hp
  simp only [List.mem_singleton] at hp
  subst hp
  exact ⟨"http".toList, [], rfl, ⟨'h', "ttp".toList, [], rfl, by unfold SchemeLetter; decide,
    by unfold SchemeChar SchemeLetter; decide, .nil⟩, .inl rfl⟩

end Burl.Links
