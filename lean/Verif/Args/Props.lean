import Verif.Args.FlagLemmas
/-! C46 and C52: flags and sources. -/
namespace Burl.Args
open Burl

/-! ## C46 -/

/-- **C46.** What the flag gives after any accepted sequence of occurrences: the defaults followed
by all values when there was no reset, the values after the last reset otherwise. -/
theorem c46_values {ds vs : List Str} {f : MultiFlag}
    (h : (MultiFlag.new ds).setAll vs = .ok f) :
    ((∀ v ∈ vs, v ≠ []) → f.values = ds ++ vs) ∧
      ∀ pre post, vs = pre ++ [] :: post → (∀ v ∈ post, v ≠ []) → f.values = post := by
  constructor
  · intro hne
    rw [setAll_noEmpty hne] at h
    cases h
    rfl
  · rintro pre post rfl hpost
    rw [setAll_append] at h
    cases hp : (MultiFlag.new ds).setAll pre with
    | err e => rw [hp] at h; cases h
    | panic => rw [hp] at h; cases h
    | ok g =>
      rw [hp, Res.bind_ok] at h
      unfold MultiFlag.setAll at h
      cases hs : g.set [] with
      | err e => rw [hs] at h; cases h
      | panic => rw [hs] at h; cases h
      | ok g' =>
        rw [hs, Res.bind_ok, setAll_noEmpty hpost] at h
        cases h
        unfold MultiFlag.set at hs
        rw [if_pos rfl] at hs
        split at hs
        · cases hs
        · cases hs
          rfl

/-- **C46.** Exactly the sequences that would discard a value that was added to the defaults are
refused: once a value has been added, a reset is an error, unless the sequence starts with a
reset. -/
theorem c46_refused {ds vs : List Str} :
    (∃ f, (MultiFlag.new ds).setAll vs = .ok f) ↔ vs.head? = some [] ∨ ∀ v ∈ vs, v ≠ [] := by
  have hreset : ∀ (ws : List Str) (f : MultiFlag), f.state = .reset → ∃ g, f.setAll ws = .ok g := by
    intro ws
    induction ws with
    | nil => exact fun f _ => ⟨f, rfl⟩
    | cons w ws ih =>
      intro f hf
      unfold MultiFlag.setAll MultiFlag.set
      by_cases hw : w = []
      · rw [if_pos hw, if_neg (by rw [hf]; nofun), Res.bind_ok]
        exact ih _ rfl
      · rw [if_neg hw, Res.bind_ok]
        exact ih _ (by simp [hf])
  have happ : ∀ (ws : List Str) (f : MultiFlag), f.state = .appended →
      (∃ g, f.setAll ws = .ok g) → ∀ v ∈ ws, v ≠ [] := by
    intro ws
    induction ws with
    | nil => exact fun f _ _ => nofun
    | cons w ws ih =>
      rintro f hf ⟨g, hg⟩
      unfold MultiFlag.setAll MultiFlag.set at hg
      by_cases hw : w = []
      · rw [if_pos hw, if_pos hf] at hg
        cases hg
      · rw [if_neg hw, Res.bind_ok] at hg
        intro v hv
        rcases List.mem_cons.1 hv with rfl | hv
        · exact hw
        · exact ih _ (by simp [hf]) ⟨g, hg⟩ v hv
  constructor
  · rintro ⟨f, h⟩
    cases vs with
    | nil => exact .inr nofun
    | cons v vs =>
      by_cases hv : v = []
      · exact .inl (by rw [hv]; rfl)
      · right
        unfold MultiFlag.setAll at h
        rw [set_nonempty hv, Res.bind_ok] at h
        intro x hx
        rcases List.mem_cons.1 hx with rfl | hx
        · exact hv
        · exact happ _ _ rfl ⟨f, h⟩ x hx
  · rintro (h | h)
    · cases vs with
      | nil => cases h
      | cons v vs =>
        have hv : v = [] := by simpa using h
        subst hv
        show ∃ f, ((MultiFlag.new ds).set []).bind (fun f' => f'.setAll vs) = .ok f
        exact hreset vs ⟨[], .reset, 0⟩ rfl
    · exact ⟨_, setAll_noEmpty h _⟩

/-- **C46.** Replaying `ModifiedValues` on a fresh flag with the same defaults gives the same flag
without an error. -/
theorem c46_replay {ds vs : List Str} {f : MultiFlag}
    (h : (MultiFlag.new ds).setAll vs = .ok f) :
    ∃ g, (MultiFlag.new ds).setAll f.modifiedValues = .ok g ∧ g.values = f.values ∧
      g.isModified = f.isModified ∧ g.modifiedValues = f.modifiedValues :=
  ⟨f, replay_inv (inv_setAll vs (inv_new ds) h), rfl, rfl, rfl⟩

/-- **C46.** The flag is reported as modified iff it occurred. -/
theorem c46_modified {ds vs : List Str} {f : MultiFlag}
    (h : (MultiFlag.new ds).setAll vs = .ok f) : f.isModified = true ↔ vs ≠ [] := by
  have key : ∀ (ws : List Str) (g g' : MultiFlag), g.state ≠ .initial → g.setAll ws = .ok g' →
      g'.state ≠ .initial := by
    intro ws
    induction ws with
    | nil => intro g g' hg hs; cases hs; exact hg
    | cons w ws ih =>
      intro g g' hg hs
      unfold MultiFlag.setAll MultiFlag.set at hs
      by_cases hw : w = []
      · rw [if_pos hw] at hs
        split at hs
        · cases hs
        · rw [Res.bind_ok] at hs
          exact ih _ _ (by nofun) hs
      · rw [if_neg hw, Res.bind_ok] at hs
        exact ih _ _ (by simp [hg]) hs
  cases vs with
  | nil =>
    cases h
    simp [MultiFlag.isModified, MultiFlag.new]
  | cons v vs =>
    refine ⟨fun _ => by simp, fun _ => ?_⟩
    unfold MultiFlag.setAll MultiFlag.set at h
    by_cases hv : v = []
    · rw [if_pos hv, if_neg (by nofun), Res.bind_ok] at h
      simpa [MultiFlag.isModified] using key _ _ _ (by nofun) h
    · rw [if_neg hv, Res.bind_ok] at h
      simpa [MultiFlag.isModified] using key _ _ _ (by simp [MultiFlag.new]) h

/-! ## C52 -/

/-- How a positional argument is understood: as an Org file iff it ends with `.org`. -/
def Positional (arg : Str) (s : Source) : Prop :=
  s.name = arg ∧ (s.kind = .org ↔ ∃ stem, arg = stem ++ ".org".toList) ∧
    (s.kind = .txt ↔ ¬ ∃ stem, arg = stem ++ ".org".toList)

theorem isSuffixOf_iff {a b : Str} : a.isSuffixOf b = true ↔ ∃ s, b = s ++ a := by
  rw [List.isSuffixOf_iff_suffix]
  exact ⟨fun ⟨s, h⟩ => ⟨s, h.symm⟩, fun ⟨s, h⟩ => ⟨s, h.symm⟩⟩

theorem positional_source (arg : Str) :
    Positional arg ⟨if dotOrg.isSuffixOf arg then .org else .txt, arg⟩ := by
  have h := isSuffixOf_iff (a := dotOrg) (b := arg)
  refine ⟨rfl, ?_⟩
  by_cases hs : dotOrg.isSuffixOf arg = true
  · rw [if_pos hs]
    exact ⟨⟨fun _ => h.1 hs, fun _ => rfl⟩, ⟨nofun, fun hh => absurd (h.1 hs) hh⟩⟩
  · rw [if_neg hs]
    exact ⟨⟨nofun, fun hh => absurd (h.2 hh) hs⟩, ⟨fun _ hh => hs (h.2 hh), fun _ => rfl⟩⟩

/-- The sources and the arguments they come from, in order. -/
inductive SourcesOf : List Str → List Source → Prop where
  | nil : SourcesOf [] []
  | cons {a s as ss} : Positional a s → SourcesOf as ss → SourcesOf (a :: as) (s :: ss)

/-- **C52.** Positional arguments are appended in order, each with the right type. -/
theorem c52_positional (slice : List Source) (args : List Str) :
    ∃ ss, addSourceArgs slice args = slice ++ ss ∧ SourcesOf args ss := by
  induction args generalizing slice with
  | nil => exact ⟨[], by simp [addSourceArgs], .nil⟩
  | cons a args ih =>
    obtain ⟨ss, h1, h2⟩ := ih (slice ++ [⟨if dotOrg.isSuffixOf a then .org else .txt, a⟩])
    refine ⟨⟨if dotOrg.isSuffixOf a then .org else .txt, a⟩ :: ss, ?_, .cons (positional_source a) h2⟩
    rw [addSourceArgs, h1]
    simp

/-- **C52.** A flag for a source appends one source of its type; no other flag changes the
sources. -/
theorem c52_flags {f : Flag} {v : Str} {c c' : Config} (h : f.set v c = .ok c') :
    (f = .org → c'.sources = c.sources ++ [⟨.org, v⟩]) ∧
      (f = .txt → c'.sources = c.sources ++ [⟨.txt, v⟩]) ∧
      (f ≠ .org → f ≠ .txt → c'.sources = c.sources) := by
  have hb : ∀ {α : Type} {r : Res Unit α} {g : α → Config},
      (∀ m, (g m).sources = c.sources) → r.bind (fun m => Res.ok (g m)) = .ok c' →
      c'.sources = c.sources := by
    intro α r g hg hr
    cases r with
    | err e => cases hr
    | panic => cases hr
    | ok m => cases hr; exact hg m
  unfold Flag.set at h
  cases f <;> simp only at h <;> refine ⟨?_, ?_, ?_⟩ <;> first
    | (intro hh; cases hh; done)
    | (intro hh; exact absurd rfl hh)
    | (intro _ hh; exact absurd rfl hh)
    | (intro _; cases h; rfl)
    | (intro _ _; cases h; rfl)
    | (intro _ _; refine hb ?_ h; intro; rfl)

/-- **C52.** A command line of typed sources and positional arguments gives the sources in the
order of the arguments. -/
theorem c52_command_line (d : Defaults) (typed : List Source) (a : Str) (args : List Str)
    (ha : a.head? ≠ some '-') :
    ∃ c ss, commandLine d (typed.map Source.word ++ a :: args) = .ok c ∧
      c.sources = typed ++ ss ∧ SourcesOf (a :: args) ss := by
  have hplain : classify a = .plain := by
    unfold classify
    split
    · exact absurd rfl ha
    · rfl
  obtain ⟨ss, h1, h2⟩ := c52_positional ([] ++ typed) (a :: args)
  refine ⟨{ Config.fresh d with sources := typed ++ ss }, ss, ?_, rfl, h2⟩
  unfold commandLine
  rw [parse_sources, parse, hplain]
  simp only [Res.bind_ok]
  have : (Config.fresh d).sources = [] := rfl
  rw [this, h1]
  rfl

/-- **C52.** The same with two dashes before positional arguments, which may be any words then. -/
theorem c52_dashes (d : Defaults) (typed : List Source) (args : List Str) :
    ∃ c ss, commandLine d (typed.map Source.word ++ "--".toList :: args) = .ok c ∧
      c.sources = typed ++ ss ∧ SourcesOf args ss := by
  obtain ⟨ss, h1, h2⟩ := c52_positional ([] ++ typed) args
  refine ⟨{ Config.fresh d with sources := typed ++ ss }, ss, ?_, rfl, h2⟩
  unfold commandLine
  rw [parse_sources, parse, show classify "--".toList = .stop from rfl]
  simp only [Res.bind_ok]
  have : (Config.fresh d).sources = [] := rfl
  rw [this, h1]
  rfl

/-- **C52.** `Clone` keeps the type and takes the new name. -/
theorem c52_clone (s : Source) (name : Str) :
    (s.clone name).kind = s.kind ∧ (s.clone name).name = name := ⟨rfl, rfl⟩

/-! ## Examples -/

/-- A sequence that is refused. -/
example : (MultiFlag.new ["a".toList]).setAll ["b".toList, []] = .err () := by decide +kernel

/-- A sequence with two resets. -/
example : (MultiFlag.new ["a".toList]).setAll [[], "b".toList, [], "c".toList] =
    .ok ⟨["c".toList], .reset, 0⟩ := by decide +kernel

end Burl.Args
