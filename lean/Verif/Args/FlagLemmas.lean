import Verif.Args.Shell
/-! Facts about flags, the command line and the shell. -/
namespace Burl.Args
open Burl

/-! ## Repeated flags -/

/-- No empty string is among the values. -/
def NoEmpty (vs : List Str) : Prop := ∀ v ∈ vs, v ≠ []

/-- What is known of a flag that started with the defaults `ds`. -/
def MultiFlag.Inv (ds : List Str) (f : MultiFlag) : Prop :=
  match f.state with
  | .initial => f.slice = ds ∧ f.defaultLen = ds.length
  | .appended => f.defaultLen = ds.length ∧ ∃ vs, vs ≠ [] ∧ NoEmpty vs ∧ f.slice = ds ++ vs
  | .reset => f.defaultLen = 0 ∧ NoEmpty f.slice

theorem inv_new (ds : List Str) : (MultiFlag.new ds).Inv ds := ⟨rfl, rfl⟩

theorem noEmpty_append {a : List Str} {v : Str} (ha : NoEmpty a) (hv : v ≠ []) :
    NoEmpty (a ++ [v]) := by
  intro x hx
  rcases List.mem_append.1 hx with hx | hx
  · exact ha x hx
  · rw [List.mem_singleton.1 hx]
    exact hv

theorem inv_set {ds : List Str} {f f' : MultiFlag} {v : Str} (h : f.Inv ds)
    (hs : f.set v = .ok f') : f'.Inv ds := by
  unfold MultiFlag.set at hs
  split at hs
  · split at hs
    · cases hs
    · cases hs
      exact ⟨rfl, nofun⟩
  · rename_i hv
    cases hs
    obtain ⟨slice, state, len⟩ := f
    cases state with
    | initial =>
      obtain ⟨h1, h2⟩ := h
      exact ⟨h2, [v], by simp, fun x hx => by rw [List.mem_singleton.1 hx]; exact hv,
        by rw [← h1]⟩
    | appended =>
      obtain ⟨h1, vs, h2, h3, h4⟩ := h
      refine ⟨h1, vs ++ [v], by simp, noEmpty_append h3 hv, ?_⟩
      show slice ++ [v] = _
      rw [show slice = ds ++ vs from h4, List.append_assoc]
    | reset =>
      obtain ⟨h1, h2⟩ := h
      exact ⟨h1, noEmpty_append h2 hv⟩

theorem inv_setAll {ds : List Str} (vs : List Str) {f f' : MultiFlag} (h : f.Inv ds)
    (hs : f.setAll vs = .ok f') : f'.Inv ds := by
  induction vs generalizing f with
  | nil => cases hs; exact h
  | cons v vs ih =>
    unfold MultiFlag.setAll at hs
    cases hv : f.set v with
    | err e => rw [hv] at hs; cases hs
    | panic => rw [hv] at hs; cases hs
    | ok g =>
      rw [hv, Res.bind_ok] at hs
      exact ih (inv_set h hv) hs

theorem set_nonempty {f : MultiFlag} {v : Str} (hv : v ≠ []) :
    f.set v = .ok ⟨f.slice ++ [v], if f.state = .initial then .appended else f.state,
      f.defaultLen⟩ := by
  unfold MultiFlag.set
  rw [if_neg hv]

/-- Values that are not empty are appended. -/
theorem setAll_noEmpty {vs : List Str} (h : NoEmpty vs) (f : MultiFlag) :
    f.setAll vs = .ok ⟨f.slice ++ vs,
      if vs ≠ [] ∧ f.state = .initial then .appended else f.state, f.defaultLen⟩ := by
  induction vs generalizing f with
  | nil =>
    obtain ⟨slice, state, len⟩ := f
    simp [MultiFlag.setAll]
  | cons v vs ih =>
    have hv : v ≠ [] := h v List.mem_cons_self
    unfold MultiFlag.setAll
    rw [set_nonempty hv, Res.bind_ok, ih (fun x hx => h x (List.mem_cons_of_mem _ hx))]
    obtain ⟨slice, state, len⟩ := f
    cases state <;> simp

theorem setAll_append (vs ws : List Str) (f : MultiFlag) :
    f.setAll (vs ++ ws) = (f.setAll vs).bind fun g => g.setAll ws := by
  induction vs generalizing f with
  | nil => rfl
  | cons v vs ih =>
    show (f.set v).bind (fun f' => f'.setAll (vs ++ ws)) =
      ((f.set v).bind fun f' => f'.setAll vs).bind fun g => g.setAll ws
    cases f.set v with
    | err e => rfl
    | panic => rfl
    | ok g => exact ih g

/-- Replay of the modified values. -/
theorem replay_inv {ds : List Str} {f : MultiFlag} (h : f.Inv ds) :
    (MultiFlag.new ds).setAll f.modifiedValues = .ok f := by
  obtain ⟨slice, state, len⟩ := f
  cases state with
  | initial =>
    obtain ⟨h1, h2⟩ := h
    simp only at h1 h2
    subst h1 h2
    rfl
  | appended =>
    obtain ⟨h1, vs, h2, h3, h4⟩ := h
    simp only at h1 h4
    subst h1 h4
    show (MultiFlag.new ds).setAll ((ds ++ vs).drop ds.length) = _
    rw [List.drop_left, setAll_noEmpty h3]
    simp [MultiFlag.new, h2]
  | reset =>
    obtain ⟨h1, h2⟩ := h
    simp only at h1
    subst h1
    show (MultiFlag.new ds).setAll ([] :: slice) = _
    unfold MultiFlag.setAll
    have : (MultiFlag.new ds).set [] = .ok ⟨[], .reset, 0⟩ := rfl
    rw [this, Res.bind_ok, setAll_noEmpty h2]
    simp

/-! ## The parser of flags -/

theorem splitEq_eq {name v : Str} (h : '=' ∉ name) : splitEq (name ++ '=' :: v) = (name, some v) := by
  have htd : (name ++ '=' :: v).takeWhile (· != '=') = name ∧
      (name ++ '=' :: v).dropWhile (· != '=') = '=' :: v := by
    induction name with
    | nil => simp
    | cons c cs ih =>
      have hc : c ≠ '=' := fun hh => h (by rw [hh]; exact List.mem_cons_self)
      have := ih (fun hh => h (List.mem_cons_of_mem _ hh))
      rw [List.cons_append, List.takeWhile_cons_of_pos (by simpa using hc),
        List.dropWhile_cons_of_pos (by simpa using hc)]
      exact ⟨by rw [this.1], this.2⟩
  unfold splitEq
  rw [htd.2, htd.1]

theorem classify_eq {b : Char} {name v : Str} (h : '=' ∉ b :: name) (hb : b ≠ '-') :
    classify ('-' :: '-' :: (b :: name ++ '=' :: v)) = .flag (b :: name) (some v) := by
  have hb' : b ≠ '=' := fun hh => h (by rw [hh]; exact List.mem_cons_self)
  unfold classify
  have he := splitEq_eq (v := v) h
  rw [List.cons_append] at he ⊢
  simp only [if_true]
  rw [if_neg (by simp), if_neg (by simp [hb, hb'])]
  rw [he]

/-- A word `--name=value`. -/
theorem parse_eq {b : Char} {name v : Str} {f : Flag} (c : Config) (args : List Str)
    (h : '=' ∉ b :: name) (hb : b ≠ '-') (hf : flagNames.lookup (b :: name) = some f) :
    parse c (('-' :: '-' :: (b :: name ++ '=' :: v)) :: args) =
      (f.set v c).bind fun c' => parse c' args := by
  rw [parse, classify_eq h hb]
  simp only
  rw [hf]

theorem parse_emacsarg (vs : List Str) (c : Config) (args : List Str) :
    parse c (vs.map (fun v => "--emacsarg=".toList ++ v) ++ args) =
      (c.emacsArgs.setAll vs).bind fun m => parse { c with emacsArgs := m } args := by
  induction vs generalizing c with
  | nil => rfl
  | cons v vs ih =>
    have h1 : parse c (("--emacsarg=".toList ++ v) ::
        (vs.map (fun v => "--emacsarg=".toList ++ v) ++ args)) =
        (Flag.emacsarg.set v c).bind fun c' =>
          parse c' (vs.map (fun v => "--emacsarg=".toList ++ v) ++ args) :=
      parse_eq (b := 'e') (name := "macsarg".toList) c _ (by decide) (by decide)
        (by decide +kernel)
    rw [List.map_cons, List.cons_append, h1]
    unfold Flag.set MultiFlag.setAll
    cases c.emacsArgs.set v with
    | err e => rfl
    | panic => rfl
    | ok m =>
      simp only [Res.bind_ok]
      rw [ih]

theorem parse_scheme (vs : List Str) (c : Config) (args : List Str) :
    parse c (vs.map (fun v => "--scheme=".toList ++ v) ++ args) =
      (c.scheme.setAll vs).bind fun m => parse { c with scheme := m } args := by
  induction vs generalizing c with
  | nil => rfl
  | cons v vs ih =>
    have h1 : parse c (("--scheme=".toList ++ v) ::
        (vs.map (fun v => "--scheme=".toList ++ v) ++ args)) =
        (Flag.scheme.set v c).bind fun c' =>
          parse c' (vs.map (fun v => "--scheme=".toList ++ v) ++ args) :=
      parse_eq (b := 's') (name := "cheme".toList) c _ (by decide) (by decide)
        (by decide +kernel)
    rw [List.map_cons, List.cons_append, h1]
    unfold Flag.set MultiFlag.setAll
    cases c.scheme.set v with
    | err e => rfl
    | panic => rfl
    | ok m =>
      simp only [Res.bind_ok]
      rw [ih]

/-- A source as a word of the command line. -/
def Source.word (s : Source) : Str := "--".toList ++ s.kind.flag ++ "=".toList ++ s.name

theorem parse_sources (ss : List Source) (c : Config) (args : List Str) :
    parse c (ss.map Source.word ++ args) = parse { c with sources := c.sources ++ ss } args := by
  induction ss generalizing c with
  | nil => simp
  | cons s ss ih =>
    have h1 : parse c (s.word :: (ss.map Source.word ++ args)) =
        parse { c with sources := c.sources ++ [s] } (ss.map Source.word ++ args) := by
      obtain ⟨k, name⟩ := s
      cases k with
      | org =>
        exact parse_eq (b := 'o') (name := "rg".toList) (f := .org) c _ (by decide) (by decide)
          (by decide +kernel)
      | txt =>
        exact parse_eq (b := 't') (name := "xt".toList) (f := .txt) c _ (by decide) (by decide)
          (by decide +kernel)
    rw [List.map_cons, List.cons_append, h1, ih]
    simp

theorem parse_log (v : Str) (c : Config) (args : List Str) :
    parse c ("--log".toList :: v :: args) = parse { c with logFile := v } args := by
  rw [parse]
  have h1 : classify "--log".toList = .flag "log".toList none := by decide +kernel
  have h2 : flagNames.lookup "log".toList = some Flag.log := by decide +kernel
  rw [h1]
  simp only
  rw [h2]
  simp only [Flag.isBool, Flag.set, Res.bind_ok]
  rfl

theorem parse_disable (c : Config) (args : List Str) :
    parse c ("--disable-link-set=true".toList :: args) =
      parse { c with disableLinkSet := true } args := by
  have h := parse_eq (b := 'd') (name := "isable-link-set".toList) (v := "true".toList)
    (f := .disableLinkSet) c args (by decide) (by decide) (by decide +kernel)
  have hb : parseBool "true".toList = .ok true := by decide +kernel
  refine h.trans ?_
  unfold Flag.set
  simp only
  rw [hb]
  rfl

theorem parse_emacsclient (v : Str) (c : Config) (args : List Str) :
    parse c (("--emacsclient=".toList ++ v) :: args) = parse { c with emacsCommand := v } args :=
  parse_eq (b := 'e') (name := "macsclient".toList) (f := .emacsclient) c _ (by decide) (by decide)
    (by decide +kernel)

/-! ## The shell -/

/-- A character that stands for itself outside of quotes. -/
def Literal (c : Char) : Prop :=
  c ≠ ' ' ∧ c ≠ '\t' ∧ c ≠ '\'' ∧ c ≠ '"' ∧ c ≠ '\\' ∧ c ≠ '$' ∧ special c = false

instance (c : Char) : Decidable (Literal c) := by unfold Literal; infer_instance

/-- The text `q` inside of a word, or at its start, is read as `s`. -/
def Reads (q s : Str) : Prop := ∀ cur acc rest,
  shScan .plain cur acc (q ++ rest) = shScan .plain (some (cur.getD [] ++ s)) acc rest

/-- The text `t` is read as the word `w` if nothing follows it in the word. -/
def ReadsWord (t w : Str) : Prop := ∀ acc rest,
  shScan .plain none acc (t ++ rest) = shScan .plain (some w) acc rest

theorem scan_plain (cur : Option Str) (acc : List Str) (c : Char) (cs : Str) :
    shScan .plain cur acc (c :: cs) =
    if c = ' ' ∨ c = '\t' then
      match cur with
      | none => shScan .plain none acc cs
      | some w => shScan .plain none (acc ++ [w]) cs
    else if c = '\'' then shScan .single (some (cur.getD [])) acc cs
    else if c = '"' then shScan .double (some (cur.getD [])) acc cs
    else if c = '\\' then shScan .esc cur acc cs
    else if c = '$' then shScan .dollar cur acc cs
    else if special c ∨ (cur = none ∧ (c = '#' ∨ c = '~')) then none
    else shScan .plain (some (cur.getD [] ++ [c])) acc cs := by
  cases cur <;> rfl

theorem scan_char {c : Char} (hc : Literal c) (cur : Option Str) (acc : List Str) (rest : Str)
    (h : cur = none → c ≠ '#' ∧ c ≠ '~') :
    shScan .plain cur acc (c :: rest) = shScan .plain (some (cur.getD [] ++ [c])) acc rest := by
  obtain ⟨h1, h2, h3, h4, h5, h6, h7⟩ := hc
  rw [scan_plain]
  rw [if_neg (fun hh => hh.elim h1 h2), if_neg h3, if_neg h4, if_neg h5, if_neg h6, if_neg]
  rintro (hh | ⟨hh, hh'⟩)
  · rw [h7] at hh
    cases hh
  · exact hh'.elim (h hh).1 (h hh).2

theorem scan_literal {s : Str} (h : ∀ c ∈ s, Literal c) (w : Str) (acc : List Str) (rest : Str) :
    shScan .plain (some w) acc (s ++ rest) = shScan .plain (some (w ++ s)) acc rest := by
  induction s generalizing w with
  | nil => simp
  | cons c cs ih =>
    rw [List.cons_append, scan_char (h c List.mem_cons_self) (some w) _ _ nofun,
      ih (fun x hx => h x (List.mem_cons_of_mem _ hx))]
    simp

/-- A word of literal characters, with a suitable start. -/
theorem readsWord_literal {c : Char} {s : Str} (h : ∀ x ∈ c :: s, Literal x) (h1 : c ≠ '#')
    (h2 : c ≠ '~') : ReadsWord (c :: s) (c :: s) := by
  intro acc rest
  rw [List.cons_append, scan_char (h c List.mem_cons_self) none acc _ (fun _ => ⟨h1, h2⟩),
    scan_literal (fun x hx => h x (List.mem_cons_of_mem _ hx))]
  rfl

theorem readsWord_append {t w q s : Str} (h : ReadsWord t w) (hq : Reads q s) :
    ReadsWord (t ++ q) (w ++ s) := by
  intro acc rest
  rw [List.append_assoc, h, hq]
  rfl

theorem reads_word {q s : Str} (h : Reads q s) : ReadsWord q s := by
  intro acc rest
  rw [h]
  rfl

theorem scan_single (s w : Str) (acc : List Str) (rest : Str) :
    shScan .single (some w) acc (escapeSingle s ++ '\'' :: rest) =
      shScan .plain (some (w ++ s)) acc rest := by
  induction s generalizing w with
  | nil =>
    show shScan .single (some w) acc ('\'' :: rest) = _
    rw [shScan]
    simp
  | cons c cs ih =>
    by_cases hc : c = '\''
    · subst hc
      show shScan .single (some w) acc
        ('\'' :: '\\' :: '\'' :: '\'' :: (escapeSingle cs ++ '\'' :: rest)) = _
      rw [shScan, if_pos rfl, scan_plain, if_neg (by decide), if_neg (by decide),
        if_neg (by decide), if_pos rfl, shScan, if_neg (by decide), scan_plain,
        if_neg (by decide), if_pos rfl]
      show shScan .single (some (w ++ ['\''])) acc (escapeSingle cs ++ '\'' :: rest) = _
      rw [ih]
      simp
    · show shScan .single (some w) acc
        ((if c = '\'' then ['\'', '\\', '\'', '\''] else [c]) ++ escapeSingle cs ++ '\'' :: rest) = _
      rw [if_neg hc]
      show shScan .single (some w) acc (c :: (escapeSingle cs ++ '\'' :: rest)) = _
      rw [shScan, if_neg hc]
      show shScan .single (some (w ++ [c])) acc (escapeSingle cs ++ '\'' :: rest) = _
      rw [ih]
      simp

theorem reads_single (s : Str) : Reads ('\'' :: (escapeSingle s ++ ['\''])) s := by
  intro cur acc rest
  rw [List.cons_append, scan_plain, if_neg (by decide), if_pos rfl, List.append_assoc]
  exact scan_single s _ acc rest

theorem scan_double {s : Str} (h : ∀ c ∈ s, c ≠ '"' ∧ c ≠ '$' ∧ c ≠ '`' ∧ c ≠ '\\') (w : Str)
    (acc : List Str) (rest : Str) :
    shScan .double (some w) acc (s ++ '"' :: rest) = shScan .plain (some (w ++ s)) acc rest := by
  induction s generalizing w with
  | nil =>
    rw [List.nil_append, shScan, if_pos rfl]
    simp
  | cons c cs ih =>
    obtain ⟨h1, h2, h3, h4⟩ := h c List.mem_cons_self
    rw [List.cons_append, shScan, if_neg h1, if_neg (fun hh => hh.elim h2 h3), if_neg h4]
    show shScan .double (some (w ++ [c])) acc (cs ++ '"' :: rest) = _
    rw [ih (fun x hx => h x (List.mem_cons_of_mem _ hx))]
    simp

theorem reads_double {s : Str} (h : ∀ c ∈ s, c ≠ '"' ∧ c ≠ '$' ∧ c ≠ '`' ∧ c ≠ '\\') :
    Reads ('"' :: (s ++ ['"'])) s := by
  intro cur acc rest
  rw [List.cons_append, scan_plain, if_neg (by decide), if_neg (by decide), if_pos rfl,
    List.append_assoc]
  exact scan_double h _ acc rest

/-- A character that is not a control one. -/
def Printable (c : Char) : Prop := 32 ≤ c.toNat

instance (c : Char) : Decidable (Printable c) := by unfold Printable; infer_instance

theorem literal_of_bare {c : Char} (hp : Printable c) (h : gnuSpecial c = false) : Literal c := by
  have hm : ∀ d : Char, gnuSpecial d = true → c ≠ d := by
    rintro d hd rfl
    rw [h] at hd
    cases hd
  have ht : c ≠ '\t' := by
    rintro rfl
    revert hp
    decide
  have hn : c ≠ '\n' := by
    rintro rfl
    revert hp
    decide
  refine ⟨hm _ (by decide), ht, hm _ (by decide), hm _ (by decide), hm _ (by decide),
    hm _ (by decide), ?_⟩
  have hs := hm '|' (by decide)
  have h1 := hm '&' (by decide)
  have h2 := hm ';' (by decide)
  have h3 := hm '<' (by decide)
  have h4 := hm '>' (by decide)
  have h5 := hm '(' (by decide)
  have h6 := hm ')' (by decide)
  have h7 := hm '`' (by decide)
  have h8 := hm '*' (by decide)
  have h9 := hm '?' (by decide)
  have h10 := hm '[' (by decide)
  unfold special
  simp [hs, h1, h2, h3, h4, h5, h6, h7, h8, h9, h10, hn]

theorem double_of {s : Str} (h : gnuDouble s = true) :
    ∀ c ∈ s, c ≠ '"' ∧ c ≠ '$' ∧ c ≠ '`' ∧ c ≠ '\\' := by
  have hb : ∀ (b : Bool) (c : Char), gnuNotDouble b c = false →
      c ≠ '"' ∧ c ≠ '$' ∧ c ≠ '`' ∧ c ≠ '\\' := by
    intro b c hc
    refine ⟨?_, ?_, ?_, ?_⟩ <;> rintro rfl <;> cases b <;> revert hc <;> decide
  cases s with
  | nil => nofun
  | cons c cs =>
    unfold gnuDouble at h
    rw [Bool.and_eq_true, Bool.not_eq_true'] at h
    intro x hx
    rcases List.mem_cons.1 hx with rfl | hx
    · exact hb true _ h.1
    · have := List.all_eq_true.1 h.2 x hx
      exact hb false x (by simpa using this)

/-- The shell reads what GNU `printf %q` prints as the original string, if all characters are
printable. -/
theorem reads_gnu {s : Str} (h : ∀ c ∈ s, Printable c) : Reads (gnuQuote s) s := by
  unfold gnuQuote
  by_cases h1 : gnuBare s = true
  · rw [if_pos h1]
    cases s with
    | nil => cases h1
    | cons c cs =>
      unfold gnuBare at h1
      simp only [Bool.and_eq_true, bne_iff_ne, ne_eq] at h1
      obtain ⟨⟨⟨h2, h3⟩, h4⟩, _⟩ := h1
      have hl : ∀ x ∈ c :: cs, Literal x := by
        intro x hx
        have := List.all_eq_true.1 h2 x hx
        exact literal_of_bare (h x hx) (by simpa using this)
      intro cur acc rest
      rw [List.cons_append, scan_char (hl c List.mem_cons_self) _ _ _ (fun _ => ⟨h3, h4⟩),
        scan_literal (fun x hx => hl x (List.mem_cons_of_mem _ hx))]
      simp
  · rw [if_neg h1]
    by_cases h2 : '\'' ∈ s ∧ gnuDouble s = true
    · rw [if_pos h2]
      exact reads_double (double_of h2.2)
    · rw [if_neg h2]
      exact reads_single s

/-- The texts are read as the words. -/
inductive AllRead : List Str → List Str → Prop where
  | nil : AllRead [] []
  | cons {t w ts ws} : ReadsWord t w → AllRead ts ws → AllRead (t :: ts) (w :: ws)

theorem AllRead.append {ts ws ts' ws' : List Str} (h : AllRead ts ws) (h' : AllRead ts' ws') :
    AllRead (ts ++ ts') (ws ++ ws') := by
  induction h with
  | nil => exact h'
  | cons ht _ ih => exact .cons ht ih

theorem scan_words {ts ws : List Str} (h : AllRead ts ws) (acc : List Str) :
    shScan .plain none acc (joinSpace ts) = some (acc ++ ws) := by
  induction h generalizing acc with
  | nil => simp [joinSpace, shScan]
  | @cons t w ts ws ht hts ih =>
    cases ts with
    | nil =>
      cases hts
      have := ht acc []
      rw [List.append_nil] at this
      simp only [joinSpace]
      rw [this]
      rfl
    | cons t' ts' =>
      rw [joinSpace]
      rw [ht, scan_plain, if_pos (.inl rfl)]
      simp only
      rw [ih]
      simp
      nofun

theorem shWords_of {ts ws : List Str} (h : AllRead ts ws) :
    shWords (joinSpace ts) = some ws := by
  unfold shWords
  rw [scan_words h]
  rfl

end Burl.Args
