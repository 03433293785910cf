import Verif.Args.Props
/-! C47: the command line of a wrapper. -/
namespace Burl.Args
open Burl

/-! ## C47 -/

/-- What parsing keeps of the repeated flags. -/
theorem parse_inv {d : Defaults} (n : Nat) : ∀ (args : List Str) (c c' : Config) (rest : List Str),
    args.length ≤ n → c.emacsArgs.Inv d.emacsArgs → c.scheme.Inv d.scheme →
    parse c args = .ok (c', rest) → c'.emacsArgs.Inv d.emacsArgs ∧ c'.scheme.Inv d.scheme := by
  have hset : ∀ (f : Flag) (v : Str) (c c' : Config), c.emacsArgs.Inv d.emacsArgs →
      c.scheme.Inv d.scheme → f.set v c = .ok c' →
      c'.emacsArgs.Inv d.emacsArgs ∧ c'.scheme.Inv d.scheme := by
    intro f v c c' h1 h2 hs
    unfold Flag.set at hs
    cases f <;> simp only at hs
    case scheme =>
      cases hm : c.scheme.set v with
      | err e => rw [hm] at hs; cases hs
      | panic => rw [hm] at hs; cases hs
      | ok m =>
        rw [hm] at hs
        cases hs
        exact ⟨h1, inv_set h2 hm⟩
    case emacsarg =>
      cases hm : c.emacsArgs.set v with
      | err e => rw [hm] at hs; cases hs
      | panic => rw [hm] at hs; cases hs
      | ok m =>
        rw [hm] at hs
        cases hs
        exact ⟨inv_set h1 hm, h2⟩
    case mozillaExtension =>
      cases hm : c.mozillaIds.set v with
      | err e => rw [hm] at hs; cases hs
      | panic => rw [hm] at hs; cases hs
      | ok m => rw [hm] at hs; cases hs; exact ⟨h1, h2⟩
    case chromeExtension =>
      cases hm : c.chromeIds.set v with
      | err e => rw [hm] at hs; cases hs
      | panic => rw [hm] at hs; cases hs
      | ok m => rw [hm] at hs; cases hs; exact ⟨h1, h2⟩
    case disableLinkSet =>
      cases hm : parseBool v with
      | err e => rw [hm] at hs; cases hs
      | panic => rw [hm] at hs; cases hs
      | ok m => rw [hm] at hs; cases hs; exact ⟨h1, h2⟩
    case force =>
      cases hm : parseBool v with
      | err e => rw [hm] at hs; cases hs
      | panic => rw [hm] at hs; cases hs
      | ok m => rw [hm] at hs; cases hs; exact ⟨h1, h2⟩
    case help =>
      cases hm : parseBool v with
      | err e => rw [hm] at hs; cases hs
      | panic => rw [hm] at hs; cases hs
      | ok m => rw [hm] at hs; cases hs; exact ⟨h1, h2⟩
    case version =>
      cases hm : parseBool v with
      | err e => rw [hm] at hs; cases hs
      | panic => rw [hm] at hs; cases hs
      | ok m => rw [hm] at hs; cases hs; exact ⟨h1, h2⟩
    all_goals (cases hs; exact ⟨h1, h2⟩)
  have hbind : ∀ (f : Flag) (v : Str) (c c' : Config) (rest args : List Str), args.length < n →
      (∀ (c1 : Config), c1.emacsArgs.Inv d.emacsArgs → c1.scheme.Inv d.scheme →
        parse c1 args = .ok (c', rest) →
        c'.emacsArgs.Inv d.emacsArgs ∧ c'.scheme.Inv d.scheme) →
      c.emacsArgs.Inv d.emacsArgs → c.scheme.Inv d.scheme →
      ((f.set v c).bind fun c1 => parse c1 args) = .ok (c', rest) →
      c'.emacsArgs.Inv d.emacsArgs ∧ c'.scheme.Inv d.scheme := by
    intro f v c c' rest args _ hrec h1 h2 h
    cases hs : f.set v c with
    | err e => rw [hs] at h; cases h
    | panic => rw [hs] at h; cases h
    | ok c1 =>
      rw [hs, Res.bind_ok] at h
      obtain ⟨h3, h4⟩ := hset f v c c1 h1 h2 hs
      exact hrec c1 h3 h4 h
  induction n with
  | zero =>
    intro args c c' rest hl h1 h2 h
    have : args = [] := List.length_eq_zero_iff.1 (Nat.le_zero.1 hl)
    subst this
    cases h
    exact ⟨h1, h2⟩
  | succ n ih =>
    intro args c c' rest hl h1 h2 h
    have ih' := ih (fun f v c c' rest args hlt hrec h1 h2 h =>
      hbind f v c c' rest args (by omega) hrec h1 h2 h)
    cases args with
    | nil => cases h; exact ⟨h1, h2⟩
    | cons a args =>
      have hla : args.length ≤ n := by simpa using hl
      rw [parse] at h
      split at h
      · cases h; exact ⟨h1, h2⟩
      · cases h; exact ⟨h1, h2⟩
      · cases h
      · split at h
        · cases h
        · split at h
          · exact hbind _ _ _ _ _ _ (by omega) (fun c1 => ih' args c1 c' rest hla) h1 h2 h
          · split at h
            · exact hbind _ _ _ _ _ _ (by omega) (fun c1 => ih' args c1 c' rest hla) h1 h2 h
            · cases args with
              | nil => cases h
              | cons v args' =>
                simp only [List.length_cons] at hla
                exact hbind _ _ _ _ _ _ (by omega)
                  (fun c1 => ih' args' c1 c' rest (by omega)) h1 h2 h

/-- The strings that are put into the command line of a wrapper. -/
def Config.strings (c : Config) : List Str :=
  c.logFile :: c.emacsCommand :: (c.emacsArgs.modifiedValues ++ c.scheme.modifiedValues ++
    c.sources.map Source.name)

/-- The words of the command line before quoting. -/
def Config.words (c : Config) : List Str :=
  ["--log".toList, c.logFile] ++
    (if c.disableLinkSet then ["--disable-link-set=true".toList] else []) ++
    (if c.emacsCommand != emacsclient then [c.emacsCommand] else []).map
      (fun v => "--emacsclient=".toList ++ v) ++
    c.emacsArgs.written.map (fun v => "--emacsarg=".toList ++ v) ++
    c.scheme.written.map (fun v => "--scheme=".toList ++ v) ++
    c.sources.map Source.word

/-- The configuration a program started with these words has. -/
def Config.restored (d : Defaults) (c : Config) : Config :=
  { Config.fresh d with
    logFile := c.logFile
    disableLinkSet := c.disableLinkSet
    emacsCommand := c.emacsCommand
    emacsArgs := c.emacsArgs
    scheme := c.scheme
    sources := c.sources }

theorem new_of_unmodified {ds : List Str} {f : MultiFlag} (h : f.Inv ds)
    (hm : ¬ f.isModified = true) : f = .new ds := by
  obtain ⟨slice, state, len⟩ := f
  cases state with
  | initial =>
    obtain ⟨h1, h2⟩ := h
    simp only at h1 h2
    subst h1 h2
    rfl
  | appended => exact absurd rfl hm
  | reset => exact absurd rfl hm

theorem parse_words {d : Defaults} {c : Config} (h1 : c.emacsArgs.Inv d.emacsArgs)
    (h2 : c.scheme.Inv d.scheme) : parse (.fresh d) c.words = .ok (c.restored d, []) := by
  have hw : c.words = "--log".toList :: c.logFile ::
    ((if c.disableLinkSet then ["--disable-link-set=true".toList] else []) ++
    ((if c.emacsCommand != emacsclient then [c.emacsCommand] else []).map
      (fun v => "--emacsclient=".toList ++ v) ++
    (c.emacsArgs.written.map (fun v => "--emacsarg=".toList ++ v) ++
    (c.scheme.written.map (fun v => "--scheme=".toList ++ v) ++
    (c.sources.map Source.word ++ []))))) := by
    unfold Config.words
    simp only [List.append_assoc, List.cons_append, List.nil_append, List.append_nil]
  rw [hw, parse_log]
  have e1 : ∀ (c0 : Config) (rest : List Str), c0.disableLinkSet = false →
      parse c0 ((if c.disableLinkSet then ["--disable-link-set=true".toList] else []) ++ rest) =
      parse { c0 with disableLinkSet := c.disableLinkSet } rest := by
    intro c0 rest h0
    cases hd : c.disableLinkSet with
    | false =>
      rw [if_neg nofun, ← h0]
      rfl
    | true => exact parse_disable c0 rest
  rw [e1 _ _ rfl]
  have e2 : ∀ (c0 : Config) (rest : List Str), c0.emacsCommand = emacsclient →
      parse c0 ((if c.emacsCommand != emacsclient then [c.emacsCommand] else []).map
        (fun v => "--emacsclient=".toList ++ v) ++ rest) =
      parse { c0 with emacsCommand := c.emacsCommand } rest := by
    intro c0 rest h0
    by_cases he : c.emacsCommand = emacsclient
    · rw [if_neg (by simp [he]), he, ← h0]
      rfl
    · rw [if_pos (by simpa using he)]
      exact parse_emacsclient _ c0 rest
  rw [e2 _ _ rfl]
  have e3 : ∀ (c0 : Config) (rest : List Str), c0.emacsArgs = .new d.emacsArgs →
      parse c0 (c.emacsArgs.written.map (fun v => "--emacsarg=".toList ++ v) ++ rest) =
      parse { c0 with emacsArgs := c.emacsArgs } rest := by
    intro c0 rest h0
    unfold MultiFlag.written
    by_cases hm : c.emacsArgs.isModified = true
    · rw [if_pos hm, parse_emacsarg, h0, replay_inv h1]
      rfl
    · rw [if_neg hm, new_of_unmodified h1 hm, ← h0]
      rfl
  rw [e3 _ _ rfl]
  have e4 : ∀ (c0 : Config) (rest : List Str), c0.scheme = .new d.scheme →
      parse c0 (c.scheme.written.map (fun v => "--scheme=".toList ++ v) ++ rest) =
      parse { c0 with scheme := c.scheme } rest := by
    intro c0 rest h0
    unfold MultiFlag.written
    by_cases hm : c.scheme.isModified = true
    · rw [if_pos hm, parse_scheme, h0, replay_inv h2]
      rfl
    · rw [if_neg hm, new_of_unmodified h2 hm, ← h0]
      rfl
  rw [e4 _ _ rfl, parse_sources]
  rfl

theorem quoteAll_read {α : Type} {quote : Str → Option Str} {pre str : α → Str}
    (l : List α) {ts : List Str} (h : quoteAll quote pre str l = some ts)
    (hpre : ∀ a, ReadsWord (pre a) (pre a))
    (hq : ∀ a ∈ l, ∀ q, quote (str a) = some q → Reads q (str a)) :
    AllRead ts (l.map fun a => pre a ++ str a) := by
  induction l generalizing ts with
  | nil =>
    cases h
    exact .nil
  | cons a l ih =>
    rw [quoteAll] at h
    cases hqa : quote (str a) with
    | none => rw [hqa] at h; cases h
    | some q =>
      rw [hqa, Option.bind_some] at h
      cases hl : quoteAll quote pre str l with
      | none => rw [hl] at h; cases h
      | some ts' =>
        rw [hl] at h
        cases h
        exact .cons (readsWord_append (hpre a) (hq a List.mem_cons_self q hqa))
          (ih hl (fun b hb => hq b (List.mem_cons_of_mem _ hb)))

theorem written_sub {f : MultiFlag} {v : Str} (h : v ∈ f.written) : v ∈ f.modifiedValues := by
  unfold MultiFlag.written at h
  split at h
  · exact h
  · cases h

theorem command_sub {s x : Str} (h : x ∈ (if s != emacsclient then [s] else [])) : x = s := by
  split at h
  · simpa using h
  · cases h

theorem source_prefix (k : Kind) :
    ReadsWord ("--".toList ++ k.flag ++ "=".toList) ("--".toList ++ k.flag ++ "=".toList) := by
  cases k with
  | org => exact readsWord_literal (c := '-') (by decide) (by decide) (by decide)
  | txt => exact readsWord_literal (c := '-') (by decide) (by decide) (by decide)

/-- The shell reads the generated arguments as the words before quoting. -/
theorem shell_words {quote : Str → Option Str} {c : Config} {ts : List Str}
    (h : asShellCommand quote c = some ts)
    (hq : ∀ s ∈ c.strings, ∀ q, quote s = some q → Reads q s) :
    shWords (joinSpace ts) = some c.words := by
  have hlog : ∀ q, quote c.logFile = some q → Reads q c.logFile :=
    hq _ List.mem_cons_self
  have hem : ∀ q, quote c.emacsCommand = some q → Reads q c.emacsCommand :=
    hq _ (List.mem_cons_of_mem _ List.mem_cons_self)
  have hea : ∀ v ∈ c.emacsArgs.modifiedValues, ∀ q, quote v = some q → Reads q v := by
    intro v hv
    exact hq v (List.mem_cons_of_mem _ (List.mem_cons_of_mem _
      (List.mem_append_left _ (List.mem_append_left _ hv))))
  have hsc : ∀ v ∈ c.scheme.modifiedValues, ∀ q, quote v = some q → Reads q v := by
    intro v hv
    exact hq v (List.mem_cons_of_mem _ (List.mem_cons_of_mem _
      (List.mem_append_left _ (List.mem_append_right _ hv))))
  have hso : ∀ s ∈ c.sources, ∀ q, quote s.name = some q → Reads q s.name := by
    intro s hs
    exact hq s.name (List.mem_cons_of_mem _ (List.mem_cons_of_mem _
      (List.mem_append_right _ (List.mem_map_of_mem hs))))
  apply shWords_of
  unfold asShellCommand at h
  cases h1 : quote c.logFile with
  | none => rw [h1] at h; cases h
  | some log =>
  rw [h1, Option.bind_some] at h
  generalize hp2 : quoteAll quote (fun _ => "--emacsclient=".toList) id
    (if c.emacsCommand != emacsclient then [c.emacsCommand] else []) = r2 at h
  cases r2 with
  | none => cases h
  | some emacs =>
  rw [Option.bind_some] at h
  generalize hp3 : quoteAll quote (fun _ => "--emacsarg=".toList) id c.emacsArgs.written = r3 at h
  cases r3 with
  | none => cases h
  | some eargs =>
  rw [Option.bind_some] at h
  generalize hp4 : quoteAll quote (fun _ => "--scheme=".toList) id c.scheme.written = r4 at h
  cases r4 with
  | none => cases h
  | some schemes =>
  rw [Option.bind_some] at h
  generalize hp5 : quoteAll quote (fun s => "--".toList ++ s.kind.flag ++ "=".toList) Source.name
    c.sources = r5 at h
  cases r5 with
  | none => cases h
  | some srcs =>
  rw [Option.bind_some] at h
  rw [← Option.some.inj h]
  unfold Config.words
  refine AllRead.append (AllRead.append (AllRead.append (AllRead.append (AllRead.append ?_ ?_) ?_)
    ?_) ?_) ?_
  · exact .cons (readsWord_literal (c := '-') (by decide) (by decide) (by decide))
      (.cons (reads_word (hlog _ h1)) .nil)
  · cases c.disableLinkSet with
    | false => exact .nil
    | true => exact .cons (readsWord_literal (c := '-') (by decide) (by decide) (by decide)) .nil
  · exact quoteAll_read _ hp2
      (fun _ => readsWord_literal (c := '-') (by decide) (by decide) (by decide))
      (fun x hx => by rw [command_sub hx]; exact hem)
  · exact quoteAll_read _ hp3
      (fun _ => readsWord_literal (c := '-') (by decide) (by decide) (by decide))
      (fun x hx => hea x (written_sub hx))
  · exact quoteAll_read _ hp4
      (fun _ => readsWord_literal (c := '-') (by decide) (by decide) (by decide))
      (fun x hx => hsc x (written_sub hx))
  · exact quoteAll_read _ hp5 (fun s => source_prefix s.kind) hso

/-- The settings that a wrapper has to keep. -/
def SameSettings (a b : Config) : Prop :=
  a.logFile = b.logFile ∧ a.disableLinkSet = b.disableLinkSet ∧ a.emacsCommand = b.emacsCommand ∧
    a.emacsArgs.values = b.emacsArgs.values ∧ a.scheme.values = b.scheme.values ∧
    a.sources = b.sources ∧ a.scheme.isModified = b.scheme.isModified

/-- The command line starts the backend: no file is to be generated, no help is requested. -/
def StartsBackend (c : Config) : Prop :=
  c.wrapper = [] ∧ c.firefox = [] ∧ c.chrome = [] ∧ c.help = false ∧ c.version = false

/-- **C47.** For a configuration that comes from any command line and is made independent of the
current directory: the arguments in the generated wrapper, when read by the shell and parsed by a
freshly started backend, give the same settings and start the backend, provided that the quoting
is one the shell reads back. -/
theorem c47_round_trip {d : Defaults} {args : List Str} {c c0 : Config} {exe : Res Unit Str}
    {abs real : Str → Res Unit Str} {e : Str} {quote : Str → Option Str} {ts : List Str}
    (hcmd : commandLine d args = .ok c) (hfix : c.fixPaths exe abs real = .ok (e, c0))
    (hsh : asShellCommand quote c0 = some ts)
    (hq : ∀ s ∈ c0.strings, ∀ q, quote s = some q → Reads q s) :
    ∃ ws c1, shWords (joinSpace ts) = some ws ∧ commandLine d ws = .ok c1 ∧
      SameSettings c1 c0 ∧ StartsBackend c1 := by
  have hinv : c0.emacsArgs.Inv d.emacsArgs ∧ c0.scheme.Inv d.scheme := by
    have hc : c0.emacsArgs = c.emacsArgs ∧ c0.scheme = c.scheme := by
      unfold Config.fixPaths at hfix
      cases exe with
      | err _ => cases hfix
      | panic => cases hfix
      | ok e' =>
        rw [Res.bind_ok] at hfix
        generalize (if c.logFile ≠ [] ∧ c.logFile ≠ dash then abs c.logFile
          else Res.ok c.logFile) = r at hfix
        cases r with
        | err _ => cases hfix
        | panic => cases hfix
        | ok log =>
          rw [Res.bind_ok] at hfix
          cases hs : fixSources real c.sources with
          | err _ => rw [hs] at hfix; cases hfix
          | panic => rw [hs] at hfix; cases hfix
          | ok ss =>
            rw [hs] at hfix
            cases hfix
            exact ⟨rfl, rfl⟩
    rw [hc.1, hc.2]
    unfold commandLine at hcmd
    cases hp : parse (.fresh d) args with
    | err _ => rw [hp] at hcmd; cases hcmd
    | panic => rw [hp] at hcmd; cases hcmd
    | ok r =>
      rw [hp] at hcmd
      cases hcmd
      exact parse_inv _ args _ r.1 r.2 (Nat.le_refl _) (inv_new _) (inv_new _) hp
  refine ⟨c0.words, c0.restored d, shell_words hsh hq, ?_, ⟨rfl, rfl, rfl, rfl, rfl, rfl, rfl⟩,
    ⟨rfl, rfl, rfl, rfl, rfl⟩⟩
  unfold commandLine
  rw [parse_words hinv.1 hinv.2]
  rfl

/-- **C47 (part).** The same with the quoting of GNU `printf`, for settings of printable
characters. -/
theorem c47_printable_partial {d : Defaults} {args : List Str} {c c0 : Config}
    {exe : Res Unit Str} {abs real : Str → Res Unit Str} {e : Str} {quote : Str → Option Str}
    (hgnu : ∀ s, (∀ ch ∈ s, Printable ch) → quote s = some (gnuQuote s))
    (hprint : ∀ s ∈ c0.strings, ∀ ch ∈ s, Printable ch)
    (hcmd : commandLine d args = .ok c) (hfix : c.fixPaths exe abs real = .ok (e, c0)) :
    ∃ ts ws c1, asShellCommand quote c0 = some ts ∧ shWords (joinSpace ts) = some ws ∧
      commandLine d ws = .ok c1 ∧ SameSettings c1 c0 ∧ StartsBackend c1 := by
  have hreads : ∀ s ∈ c0.strings, ∀ q, quote s = some q → Reads q s := by
    intro s hs q hqq
    rw [hgnu s (hprint s hs)] at hqq
    cases hqq
    exact reads_gnu (hprint s hs)
  have hall : ∀ {α : Type} (l : List α) (str pre : α → Str),
      (∀ a ∈ l, str a ∈ c0.strings) → ∃ ts, quoteAll quote pre str l = some ts := by
    intro α l str pre hl
    induction l with
    | nil => exact ⟨[], rfl⟩
    | cons a l ih =>
      obtain ⟨ts, hts⟩ := ih (fun b hb => hl b (List.mem_cons_of_mem _ hb))
      rw [quoteAll, hts, hgnu _ (hprint _ (hl a List.mem_cons_self))]
      exact ⟨_, rfl⟩
  have hsh : ∃ ts, asShellCommand quote c0 = some ts := by
    unfold asShellCommand
    rw [hgnu c0.logFile (hprint _ List.mem_cons_self)]
    obtain ⟨t2, h2⟩ := hall (if c0.emacsCommand != emacsclient then [c0.emacsCommand] else []) id
      (fun _ => "--emacsclient=".toList) (fun v hv => by
        rw [command_sub hv]
        exact List.mem_cons_of_mem _ List.mem_cons_self)
    obtain ⟨t3, h3⟩ := hall c0.emacsArgs.written id (fun _ => "--emacsarg=".toList)
      (fun v hv => List.mem_cons_of_mem _ (List.mem_cons_of_mem _
        (List.mem_append_left _ (List.mem_append_left _ (written_sub hv)))))
    obtain ⟨t4, h4⟩ := hall c0.scheme.written id (fun _ => "--scheme=".toList)
      (fun v hv => List.mem_cons_of_mem _ (List.mem_cons_of_mem _
        (List.mem_append_left _ (List.mem_append_right _ (written_sub hv)))))
    obtain ⟨t5, h5⟩ := hall c0.sources Source.name
      (fun s => "--".toList ++ s.kind.flag ++ "=".toList)
      (fun s hs => List.mem_cons_of_mem _ (List.mem_cons_of_mem _
        (List.mem_append_right _ (List.mem_map_of_mem hs))))
    rw [h2, h3, h4, h5]
    exact ⟨_, rfl⟩
  obtain ⟨ts, hts⟩ := hsh
  obtain ⟨ws, c1, h1, h2, h3, h4⟩ := c47_round_trip hcmd hfix hts hreads
  exact ⟨ts, ws, c1, hts, h1, h2, h3, h4⟩

/-- **C47 fails** for names with control characters when `/bin/sh` is `dash`: for a line feed GNU
`printf %q` prints `$'\n'`, which is not a quoting of that shell. -/
theorem c47_violation :
    shWords "--log - --org='/a'$'\\n''b'".toList =
      some ["--log".toList, "-".toList, "--org=/a$\\nb".toList] ∧
    (∀ d c, commandLine d ["--log".toList, "-".toList, "--org=/a$\\nb".toList] = .ok c →
      c.sources ≠ [⟨.org, "/a\nb".toList⟩]) := by
  constructor
  · decide +kernel
  · intro d c h hs
    have h1 : ["--org=/a$\\nb".toList] = [Source.mk .org "/a$\\nb".toList].map Source.word ++ [] := by
      decide +kernel
    unfold commandLine at h
    rw [parse_log, h1, parse_sources] at h
    cases h
    revert hs
    show [Source.mk .org "/a$\\nb".toList] = _ → False
    decide +kernel

/-! ## Examples -/

private def exDefaults : Defaults := ⟨["-n".toList], ["http".toList, "https".toList], [], []⟩

private def exArgs : List Str :=
  ["-log".toList, "my log".toList, "--scheme".toList, "ftp".toList, "-emacsarg=".toList,
   "-emacsarg=it's".toList, "-disable-link-set".toList, "--txt".toList, "a".toList,
   "b.org".toList, "c.txt".toList]

/-- A command line with everything in it. -/
example : ((commandLine exDefaults exArgs).bind fun c => .ok (c.sources, c.scheme.values,
      c.emacsArgs.values, (asShellCommand (fun s => some (gnuQuote s)) c).map joinSpace)) =
    .ok ([⟨.txt, "a".toList⟩, ⟨.org, "b.org".toList⟩, ⟨.txt, "c.txt".toList⟩],
      ["http".toList, "https".toList, "ftp".toList], ["it's".toList],
      some ("--log 'my log' --disable-link-set=true --emacsarg='' --emacsarg=\"it's\" " ++
        "--scheme=ftp --txt=a --org=b.org --txt=c.txt").toList) := by decide +kernel

end Burl.Args
