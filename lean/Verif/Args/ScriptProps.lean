import Verif.Args.Script
import Verif.Args.Text
import Verif.Args.CommandProps
import Verif.Args.InstallProps
import Verif.JsonText.Utf8
/-! C74: what a generated wrapper does. -/
namespace Burl.Args
open Burl Burl.File

theorem shLine_plain (vars : Str → Option Str) (cur : Option Str) (acc : List Str) (c : Char) (cs : Str) :
    shLine vars (.base .plain) cur acc (c :: cs) =
    if c = ' ' ∨ c = '\t' then shLine vars (.base .plain) none (acc ++ cur.toList) cs
    else if c = '\n' then some (acc ++ cur.toList, false, cs)
    else if c = '&' then
      match cs with
      | '&' :: cs' => some (acc ++ cur.toList, true, cs')
      | _ => none
    else if c = '\'' then shLine vars (.base .single) (some (cur.getD [])) acc cs
    else if c = '"' then shLine vars (.base .double) (some (cur.getD [])) acc cs
    else if c = '\\' then shLine vars (.base .esc) cur acc cs
    else if c = '$' then shLine vars (.base .dollar) cur acc cs
    else if special c ∨ (cur = none ∧ (c = '#' ∨ c = '~')) then none
    else shLine vars (.base .plain) (some (cur.getD [] ++ [c])) acc cs := by
  cases cs <;> rfl

/-- A line of words is read by both readers in the same way. -/
theorem shLine_of_scan (vars : Str → Option Str) (pre : List Str) (rest : Str) (t : Str) :
    ∀ (m : Mode) (cur : Option Str) (acc ws : List Str), shScan m cur acc t = some ws →
      shLine vars (.base m) cur (pre ++ acc) (t ++ '\n' :: rest) = some (pre ++ ws, false, rest) := by
  induction t with
  | nil =>
    intro m cur acc ws h
    cases m with
    | plain =>
      rw [List.nil_append, shLine_plain, if_neg (by decide), if_pos rfl]
      cases cur with
      | none => rw [shScan] at h; cases h; simp
      | some w => rw [shScan] at h; cases h; simp
    | dollar =>
      rw [shScan] at h
      cases h
      rw [List.nil_append, shLine, if_neg (by decide), if_neg (by decide), if_pos rfl]
      simp
    | _ => cases h
  | cons c cs ih =>
    intro m cur acc ws h
    rw [List.cons_append]
    cases m with
    | plain =>
      rw [scan_plain] at h
      rw [shLine_plain]
      split at h
      · rw [if_pos ‹_›]
        cases cur with
        | none => simpa using ih _ _ _ _ h
        | some w =>
          rw [List.append_assoc]
          exact ih _ _ _ _ h
      · rw [if_neg ‹_›]
        by_cases hs : special c = true
        · have h1 : c ≠ '\'' := by intro e; subst e; simp [special] at hs
          have h2 : c ≠ '"' := by intro e; subst e; simp [special] at hs
          have h3 : c ≠ '\\' := by intro e; subst e; simp [special] at hs
          have h4 : c ≠ '$' := by intro e; subst e; simp [special] at hs
          rw [if_neg h1, if_neg h2, if_neg h3, if_neg h4, if_pos (.inl hs)] at h
          cases h
        · have h1 : c ≠ '\n' := by intro e; subst e; simp [special] at hs
          have h2 : c ≠ '&' := by intro e; subst e; simp [special] at hs
          rw [if_neg h1, if_neg h2]
          repeat'
            first
            | (split at h
               · rw [if_pos ‹_›]
                 first
                 | cases h
                 | exact ih _ _ _ _ h
               rw [if_neg ‹_›])
          exact ih _ _ _ _ h
    | esc =>
      rw [shScan] at h
      rw [shLine]
      split at h
      · rw [if_pos ‹_›]; exact ih _ _ _ _ h
      · rw [if_neg ‹_›]; exact ih _ _ _ _ h
    | dollar =>
      rw [shScan] at h
      rw [shLine]
      split at h
      · rw [if_pos ‹_›]; exact ih _ _ _ _ h
      rw [if_neg ‹_›]
      split at h
      · rw [if_pos ‹_›]; exact ih _ _ _ _ h
      cases h
    | single =>
      rw [shScan] at h
      rw [shLine]
      split at h
      · rw [if_pos ‹_›]; exact ih _ _ _ _ h
      · rw [if_neg ‹_›]; exact ih _ _ _ _ h
    | double =>
      rw [shScan] at h
      rw [shLine]
      split at h
      · rw [if_pos ‹_›]; exact ih _ _ _ _ h
      rw [if_neg ‹_›]
      split at h
      · cases h
      rename_i hn
      rw [if_neg (fun e => hn (.inl e)), if_neg (fun e => hn (.inr e))]
      split at h
      · rw [if_pos ‹_›]; exact ih _ _ _ _ h
      · rw [if_neg ‹_›]; exact ih _ _ _ _ h
    | escDouble =>
      rw [shScan] at h
      rw [shLine]
      split at h
      · rw [if_pos ‹_›]; exact ih _ _ _ _ h
      rw [if_neg ‹_›]
      split at h
      · rw [if_pos ‹_›]; exact ih _ _ _ _ h
      · rw [if_neg ‹_›]; exact ih _ _ _ _ h

/-- What the script does when the backend can not be executed; C48 is about it. -/
def report : Str :=
  ("err=\"{\\\"error\\\": \\\"$(printf '%s' \"$BURL_BACKEND\" | tr '\\\\\"' \"/'\"): " ++
   "file not found or not executable\\\"}\"\n" ++
   "# platform endian-dependent hack\n" ++
   "/usr/bin/printf \"\\\\x$(printf '%x' \"${#err}\")\\\\x00\\\\x00\\\\x00\"\n" ++
   "printf '%s' \"$err\"\n").toList

/-- The name of the variable. -/
def backendVar : Str := "BURL_BACKEND".toList

theorem script_exec (v : Str) (ts ws : List Str) (rest : Str)
    (h : shWords (joinSpace ts) = some ws) :
    shLine (fun x => List.lookup x [(backendVar, v)]) (.base .plain) none []
      (" \\\n\texec \"$BURL_BACKEND\" ".toList ++ (joinSpace ts ++ '\n' :: rest)) =
      some ("exec".toList :: v :: ws, false, rest) := by
  have h1 := shLine_of_scan (fun x => List.lookup x [(backendVar, v)]) ["exec".toList, v] rest _ _ _ _ _ h
  rw [List.append_nil] at h1
  exact h1

theorem script_test (v : Str) (rest : Str) :
    shLine (fun x => List.lookup x [(backendVar, v)]) (.base .plain) none []
      ("-x \"$BURL_BACKEND\" ] &&".toList ++ rest) =
      some (["-x".toList, v, "]".toList], true, rest) := rfl

theorem scan_acc (pre : List Str) (t : Str) : ∀ (m : Mode) (cur : Option Str) (acc : List Str),
    shScan m cur (pre ++ acc) t = (shScan m cur acc t).map (pre ++ ·) := by
  induction t with
  | nil =>
    intro m cur acc
    cases m <;> cases cur <;> simp [shScan]
  | cons c cs ih =>
    intro m cur acc
    cases m with
    | plain =>
      rw [scan_plain, scan_plain]
      by_cases h : c = ' ' ∨ c = '\t'
      · rw [if_pos h, if_pos h]
        cases cur with
        | none => exact ih _ _ _
        | some w =>
          simp only [List.append_assoc]
          exact ih _ _ _
      · rw [if_neg h, if_neg h]
        repeat' split
        all_goals first | exact ih _ _ _ | rfl
    | _ =>
      rw [shScan, shScan]
      repeat' split
      all_goals first | exact ih _ _ _ | rfl

theorem reads_head {q s : Str} (h : Reads q s) :
    q.head? ≠ some ' ' ∧ q.head? ≠ some '\t' ∧ q ≠ [] := by
  have key : ∀ c t, q = c :: t → ¬(c = ' ' ∨ c = '\t') := by
    rintro c t rfl hc
    have h1 := h none [] []
    have h2 := h (some ['a']) [] []
    rw [List.append_nil] at h1 h2
    rw [scan_plain, if_pos hc] at h1 h2
    have h3 := scan_acc [['a']] t .plain none []
    simp only [List.nil_append, List.append_nil] at h1 h2 h3
    rw [h3, h1] at h2
    simp [shScan] at h2
  refine ⟨?_, ?_, ?_⟩
  · intro e
    cases q with
    | nil => cases e
    | cons c t => exact key c t rfl (.inl (Option.some.inj e))
  · intro e
    cases q with
    | nil => cases e
    | cons c t => exact key c t rfl (.inr (Option.some.inj e))
  · rintro rfl
    have h1 := h none [] []
    simp [shScan] at h1

theorem run_comment (n : Nat) (executable : Str → Bool) (vars : List (Str × Str)) {t : Str}
    (h : '\n' ∉ t) (rest : Str) :
    shRun executable (n + 1) vars ('#' :: (t ++ '\n' :: rest)) = shRun executable n vars rest := by
  have key : ∀ u : Str, '\n' ∉ u → afterLine (u ++ '\n' :: rest) = rest := by
    intro u hu
    induction u with
    | nil => rw [List.nil_append, afterLine, if_pos rfl]
    | cons c u ih =>
      rw [List.cons_append, afterLine, if_neg (fun e => hu (by rw [e]; exact List.mem_cons_self))]
      exact ih fun hm => hu (List.mem_cons_of_mem _ hm)
  rw [shRun, ← List.cons_append, key ('#' :: t)]
  intro hm
  rcases List.mem_cons.1 hm with hm | hm
  · revert hm; decide
  · exact h hm

theorem script_assign (n : Nat) (executable : Str → Bool) {e exe : Str} (h : Reads e exe) (rest : Str) :
    shRun executable (n + 1) [] ('B' :: ("URL_BACKEND=".toList ++ (e ++ '\n' :: rest))) =
      shRun executable n [(backendVar, exe)] rest := by
  have h1 := reads_head h
  have h2 : shScan .plain none [] e = some [exe] := by
    have := h none [] []
    rw [List.append_nil] at this
    rw [this]
    rfl
  have h3 := shLine_of_scan (fun x => List.lookup x []) [] rest _ _ _ _ _ h2
  simp only [List.nil_append] at h3
  have h4 : (e ++ '\n' :: rest).head? = e.head? := by
    cases e with
    | nil => exact absurd rfl h1.2.2
    | cons c e => rfl
  have h5 : ∀ t, assigned ('B' :: ("URL_BACKEND=".toList ++ t)) = some (backendVar, t) := fun t => rfl
  rw [shRun]
  · rw [h5]
    simp only
    rw [if_neg, h3]
    rw [h4]
    rintro (h | h | h)
    · revert h; decide
    · exact h1.1 h
    · exact h1.2.1 h
  · intro t ht
    cases ht
  · intro t ht
    cases ht

theorem run_test (n : Nat) (executable : Str → Bool) (v : Str) {ts ws : List Str}
    (hw : shWords (joinSpace ts) = some ws) (rest : Str) :
    shRun executable (n + 1) [(backendVar, v)] ('[' :: ' ' :: ("-x \"$BURL_BACKEND\" ] &&".toList ++
         (" \\\n\texec \"$BURL_BACKEND\" ".toList ++ (joinSpace ts ++ '\n' :: rest)))) =
      if executable v then .exec v ws else shRun executable n [(backendVar, v)] rest := by
  rw [shRun]
  rw [script_test]
  simp only [and_self, if_true]
  rw [script_exec v ts ws rest hw]
  simp only [if_true]

theorem wrapper_run (n : Nat) (executable : Str → Bool) {e exe : Str} (h : Reads e exe) {ts ws : List Str}
    (hw : shWords (joinSpace ts) = some ws) :
    shRun executable (n + 5) [] (wrapperText e ts) =
      if executable exe then .exec exe ws else shRun executable n [(backendVar, exe)] report := by
  have a0 : "#!/bin/sh -eu\nBURL_BACKEND=".toList = '#' :: ("!/bin/sh -eu".toList ++ '\n' ::
      'B' :: "URL_BACKEND=".toList) := by decide +kernel
  have a1 : "\n# Execution aborted on not found file even without \"-e\" option.\n".toList =
      '\n' :: '#' :: (" Execution aborted on not found file even without \"-e\" option.".toList ++
        ['\n']) := by decide +kernel
  have a2 : "# \"trap HANDLER EXIT\" is ignored as well. So a test is required.\n".toList =
      '#' :: (" \"trap HANDLER EXIT\" is ignored as well. So a test is required.".toList ++ ['\n']) := by
    decide +kernel
  have a3 : "[ -x \"$BURL_BACKEND\" ] && \\\n\texec \"$BURL_BACKEND\" ".toList =
      '[' :: ' ' :: ("-x \"$BURL_BACKEND\" ] &&".toList ++
        " \\\n\texec \"$BURL_BACKEND\" ".toList) := by decide +kernel
  have a4 : "\nerr=\"{\\\"error\\\": \\\"$(printf '%s' \"$BURL_BACKEND\" | tr '\\\\\"' \"/'\"): ".toList =
      '\n' :: "err=\"{\\\"error\\\": \\\"$(printf '%s' \"$BURL_BACKEND\" | tr '\\\\\"' \"/'\"): ".toList := by
    decide +kernel
  have e1 : wrapperText e ts = '#' :: ("!/bin/sh -eu".toList ++ '\n' ::
      'B' :: ("URL_BACKEND=".toList ++ (e ++ '\n' ::
      '#' :: (" Execution aborted on not found file even without \"-e\" option.".toList ++ '\n' ::
       '#' :: (" \"trap HANDLER EXIT\" is ignored as well. So a test is required.".toList ++ '\n' ::
       '[' :: ' ' :: ("-x \"$BURL_BACKEND\" ] &&".toList ++
         (" \\\n\texec \"$BURL_BACKEND\" ".toList ++ (joinSpace ts ++ '\n' :: report)))))))) := by
    unfold wrapperText report
    simp only [String.toList_append, a0, a1, a2, a3, a4, List.append_assoc, List.cons_append,
      List.nil_append]
  rw [e1, run_comment (n + 4) _ _ (by decide +kernel), script_assign (n + 3) executable h,
    run_comment (n + 2) _ _ (by decide +kernel),
    run_comment (n + 1) _ _ (by decide +kernel), run_test n _ _ hw]

theorem report_stops (executable : Str → Bool) (n : Nat) (vars : List (Str × Str)) :
    shRun executable n vars report = .at vars report := by
  cases n with
  | zero => rfl
  | succ n =>
    have a : report = 'e' :: ("rr=".toList ++ ("\"{\\\"error\\\": \\\"$(".toList ++
        ("printf '%s' \"$BURL_BACKEND\" | tr '\\\\\"' \"/'\"): " ++
          "file not found or not executable\\\"}\"\n" ++
          "# platform endian-dependent hack\n" ++
          "/usr/bin/printf \"\\\\x$(printf '%x' \"${#err}\")\\\\x00\\\\x00\\\\x00\"\n" ++
          "printf '%s' \"$err\"\n").toList)) := by decide +kernel
    rw [a]
    generalize ("printf '%s' \"$BURL_BACKEND\" | tr '\\\\\"' \"/'\"): " ++
          "file not found or not executable\\\"}\"\n" ++
          "# platform endian-dependent hack\n" ++
          "/usr/bin/printf \"\\\\x$(printf '%x' \"${#err}\")\\\\x00\\\\x00\\\\x00\"\n" ++
          "printf '%s' \"$err\"\n").toList = t
    have h1 : ∀ t, assigned ('e' :: ("rr=".toList ++ t)) = some ("err".toList, t) := fun t => rfl
    have h2 : shLine (fun x => vars.lookup x) (.base .plain) none []
        ("\"{\\\"error\\\": \\\"$(".toList ++ t) = none := rfl
    rw [shRun]
    · rw [h1]
      simp only
      rw [h2]
      split <;> rfl
    · intro t ht
      cases ht
    · intro t ht
      cases ht

theorem wrapper_script (executable : Str → Bool) {e exe : Str} (h : Reads e exe) {ts ws : List Str}
    (hw : shWords (joinSpace ts) = some ws) :
    runScript executable (wrapperText e ts) =
      if executable exe then .exec exe ws else .at [(backendVar, exe)] report := by
  have hl : 5 ≤ (wrapperText e ts).length := by
    unfold wrapperText
    rw [List.append_assoc, List.append_assoc, List.append_assoc, List.length_append]
    have : 5 ≤ "#!/bin/sh -eu\nBURL_BACKEND=".toList.length := by decide +kernel
    omega
  obtain ⟨n, hn⟩ := Nat.exists_eq_add_of_le' hl
  unfold runScript
  rw [hn, wrapper_run n executable h hw, report_stops]

theorem utf8_string (t : Str) : JsonText.utf8 t = t.flatMap String.utf8EncodeChar := by
  unfold JsonText.utf8
  exact congrArg (t.flatMap ·) (funext JsonText.putRune_eq)

namespace Spec

/-- Values are quoted in a way that the shell understands (see C47). -/
def QuotedFor (env : Env) (c : Config) : Prop :=
  ∀ exe c', c.fixPaths env.exe (absOf env) env.real = .ok (exe, c') →
    ∀ s ∈ exe :: c'.strings, ∀ q, env.quote s = some q → Reads q s

/-- A file with the text of a script for `/bin/sh`. -/
structure ShellFile (bytes : Bytes) (t : Str) : Prop where
  text : bytes = t.flatMap String.utf8EncodeChar
  interpreter : "#!/bin/sh -eu\n".toList <+: t

end Spec
open Spec

/-- **C74.** A generated wrapper, run by the shell, is replaced by the backend it was generated by,
with arguments that a backend reads as the settings given when the wrapper was generated, with paths
made absolute.  If the file of the backend is not executable then nothing is executed and an error is
reported as in C48. -/
theorem c74_script (short : Bool) {d : Defaults} {args : List Str} {names : Names} {env : Env} {c : Config}
    {x : Write} {t : Str} (hcmd : commandLine d args = .ok c) (hq : QuotedFor env c)
    (hx : x ∈ (install names env c).2) (ht : x.doc = .wrapper t) :
    ShellFile (x.doc.content short) t ∧
    ∃ exe c' ws c1, env.exe = .ok exe ∧ c.fixPaths env.exe (absOf env) env.real = .ok (exe, c') ∧
      (∀ executable, runScript executable t =
        if executable exe then .exec exe ws else .at [(backendVar, exe)] report) ∧
      commandLine d ws = .ok c1 ∧ SameSettings c1 c' ∧ StartsBackend c1 := by
  obtain ⟨exe, c', path, e, ts, h1, -, h3, h4, -, -, h5, -, -⟩ := wrapper_writes hx ht
  refine ⟨⟨?_, ?_⟩, ?_⟩
  · rw [ht]
    exact utf8_string t
  · subst h5
    unfold wrapperText
    have : "#!/bin/sh -eu\nBURL_BACKEND=".toList = "#!/bin/sh -eu\n".toList ++ "BURL_BACKEND=".toList := by
      decide +kernel
    rw [this]
    simp only [List.append_assoc]
    exact List.prefix_append _ _
  · have hr := hq exe c' h1
    obtain ⟨ws, c1, g1, g2, g3, g4⟩ := c47_round_trip hcmd h1 h4
      fun s hs => hr s (List.mem_cons_of_mem _ hs)
    refine ⟨exe, c', ws, c1, fixPaths_exe h1, h1, fun X => ?_, g2, g3, g4⟩
    subst h5
    exact wrapper_script X (hr exe List.mem_cons_self e h3) g1

/-- **C74 (part).** In particular for paths and settings of printable characters quoted by GNU `printf`.
Missing: other characters, see `c74_violation_newline`. -/
theorem c74_printable_partial {env : Env} {c : Config}
    (hgnu : ∀ s, (∀ ch ∈ s, Printable ch) → env.quote s = some (gnuQuote s))
    (hprint : ∀ exe c', c.fixPaths env.exe (absOf env) env.real = .ok (exe, c') →
      ∀ s ∈ exe :: c'.strings, ∀ ch ∈ s, Printable ch) : QuotedFor env c := by
  intro exe c' h s hs q hqq
  rw [hgnu s (hprint exe c' h s hs)] at hqq
  cases hqq
  exact reads_gnu (hprint exe c' h s hs)

/-- **C74 fails** for a backend in a directory with a line feed in its name, `/a⏎b`, for which
`printf %q` gives `'/a'$'\n''b'`: `dash` takes it for another name, so the backend is not executed
though it is executable. -/
theorem c74_violation_newline :
    runScript (fun f => f = "/a\nb".toList) (wrapperText "'/a'$'\\n''b'".toList ["--log".toList, "-".toList]) =
      .at [(backendVar, "/a$\\nb".toList)] report := by
  decide +kernel

/-- Non-vacuity: a script for `/it's` with a source that has a space in its name. -/
example : runScript (fun _ => true)
    (wrapperText (gnuQuote "/it's".toList) ["--log".toList, "-".toList, "--org='/a b'".toList]) =
      .exec "/it's".toList ["--log".toList, "-".toList, "--org=/a b".toList] := by decide +kernel

private def exConfig : Config where
  logFile := "-".toList
  disableLinkSet := true
  emacsCommand := emacsclient
  emacsArgs := .new []
  scheme := .new []
  sources := [⟨.org, "/a b".toList⟩]
  backendName := "io.burl".toList
  wrapper := "/d/w".toList
  firefox := []
  chrome := "/d".toList
  force := false
  mozillaIds := .new []
  chromeIds := .new ["id".toList]
  help := false
  version := false

private def exEnv : Env where
  exe := .ok "/it's".toList
  wd := none
  stat := fun _ p => if p = "/d".toList then .dir else .missing
  real := fun p => .ok p
  quote := fun s => some (gnuQuote s)
  write := fun _ _ => true

/-- Non-vacuity: a run that makes a script and a manifest, the hypotheses of `c74_script` hold for it. -/
example : (install ⟨"burl".toList, "Burl".toList⟩ exEnv exConfig).2.map (fun x => (x.path,
      match x.doc with
      | .wrapper t => some (runScript (fun _ => true) t)
      | .manifest _ => none)) =
    [("/d/w".toList, some (.exec "/it's".toList
      ["--log".toList, "-".toList, "--disable-link-set=true".toList, "--org=/a b".toList])),
     ("/d/io.burl.json".toList, none)] := by decide +kernel

example : QuotedFor exEnv exConfig := by
  refine c74_printable_partial (fun s _ => rfl) ?_
  intro exe c' h
  have h1 : exConfig.fixPaths exEnv.exe (absOf exEnv) exEnv.real = .ok ("/it's".toList, exConfig) := rfl
  rw [h1] at h
  cases h
  decide +kernel

end Burl.Args
