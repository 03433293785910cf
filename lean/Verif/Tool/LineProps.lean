import Verif.Tool.Line
import Verif.Tool.Props
import Verif.Tool.ClientProps
import Verif.Links.SetFoundProps
/-! `burl_tool` from its command line (C64). -/
namespace Burl.Tool.Line
open Burl Burl.Extract
open Burl.Tree (Heap Addr IsReply)
open Burl.Tree.Spec (Part linksAll links matching)
open Burl.Tool.Client (classify_plain classify_stop splitEq_some)
open Burl.Tool.Client.Spec (NotOption dashes)
open Burl.Extract.Spec (untilFailure)

namespace Spec

/-- An option of the command line. -/
inductive Opt where
  | org (name : Str) | txt (name : Str) | set (pre : Str)

def Opt.name : Opt → Str
  | .org _ => "org".toList
  | .txt _ => "txt".toList
  | .set _ => "set".toList

def Opt.value : Opt → Str
  | .org v | .txt v | .set v => v

/-- How an option may be written: with one or two dashes, in one or two words. -/
inductive Words (o : Opt) : List Str → Prop where
  | two {d} : d = "-".toList ∨ d = "--".toList → Words o [d ++ o.name, o.value]
  | one {d} : d = "-".toList ∨ d = "--".toList → Words o [d ++ o.name ++ "=".toList ++ o.value]

/-- Several options. -/
inductive AllWords : List Opt → List Str → Prop where
  | nil : AllWords [] []
  | cons {o os w ws} : Words o w → AllWords os ws → AllWords (o :: os) (w ++ ws)

/-- A command line: options, then arguments.  `--` may stand between them, it is needed if the first
argument looks like an option. -/
inductive Written (os : List Opt) (rest : List Str) : List Str → Prop where
  | plain {ws} : AllWords os ws → (∀ a, rest.head? = some a → NotOption a) → Written os rest (ws ++ rest)
  | dashes {ws} : AllWords os ws → Written os rest (ws ++ dashes :: rest)

/-- A word that asks for help; a value after `=` does not matter. -/
def HelpWord (w : Str) : Prop :=
  ∃ d n v, (d = "-".toList ∨ d = "--".toList) ∧ (n = "h".toList ∨ n = "help".toList) ∧
    (v = [] ∨ "=".toList <+: v) ∧ w = d ++ n ++ v

/-- Prefixes given by options. -/
def prefixes : List Opt → List Str
  | [] => []
  | .set p :: os => p :: prefixes os
  | _ :: os => prefixes os

/-- Files given by options. -/
def typed : List Opt → List Source
  | [] => []
  | .org n :: os => ⟨.org, n⟩ :: typed os
  | .txt n :: os => ⟨.txt, n⟩ :: typed os
  | .set _ :: os => typed os

/-- A file given as an argument: of Org if its name ends with `.org`. -/
def Arg (a : Str) (s : Source) : Prop :=
  s.name = a ∧ (s.kind = .org ↔ ".org".toList <:+ a)

/-- Files given as arguments. -/
inductive Args : List Str → List Source → Prop where
  | nil : Args [] []
  | cons {a as s ss} : Arg a s → Args as ss → Args (a :: as) (s :: ss)

end Spec
open Spec

/-! ### Options -/

theorem splitEq_none {s name : Str} (h : Args.splitEq s = (name, none)) : s = name := by
  unfold Args.splitEq at h
  split at h
  · injection h
  · cases h

theorem classify_inv {a name : Str} {value : Option Str} (h : Args.classify a = .flag name value) :
    ∃ d, (d = "-".toList ∨ d = "--".toList) ∧ (value = none → a = d ++ name) ∧
      ∀ v, value = some v → a = d ++ name ++ "=".toList ++ v := by
  unfold Args.classify at h
  split at h
  · rename_i c cs
    dsimp only at h
    by_cases h1 : c = '-' ∧ cs = []
    · rw [if_pos h1] at h; cases h
    · rw [if_neg h1] at h
      split at h
      · cases h
      · rename_i b bs hb
        split at h
        · cases h
        · injection h with h2 h3
          have key : ∃ d, (d = "-".toList ∨ d = "--".toList) ∧
              '-' :: c :: cs = d ++ (if c = '-' then cs else c :: cs) := by
            by_cases hc : c = '-'
            · exact ⟨_, .inr rfl, by rw [if_pos hc, hc]; rfl⟩
            · exact ⟨_, .inl rfl, by rw [if_neg hc]; rfl⟩
          obtain ⟨d, hd, he⟩ := key
          refine ⟨d, hd, ?_, ?_⟩
          · intro hv
            rw [he]
            exact congrArg _ (splitEq_none (Prod.ext h2 (h3.trans hv)))
          · intro v hv
            rw [he]
            have := splitEq_some (Prod.ext h2 (h3.trans hv))
            rw [this]; simp
  · cases h

theorem classify_words {o : Opt} {d : Str} (hd : d = "-".toList ∨ d = "--".toList) :
    Args.classify (d ++ o.name) = .flag o.name none ∧
    Args.classify (d ++ o.name ++ "=".toList ++ o.value) = .flag o.name (some o.value) := by
  rcases hd with rfl | rfl <;> cases o <;> exact ⟨rfl, rfl⟩

/-- The effect of an option. -/
def Opt.apply (o : Opt) (c : Opts) : Opts :=
  match o with
  | .org n => { c with sources := c.sources ++ [⟨.org, n⟩] }
  | .txt n => { c with sources := c.sources ++ [⟨.txt, n⟩] }
  | .set p => { c with set := c.set ++ [p] }

theorem setFlag_opt (o : Opt) (c : Opts) (v : Str) :
    setFlag o.name o.value c = some (Opt.apply o c) ∧ setFlag o.name v c ≠ none := by
  cases o <;> refine ⟨rfl, ?_⟩ <;> intro h <;> cases h

theorem setFlag_some {name v : Str} {c c' : Opts} (h : setFlag name v c = some c') :
    ∃ o : Opt, o.name = name ∧ o.value = v ∧ c' = Opt.apply o c := by
  unfold setFlag at h
  split at h
  · rename_i hn; injection h with h; exact ⟨.txt v, hn.symm, rfl, h.symm⟩
  · split at h
    · rename_i hn; injection h with h; exact ⟨.org v, hn.symm, rfl, h.symm⟩
    · split at h
      · rename_i hn; injection h with h; exact ⟨.set v, hn.symm, rfl, h.symm⟩
      · cases h

theorem parse_words {o : Opt} {w : List Str} (h : Words o w) (c : Opts) (args : List Str) :
    parse c (w ++ args) = parse (Opt.apply o c) args := by
  cases h with
  | two hd =>
    rw [List.cons_append, parse.eq_def]
    simp only [(classify_words (o := o) hd).1, List.cons_append, List.nil_append]
    rw [(setFlag_opt o c []).1]
    cases hs : setFlag o.name [] c with
    | none => exact absurd hs (setFlag_opt o c []).2
    | some _ => rfl
  | one hd =>
    rw [List.cons_append, parse.eq_def]
    simp only [(classify_words (o := o) hd).2, List.nil_append]
    rw [(setFlag_opt o c []).1]

theorem parse_all {os : List Opt} {ws : List Str} (h : AllWords os ws) (c : Opts)
    (args : List Str) : parse c (ws ++ args) = parse (os.foldl (fun c o => Opt.apply o c) c) args := by
  induction h generalizing c with
  | nil => rfl
  | cons hw _ ih => rw [List.append_assoc, parse_words hw, ih]; rfl

theorem foldl_apply (os : List Opt) (c : Opts) :
    ((os.foldl (fun c o => Opt.apply o c) c).sources.map asSource =
      c.sources.map asSource ++ typed os) ∧
    (os.foldl (fun c o => Opt.apply o c) c).set = c.set ++ prefixes os := by
  induction os generalizing c with
  | nil => simp [typed, prefixes]
  | cons o os ih =>
    rw [List.foldl_cons]
    obtain ⟨h1, h2⟩ := ih (Opt.apply o c)
    rw [h1, h2]
    cases o <;> simp [Opt.apply, typed, prefixes, asSource]

theorem parse_inv {args : List Str} {c c' : Opts} {rest : List Str}
    (h : parse c args = .ok (c', rest)) :
    ∃ os, Written os rest args ∧ c' = os.foldl (fun c o => Opt.apply o c) c := by
  induction hn : args.length using Nat.strongRecOn generalizing args c with
  | ind n ih =>
  subst hn
  have add : ∀ {o : Opt} {w more : List Str}, Words o w → args = w ++ more → w ≠ [] →
      parse (Opt.apply o c) more = .ok (c', rest) →
      ∃ os, Written os rest args ∧ c' = os.foldl (fun c o => Opt.apply o c) c := by
    intro o w more hw he hne hp
    have := List.length_pos_iff.mpr hne
    obtain ⟨os, hl, hc⟩ := ih more.length (by rw [he, List.length_append]; omega) hp rfl
    refine ⟨o :: os, ?_, hc⟩
    rw [he]
    cases hl with
    | plain h1 h2 => rw [← List.append_assoc]; exact .plain (.cons hw h1) h2
    | dashes h1 => rw [← List.append_assoc]; exact .dashes (.cons hw h1)
  rw [parse.eq_def] at h
  split at h
  · simp only [Except.ok.injEq, Prod.mk.injEq] at h
    obtain ⟨rfl, rfl⟩ := h
    exact ⟨[], .plain (ws := []) .nil (by simp), rfl⟩
  · rename_i a args
    split at h
    · rename_i hc
      simp only [Except.ok.injEq, Prod.mk.injEq] at h
      obtain ⟨rfl, rfl⟩ := h
      refine ⟨[], .plain (ws := []) .nil ?_, rfl⟩
      intro x hx
      simp only [List.head?_cons, Option.some.injEq] at hx
      subst hx
      exact classify_plain.mp hc
    · rename_i hc
      simp only [Except.ok.injEq, Prod.mk.injEq] at h
      obtain ⟨rfl, rfl⟩ := h
      rw [classify_stop.mp hc]
      exact ⟨[], .dashes (ws := []) .nil, rfl⟩
    · cases h
    · rename_i name value hc
      obtain ⟨d, hd, ha1, ha2⟩ := classify_inv hc
      split at h
      · rename_i v
        split at h
        · rename_i o' hs
          obtain ⟨o, rfl, rfl, rfl⟩ := setFlag_some hs
          refine add (w := [a]) ?_ rfl (by simp) h
          rw [ha2 _ rfl]; exact .one hd
        · cases h
      · split at h
        · cases h
        · split at h
          · cases h
          · rename_i v args'
            split at h
            · rename_i o' hs
              obtain ⟨o, rfl, rfl, rfl⟩ := setFlag_some hs
              refine add (w := [a, o.value]) ?_ rfl (by simp) h
              rw [ha1 rfl]; exact .two hd
            · cases h

theorem parse_line {os : List Opt} {rest args : List Str} (h : Written os rest args) (c : Opts) :
    parse c args = .ok (os.foldl (fun c o => Opt.apply o c) c, rest) := by
  cases h with
  | plain h1 h2 =>
    rw [parse_all h1]
    cases rest with
    | nil => rfl
    | cons a rest => rw [parse.eq_def]; simp only [classify_plain.mpr (h2 a rfl)]
  | dashes h1 =>
    rw [parse_all h1, parse.eq_def]
    simp only [classify_stop.mpr rfl]

theorem addSourceArgs_eq (slice : List Args.Source) (args : List Str) :
    ∃ ss, Args args ss ∧ (Args.addSourceArgs slice args).map asSource = slice.map asSource ++ ss := by
  induction args generalizing slice with
  | nil => exact ⟨[], .nil, by simp [Args.addSourceArgs]⟩
  | cons a args ih =>
    rw [Args.addSourceArgs]
    obtain ⟨ss, h1, h2⟩ := ih (slice ++ [⟨if Args.dotOrg.isSuffixOf a then .org else .txt, a⟩])
    refine ⟨asSource ⟨if Args.dotOrg.isSuffixOf a then .org else .txt, a⟩ :: ss, .cons ⟨rfl, ?_⟩ h1, ?_⟩
    · have hiff : Args.dotOrg.isSuffixOf a = true ↔ ".org".toList <:+ a := by
        rw [List.isSuffixOf_iff_suffix]; exact Iff.rfl
      by_cases hs : Args.dotOrg.isSuffixOf a = true
      · simp only [asSource, hs, if_true]
        exact ⟨fun _ => hiff.mp hs, fun _ => trivial⟩
      · simp only [asSource, hs]
        exact ⟨fun h => (by cases h), fun h => absurd (hiff.mpr h) hs⟩
    · rw [h2, List.map_append, List.append_assoc]; rfl

theorem args_unique {as : List Str} {ss ss' : List Source} (h : Args as ss) (h' : Args as ss') :
    ss = ss' := by
  induction h generalizing ss' with
  | nil => cases h'; rfl
  | cons h1 _ ih =>
    cases h' with
    | cons g1 g2 =>
      rw [ih g2]
      congr 1
      rename_i s _ _ s' _
      obtain ⟨k, n⟩ := s
      obtain ⟨k', n'⟩ := s'
      obtain ⟨rfl, h1⟩ := h1
      obtain ⟨g0, g1⟩ := g1
      simp only at g0 h1 g1
      subst g0
      have : k = .org ↔ k' = .org := h1.trans g1.symm
      cases k <;> cases k' <;> first | rfl | simp at this

/-! ### What the program does -/

section
variable {order : Str → List (Str × Str)} {find : Finder} {letter : Char → Bool} {files : Files}
  {os : List Opt} {rest args : List Str} {out : Out}

/-- The sources of a run with a URL: the standard input is read if there are no files. -/
def Spec.Read (os : List Opt) (rest : List Str) (list : List Source) : Prop :=
  ∃ ss, Args rest ss ∧
    ((typed os = [] ∧ ss = [] ∧ list = [⟨.txt, "-".toList⟩]) ∨
      (¬(typed os = [] ∧ ss = []) ∧ list = typed os ++ ss))

theorem main_set (hl : Written os rest args) (hr : rest ≠ []) (hp : prefixes os ≠ [])
    {ss : List Source} (hs : Args rest ss) :
    Main order find letter files args out ↔
      match Links.setGroup letter files (prefixes os) (typed os ++ ss) [] with
      | .ok (_, some e, _) => out = .setErr e
      | .ok (result, none, _) => ∃ l, l.Perm result ∧ out = .urls l
      | .panic => out = .crash := by
  unfold Main
  rw [parse_line hl]
  obtain ⟨h1, h2⟩ := foldl_apply os ⟨[], []⟩
  obtain ⟨ss', hs', h3⟩ := addSourceArgs_eq (os.foldl (fun c o => Opt.apply o c) ⟨[], []⟩).sources rest
  rw [args_unique hs' hs] at h3
  simp only [List.map_nil, List.nil_append] at h1 h2
  simp only [if_neg hr, h3, h1, h2, if_neg hp]
  exact Iff.rfl

theorem main_tree (hl : Written os rest args) (hr : rest ≠ []) (hp : prefixes os = []) :
    ∃ srcs : List Args.Source, srcs.map asSource = typed os ∧
      ∀ out, Main order find letter files args out ↔
        ∃ r, Tool order find files srcs rest r ∧ out = ofTool r := by
  obtain ⟨h1, h2⟩ := foldl_apply os ⟨[], []⟩
  simp only [List.map_nil, List.nil_append] at h1 h2
  refine ⟨_, h1, fun out => ?_⟩
  unfold Main
  rw [parse_line hl]
  simp only [if_neg hr, h2, hp, if_true]

theorem sources_read {srcs : List Args.Source} (h : srcs.map asSource = typed os) {url : Str}
    {list : List Source} (hl : Read os rest list) : sources srcs (url :: rest) = list := by
  obtain ⟨ss, hs, hc⟩ := hl
  unfold sources
  obtain ⟨ss', hs', h3⟩ := addSourceArgs_eq
    (if (url :: rest).length = 1 ∧ srcs = [] then [⟨.txt, ['-']⟩] else srcs) rest
  rw [args_unique hs' hs] at h3
  simp only [List.drop_one, List.tail_cons]
  rw [h3]
  have e1 : srcs = [] ↔ typed os = [] := by rw [← h]; simp
  have e2 : (url :: rest).length = 1 ↔ ss = [] := by
    cases hs with
    | nil => simp
    | cons => simp
  rcases hc with ⟨g1, g2, rfl⟩ | ⟨g1, rfl⟩
  · rw [if_pos ⟨e2.mpr g2, e1.mpr g1⟩, g2]; rfl
  · rw [if_neg (fun g => g1 ⟨e1.mp g.2, e2.mp g.1⟩), h]

/-- **C64.** A command line that is not options and arguments is refused: the usage is printed. -/
theorem c64_refused (h : ¬∃ os rest, Written os rest args) (hm : Main order find letter files args out) :
    out = .help ∨ out = .badFlags := by
  unfold Main at hm
  cases hp : parse ⟨[], []⟩ args with
  | ok v =>
    obtain ⟨os, hl, _⟩ := parse_inv (c' := v.1) (rest := v.2) hp
    exact absurd ⟨os, v.2, hl⟩ h
  | error e =>
    rw [hp] at hm
    subst hm
    clear h
    have key : ∀ n args c, args.length = n → parse c args = .error out →
        out = .help ∨ out = .badFlags := by
      intro n
      induction n using Nat.strongRecOn with
      | ind n ih =>
      intro args c hn hp
      have hh : ∀ {p : Prop} [Decidable p] {a : Out}, (if p then Out.help else Out.badFlags) = a →
          a = .help ∨ a = .badFlags := by
        intro p _ a e
        split at e
        · exact .inl e.symm
        · exact .inr e.symm
      rw [parse.eq_def] at hp
      split at hp
      · cases hp
      · split at hp
        · cases hp
        · cases hp
        · injection hp with hp; exact .inr hp.symm
        · split at hp
          · split at hp
            · exact ih _ (by rw [← hn]; exact Nat.lt_succ_self _) _ _ rfl hp
            · injection hp with hp; exact hh hp
          · split at hp
            · injection hp with hp; exact hh hp
            · split at hp
              · injection hp with hp; exact .inr hp.symm
              · split at hp
                · refine ih _ ?_ _ _ rfl hp
                  rw [← hn]; simp only [List.length_cons]; omega
                · injection hp with hp; exact .inr hp.symm
    exact key _ _ _ rfl hp

theorem classify_help {w : Str} (h : HelpWord w) : ∃ n v, Args.classify w = .flag n v ∧
    (n = "help".toList ∨ n = "h".toList) := by
  obtain ⟨d, n, v, hd, hn, hv, rfl⟩ := h
  rcases hv with rfl | ⟨v, rfl⟩ <;> rcases hd with rfl | rfl <;> rcases hn with rfl | rfl
  all_goals first
    | exact ⟨_, _, rfl, .inl rfl⟩
    | exact ⟨_, _, rfl, .inr rfl⟩

theorem setFlag_help {n v : Str} (h : n = "help".toList ∨ n = "h".toList) (c : Opts) :
    setFlag n v c = none := by
  rcases h with rfl | rfl <;> rfl

theorem parse_help {c : Opts} : parse c args = .error .help ↔
    ∃ os ws w more, AllWords os ws ∧ args = ws ++ w :: more ∧ HelpWord w := by
  constructor
  · intro h
    induction hn : args.length using Nat.strongRecOn generalizing args c with
    | ind n ih =>
    subst hn
    have add : ∀ {o : Opt} {w more : List Str}, Words o w → args = w ++ more → w ≠ [] →
        parse (Opt.apply o c) more = .error .help →
        ∃ os ws w more, AllWords os ws ∧ args = ws ++ w :: more ∧ HelpWord w := by
      intro o w more hw he hne hp
      have := List.length_pos_iff.mpr hne
      obtain ⟨os, ws, x, more', h1, rfl, h2⟩ := ih more.length (by rw [he, List.length_append]; omega) hp rfl
      exact ⟨o :: os, w ++ ws, x, more', .cons hw h1, by rw [he, List.append_assoc], h2⟩
    rw [parse.eq_def] at h
    split at h
    · cases h
    · rename_i a args
      split at h
      · cases h
      · cases h
      · cases h
      · rename_i name value hc
        obtain ⟨d, hd, ha1, ha2⟩ := classify_inv hc
        have help : ∀ v, (v = [] ∨ "=".toList <+: v) → a = d ++ name ++ v →
            (Except.error (if name = "help".toList ∨ name = "h".toList then Out.help else .badFlags) :
              Except Out (Opts × List Str)) = .error .help →
            ∃ os ws w more, AllWords os ws ∧ a :: args = ws ++ w :: more ∧ HelpWord w := by
          intro v hv e h
          refine ⟨[], [], a, args, .nil, rfl, d, name, v, hd, ?_, hv, e⟩
          by_cases hh : name = "help".toList ∨ name = "h".toList
          · exact hh.symm
          · rw [if_neg hh] at h; cases h
        split at h
        · rename_i v
          split at h
          · rename_i o' hs
            obtain ⟨o, rfl, rfl, rfl⟩ := setFlag_some hs
            refine add (w := [a]) ?_ rfl (by simp) h
            rw [ha2 _ rfl]; exact .one hd
          · exact help _ (.inr ⟨v, rfl⟩) (by rw [ha2 _ rfl, List.append_assoc]) h
        · split at h
          · exact help [] (.inl rfl) (by rw [ha1 rfl, List.append_nil]) h
          · split at h
            · cases h
            · rename_i v args'
              split at h
              · rename_i o' hs
                obtain ⟨o, rfl, rfl, rfl⟩ := setFlag_some hs
                refine add (w := [a, o.value]) ?_ rfl (by simp) h
                rw [ha1 rfl]; exact .two hd
              · cases h
  · rintro ⟨os, ws, w, more, h1, rfl, h2⟩
    obtain ⟨n, v, h3, h4⟩ := classify_help h2
    rw [parse_all h1, parse.eq_def]
    simp only [h3]
    have h5 : n = "help".toList ∨ n = "h".toList ↔ True := iff_true_intro h4
    cases v with
    | none => simp only [setFlag_help h4, h5, if_true]
    | some v => simp only [setFlag_help h4, h5, if_true]

/-- **C64.** The usage is printed as help, the exit status being 0, just if a word after options asks for
it. -/
theorem c64_help : Main order find letter files args .help ↔
    ∃ os ws w more, AllWords os ws ∧ args = ws ++ w :: more ∧ HelpWord w := by
  rw [← parse_help (c := ⟨[], []⟩)]
  unfold Main
  cases hp : parse ⟨[], []⟩ args with
  | error e =>
    constructor
    · intro h; rw [show Out.help = e from h]
    · intro h; injection h with h; exact h.symm
  | ok v =>
    obtain ⟨o, rest⟩ := v
    simp only [reduceCtorEq, iff_false]
    intro h
    split at h
    · cases h
    · split at h
      · obtain ⟨r, _, h⟩ := h
        cases r with
        | ok v => cases h
        | err e => cases h
        | panic => cases h
      · split at h
        · cases h
        · obtain ⟨l, _, h⟩ := h; cases h
        · cases h

/-- Help after an option; `-h` as a value of an option is not a request for it. -/
example : Main order find letter files ["-org".toList, "-h".toList, "--help=x".toList] .help := by
  refine c64_help.2 ⟨[.org "-h".toList], ["-org".toList, "-h".toList], _, [], ?_, rfl, "--".toList,
    "help".toList, "=x".toList, .inr rfl, .inr rfl, .inr ⟨"x".toList, rfl⟩, rfl⟩
  exact .cons (o := .org "-h".toList) (w := ["-org".toList, "-h".toList]) (.two (.inl rfl)) .nil

/-- **C64.** What the options and the arguments are is decided by the words of the command line. -/
theorem c64_unique {os' : List Opt} {rest' : List Str} (h : Written os rest args)
    (h' : Written os' rest' args) :
    prefixes os = prefixes os' ∧ typed os = typed os' ∧ rest = rest' := by
  have e := (parse_line h ⟨[], []⟩).symm.trans (parse_line h' ⟨[], []⟩)
  simp only [Except.ok.injEq, Prod.mk.injEq] at e
  obtain ⟨h1, h2⟩ := foldl_apply os ⟨[], []⟩
  obtain ⟨h3, h4⟩ := foldl_apply os' ⟨[], []⟩
  simp only [List.map_nil, List.nil_append] at h1 h2 h3 h4
  exact ⟨by rw [← h2, ← h4, e.1], by rw [← h1, ← h3, e.1], e.2⟩

/-- **C64.** A command line without arguments is refused, even if options give a file and a prefix. -/
theorem c64_no_arguments (h : Written os [] args) :
    Main order find letter files args out ↔ out = .usage := by
  unfold Main
  rw [parse_line h]
  exact Iff.rfl

/-- **C64.** With prefixes, either an error is reported and nothing is printed, just if a file can
not be read or a prefix is not valid; or links are printed, each one once, all of them with one of
the prefixes and written in the files. -/
theorem c64_set (hl : Written os rest args) (hr : rest ≠ []) (hp : prefixes os ≠ [])
    {ss : List Source} (hs : Args rest ss) (hm : Main order find letter files args out) :
    ((∃ e, out = .setErr e) ∧ ((∃ src ∈ typed os ++ ss, fileErr files src ≠ none) ∨
        ∃ p ∈ prefixes os, ¬Links.Spec.ValidPrefix p)) ∨
    (∃ l, out = .urls l ∧ l.Nodup ∧ (∀ src ∈ typed os ++ ss, fileErr files src = none) ∧
      (∀ p ∈ prefixes os, Links.Spec.ValidPrefix p) ∧
      ∀ u ∈ l, (∃ p ∈ prefixes os, Links.Spec.wanted p <+: u) ∧
        ∃ src ∈ typed os ++ ss, ∃ line ∈ fileLines files src, Links.Spec.Within u line) := by
  rw [main_set hl hr hp hs] at hm
  have hne : typed os ++ ss ≠ [] := by
    cases hs with
    | nil => exact absurd rfl hr
    | cons => simp
  by_cases hv : ∀ p ∈ prefixes os, Links.Spec.ValidPrefix p
  · obtain ⟨e, o, h1, h2⟩ := Links.setGroup_valid (letter := letter) (files := files) hp hv
      (typed os ++ ss) []
    rw [h1] at hm
    cases hu : (untilFailure (fileErr files) (typed os ++ ss)).2 with
    | some fe =>
      rw [hu] at h2
      subst h2
      refine .inl ⟨⟨_, hm⟩, .inl ?_⟩
      apply Classical.byContradiction
      intro hno
      have := Links.untilFailure_all (status := fileErr files) (l := typed os ++ ss) (by
        intro x hx
        apply Classical.byContradiction
        exact fun hx' => hno ⟨x, hx, hx'⟩)
      rw [this] at hu
      cases hu
    | none =>
      rw [hu] at h2
      subst h2
      obtain ⟨l, hperm, rfl⟩ := hm
      obtain ⟨g1, g2⟩ := Links.untilFailure_none hu
      refine .inr ⟨l, rfl, ?_, g2, hv, ?_⟩
      · exact hperm.nodup_iff.mpr (Links.nodup_addKeys (by simp))
      · intro u hu'
        rcases Links.mem_addKeys.1 (hperm.mem_iff.1 hu') with h | h
        · simp at h
        · obtain ⟨src, hsrc, h⟩ := List.mem_flatMap.1 h
          obtain ⟨line, hline, h⟩ := List.mem_flatMap.1 h
          obtain ⟨l', hl', hpre⟩ := Links.keysOf_prefix h
          obtain ⟨p, hp, rfl⟩ := List.mem_map.1 hl'
          rw [g1] at hsrc
          exact ⟨⟨p, hp, hpre⟩, src, hsrc, line, hline, Links.keysOf_within h⟩
  · have hv' : ∃ p ∈ prefixes os, ¬Links.Spec.ValidPrefix p := by
      apply Classical.byContradiction
      intro hno
      exact hv fun p hp => Classical.byContradiction fun hx => hno ⟨p, hp, hx⟩
    cases hls : typed os ++ ss with
    | nil => exact absurd hls hne
    | cons src more =>
      obtain ⟨e, o, h1⟩ := Links.setGroup_invalid (letter := letter) (files := files) (.inr hv')
        src more []
      rw [hls, h1] at hm
      exact .inl ⟨⟨e, hm⟩, .inr hv'⟩

/-- **C64.** With valid prefixes of ASCII letters and readable files whose lines follow the grammar
of C57 just the links of the files that have one of the prefixes are printed, each one once. -/
theorem c64_set_links (hl : Written os rest args) (hr : rest ≠ []) (hp : prefixes os ≠ [])
    {ss : List Source} (hs : Args rest ss) (hv : ∀ p ∈ prefixes os, Links.Spec.ValidPrefix p)
    (ha : Links.Ascii (prefixes os)) (hf : ∀ src ∈ typed os ++ ss, fileErr files src = none)
    (urlsOf : Kind → Str → List Str)
    (h : ∀ src ∈ typed os ++ ss, ∀ line ∈ fileLines files src,
      Links.Spec.SetLaid (src.kind = .org) ((prefixes os).map Links.Spec.wanted) line
        (urlsOf src.kind line))
    (hm : Main order find letter files args out) :
    ∃ l, out = .urls l ∧ l.Nodup ∧ ∀ u, u ∈ l ↔
      ∃ src ∈ typed os ++ ss, ∃ line ∈ fileLines files src, u ∈ urlsOf src.kind line := by
  rcases c64_set hl hr hp hs hm with ⟨_, ⟨src, h1, h2⟩ | ⟨p, h1, h2⟩⟩ | ⟨l, rfl, hnd, _⟩
  · exact absurd (hf src h1) h2
  · exact absurd (hv p h1) h2
  refine ⟨l, rfl, hnd, fun u => ?_⟩
  rw [main_set hl hr hp hs] at hm
  obtain ⟨e, o, h1, h2⟩ := Links.setGroup_valid (letter := letter) (files := files) hp hv
    (typed os ++ ss) []
  rw [Links.untilFailure_all hf] at h1 h2
  subst h2
  rw [h1] at hm
  obtain ⟨l', hperm, he⟩ := hm
  injection he with he
  subst he
  rw [hperm.mem_iff, Links.mem_addKeys, List.mem_flatMap]
  have key : ∀ src ∈ typed os ++ ss, (u ∈ Links.fileKeys letter src.kind (prefixes os)
      (fileLines files src) ↔ ∃ line ∈ fileLines files src, u ∈ urlsOf src.kind line) := by
    intro src hsrc
    obtain ⟨result, g1, _, g3⟩ := Links.c57_lines letter src.kind (prefixes os)
      (fileLines files src) hp hv ha (urlsOf src.kind) (h src hsrc) none
    rw [Links.extractSet_valid hp hv] at g1
    have g1 := Res.ok.inj g1
    simp only [Prod.mk.injEq] at g1
    rw [← g3 u, ← g1.1, Links.mem_addKeys]
    simp
  constructor
  · rintro (h0 | ⟨src, hsrc, hu⟩)
    · simp at h0
    · exact ⟨src, hsrc, (key src hsrc).mp hu⟩
  · rintro ⟨src, hsrc, hu⟩
    exact .inr ⟨src, hsrc, (key src hsrc).mpr hu⟩

/-- The tree printed, with shares of the limit. -/
theorem tree_limited {url : Str} {list : List Source} (hl : Written os (url :: rest) args)
    (hp : prefixes os = []) (hread : Read os rest list)
    (hlt : ∀ trees, FileTrees find files list trees → (linksAll trees).length < 2 ^ 59)
    (hm : Main order find letter files args out) :
    ∃ trees, FileTrees find files list trees ∧
      ((trees = [] ∧ out = .tree none (untilFailure (fileErr files) list).2) ∨
        (trees ≠ [] ∧ ∃ h a y, out = .tree (some (h, a)) (untilFailure (fileErr files) list).2 ∧
          IsReply h a y ∧ Burl.Tree.Limited (fun _ => true) 8 (.node .fileGroup trees) y)) := by
  obtain ⟨srcs, h1, h2⟩ := main_tree (order := order) (find := find) (letter := letter)
    (files := files) hl (by simp) hp
  obtain ⟨r, hr, ho⟩ := (h2 out).mp hm
  have hsrc := sources_read h1 (url := url) hread
  obtain ⟨trees, ht, hc⟩ := printed_limited order find files srcs url rest
    (by rw [hsrc]; exact hlt) hr
  rw [hsrc] at ht hc
  refine ⟨trees, ht, ?_⟩
  rcases hc with ⟨g1, rfl⟩ | ⟨g1, h, a, y, rfl, g2⟩
  · exact .inl ⟨g1, ho⟩
  · exact .inr ⟨g1, h, a, y, ho, g2⟩

/-- **C64 (part).** Without prefixes the first argument is a URL, others are files, the standard
input is read if there are no files at all.  A part of the tree of links of the files read is
printed, at most eight links; all of them but repetitions if there are no more than eight.  The first
failure of a file is reported.  Missing: the links are not restricted to the URL, see C51. -/
theorem c64_tree_partial {url : Str} {list : List Source} (hl : Written os (url :: rest) args)
    (hp : prefixes os = []) (hread : Read os rest list)
    (hlt : ∀ trees, FileTrees find files list trees → (linksAll trees).length < 2 ^ 59)
    (hm : Main order find letter files args out) :
    ∃ trees, FileTrees find files list trees ∧
      ((trees = [] ∧ out = .tree none (untilFailure (fileErr files) list).2) ∨
        (trees ≠ [] ∧ ∃ h a y, out = .tree (some (h, a)) (untilFailure (fileErr files) list).2 ∧
          IsReply h a y ∧ Part y.erase (.node .fileGroup trees) ∧ (links y.erase).length ≤ 8 ∧
          ((linksAll trees).length ≤ 8 →
            links y.erase = matching (fun _ => true) (.node .fileGroup trees)))) := by
  obtain ⟨trees, ht, h | ⟨h1, h, a, y, e, hy, k⟩⟩ := tree_limited hl hp hread hlt hm
  · exact ⟨trees, ht, .inl h⟩
  · exact ⟨trees, ht, .inr ⟨h1, h, a, y, e, hy, limited_part k⟩⟩

/-- **C64.** The tool ends for any command line and files with less than 2⁵⁹ links. -/
theorem c64_total (hlt : ∀ list trees, FileTrees find files list trees →
      (linksAll trees).length < 2 ^ 59) :
    (∃ out, Main order find letter files args out) ∧ ¬Main order find letter files args .crash := by
  by_cases h : ∃ os rest, Written os rest args
  · obtain ⟨os, rest, hl⟩ := h
    cases rest with
    | nil =>
      refine ⟨⟨_, (c64_no_arguments hl).mpr rfl⟩, fun hm => ?_⟩
      cases (c64_no_arguments hl).mp hm
    | cons url rest =>
      by_cases hp : prefixes os = []
      · obtain ⟨ss, hs, _⟩ := addSourceArgs_eq [] rest
        have hread : ∃ list, Read os rest list := by
          by_cases hc : typed os = [] ∧ ss = []
          · exact ⟨_, ss, hs, .inl ⟨hc.1, hc.2, rfl⟩⟩
          · exact ⟨_, ss, hs, .inr ⟨hc, rfl⟩⟩
        obtain ⟨list, hread⟩ := hread
        constructor
        · obtain ⟨srcs, h1, h2⟩ := main_tree (order := order) (find := find) (letter := letter)
            (files := files) hl (by simp) hp
          obtain ⟨r, hr⟩ := c51_total order find files srcs url rest (hlt _)
          exact ⟨_, (h2 _).mpr ⟨r, hr, rfl⟩⟩
        · intro hm
          obtain ⟨_, _, ⟨_, g⟩ | ⟨_, _, _, _, g, _⟩⟩ := c64_tree_partial hl hp hread (hlt _) hm <;>
            cases g
      · obtain ⟨ss, hs, _⟩ := addSourceArgs_eq [] (url :: rest)
        constructor
        · have hm := fun out => (main_set (order := order) (find := find) (letter := letter)
            (files := files) (out := out) hl (by simp) hp hs)
          cases hg : Links.setGroup letter files (prefixes os) (typed os ++ ss) [] with
          | ok v =>
            obtain ⟨result, e, o⟩ := v
            cases e with
            | none => exact ⟨.urls result, (hm _).mpr (by rw [hg]; exact ⟨_, .refl _, rfl⟩)⟩
            | some e => exact ⟨.setErr e, (hm _).mpr (by rw [hg])⟩
          | err e => exact e.elim
          | panic => exact ⟨.crash, (hm _).mpr (by rw [hg])⟩
        · intro hm
          rcases c64_set hl (by simp) hp hs hm with ⟨⟨_, g⟩, _⟩ | ⟨_, g, _⟩ <;> cases g
  · cases hp : parse ⟨[], []⟩ args with
    | ok v =>
      obtain ⟨os, hl, _⟩ := parse_inv (c' := v.1) (rest := v.2) hp
      exact absurd ⟨os, v.2, hl⟩ h
    | error e =>
      have hm : Main order find letter files args e := by unfold Main; rw [hp]
      refine ⟨⟨e, hm⟩, fun hm => ?_⟩
      rcases c64_refused h hm with g | g <;> cases g

end

/-! ### Examples -/

theorem exLine : Written [.txt "a.org".toList, .set "mid".toList, .set "http:".toList]
    ["-x.org".toList, "b".toList]
    (["--txt", "a.org", "-set=mid", "-set", "http:", "--", "-x.org", "b"].map String.toList) :=
  .dashes (.cons (.two (d := "--".toList) (.inr rfl)) (.cons (.one (d := "-".toList) (.inl rfl))
    (.cons (.two (d := "-".toList) (.inl rfl)) .nil)))

/-- The kind of files given as arguments is that of the suffix, for an option it is of the option. -/
example : typed [.txt "a.org".toList, .set "mid".toList, .set "http:".toList] =
      [⟨.txt, "a.org".toList⟩] ∧
    Args ["-x.org".toList, "b".toList] [⟨.org, "-x.org".toList⟩, ⟨.txt, "b".toList⟩] :=
  ⟨rfl, .cons ⟨rfl, by decide⟩ (.cons ⟨rfl, by decide⟩ .nil)⟩

/-- A command line that is refused: an unknown option. -/
example : ¬∃ os rest, Written os rest ["-sets".toList, "x".toList] := by
  rintro ⟨os, rest, h⟩
  have := parse_line h ⟨[], []⟩
  cases this

theorem exSet : Written [.set "mid".toList] ["x.org".toList]
    ["-set".toList, "mid".toList, "x.org".toList] :=
  .plain (.cons (.two (d := "-".toList) (.inl rfl)) .nil) (by
    intro a ha
    obtain rfl := Option.some.inj ha
    exact classify_plain.mp rfl)

/-- A file with two links. -/
def exFiles : Files := fun n =>
  if n = "x.org".toList then some (["A [[file:f]] <mid:x y>.".toList], none) else none

attribute [local irreducible] Main in
/-- One of the links is printed. -/
example (order : Str → List (Str × Str)) (find : Finder) (letter : Char → Bool) (out : Out)
    (hm : Main order find letter exFiles
      ["-set".toList, "mid".toList, "x.org".toList] out) :
    out = .urls ["mid:x y".toList] := by
  have hlaid : ∀ org : Prop, org → Links.Spec.SetLaid org (["mid".toList].map Links.Spec.wanted)
      "A [[file:f]] <mid:x y>.".toList ["mid:x y".toList] := by
    intro org horg
    refine .other (t := "A ".toList) (url := "file:f".toList) (part := []) (descr := []) horg
      (Links.noLink_quick (by decide)) (by unfold Links.Spec.Target; decide) (.inl ⟨rfl, rfl⟩)
      (by decide) ?_
    exact .angle (t := " ".toList) (url := "mid:x y".toList) horg
      (Links.noLink_quick (by decide)) (by decide) (by decide) (by decide)
      (.text (Links.noLink_quick (by decide)))
  have hone : ∀ src ∈ typed [.set "mid".toList] ++ [(⟨.org, "x.org".toList⟩ : Source)],
      src = ⟨.org, "x.org".toList⟩ := fun src hs => by simpa [typed] using hs
  have hpre : ∀ p ∈ prefixes [.set "mid".toList], p = "mid".toList :=
    fun p hp => by simpa [prefixes] using hp
  have hlines : fileLines exFiles ⟨.org, "x.org".toList⟩ = ["A [[file:f]] <mid:x y>.".toList] := rfl
  have hv : ∀ p ∈ prefixes [.set "mid".toList], Links.Spec.ValidPrefix p := by
    intro p hp
    rw [hpre p hp]
    exact ⟨"mid".toList, [], rfl, ⟨'m', "id".toList, [], rfl,
      by unfold Links.Spec.SchemeLetter; decide,
      by unfold Links.Spec.SchemeChar Links.Spec.SchemeLetter; decide, .nil⟩, .inl rfl⟩
  have ha : Links.Ascii (prefixes [.set "mid".toList]) := by
    intro p hp
    rw [hpre p hp]
    exact ⟨'m', "id".toList, rfl, by unfold Links.Spec.Alnum; decide⟩
  obtain ⟨l, ho, hnd, hl⟩ := c64_set_links (files := exFiles) (order := order) (find := find) (letter := letter)
    (out := out) exSet (by simp) (by simp [prefixes])
    (.cons (s := ⟨.org, "x.org".toList⟩) ⟨rfl, by decide⟩ .nil) hv ha
    (by intro src hs; rw [hone src hs]; rfl)
    (fun _ _ => ["mid:x y".toList])
    (by
      intro src hs line hline
      rw [hone src hs] at hline ⊢
      rw [hlines, List.mem_singleton] at hline
      rw [hline]
      exact hlaid _ rfl) hm
  rw [ho]
  have hmem : ∀ u, u ∈ l ↔ u = "mid:x y".toList := by
    intro u
    rw [hl u]
    constructor
    · rintro ⟨_, _, _, _, hu⟩
      simpa using hu
    · rintro rfl
      exact ⟨⟨.org, "x.org".toList⟩, by simp [typed], "A [[file:f]] <mid:x y>.".toList,
        by rw [hlines]; exact List.mem_singleton.mpr rfl, List.mem_singleton.mpr rfl⟩
  congr 1
  cases l with
  | nil => exact absurd ((hmem _).mpr rfl) (by simp)
  | cons a l =>
    cases l with
    | nil => rw [(hmem a).mp (by simp)]
    | cons b l =>
      have e1 := (hmem a).mp (by simp)
      have e2 := (hmem b).mp (by simp)
      simp [e1, e2] at hnd

/-- The case of `c64_no_arguments`: a file and a prefix are given. -/
example : Written [.org "a.org".toList, .set "http:".toList] []
    ["-org".toList, "a.org".toList, "-set".toList, "http:".toList] :=
  .plain (ws := ["-org".toList, "a.org".toList, "-set".toList, "http:".toList])
    (.cons (.two (d := "-".toList) (.inl rfl)) (.cons (.two (d := "-".toList) (.inl rfl)) .nil))
    (by simp)

/-- The standard input is read. -/
example : Written [] ["http://a.b/".toList] ["http://a.b/".toList] ∧
    Read [] [] [⟨.txt, "-".toList⟩] :=
  ⟨.plain (ws := []) .nil (by
    intro a ha
    obtain rfl := Option.some.inj ha
    exact classify_plain.mp rfl), [], .nil, .inl ⟨rfl, rfl, rfl⟩⟩

end Burl.Tool.Line
