import Verif.Tool.Client
import Verif.Args.FlagLemmas
import Verif.Backend.ServeProps
import Verif.Rpc.ClientProps
import Verif.JsonText.ClientProps
/-! The command-line client: what a command line asks for and what is printed (C63). -/
namespace Burl.Tool.Client
open Burl
open Burl.Json (Json)
open Burl.Backend (argument Arg Env world)
open Burl.Backend.Spec (seen Written Asked inside member demand)
open Burl.Rpc.Server (Request Answers)

namespace Spec

/-- A word that is not taken for an option. -/
def NotOption (w : Str) : Prop := w = [] ∨ w = ['-'] ∨ w.head? ≠ some '-'

/-- Two dashes. -/
abbrev dashes : Str := "--".toList

/-- A command line: a command with its arguments, `--`, a query.  `--` may precede the command. -/
inductive Line : List Str → Str → List Str → List Str → Prop where
  | bare {cmd args queries} : NotOption cmd → dashes ∉ args → queries ≠ [] →
      Line (cmd :: args ++ dashes :: queries) cmd args queries
  | after {cmd args queries} : cmd ≠ dashes → dashes ∉ args → queries ≠ [] →
      Line (dashes :: cmd :: args ++ dashes :: queries) cmd args queries

/-- The number written by decimal digits. -/
def number (t : Str) : Nat := t.foldl (fun n c => 10 * n + (c.toNat - '0'.toNat)) 0

/-- A usual decimal number: digits without a needless zero before them. -/
structure Decimal (t : Str) (n : Int) : Prop where
  digits : ∀ c ∈ t, c.isDigit = true
  nonempty : t ≠ []
  zero : t.head? = some '0' → t = ['0']
  value : n = number t
  fits : n < 2 ^ 63

/-- An option of `visit`. -/
inductive Setting where
  | line (t : Str) (n : Int)
  | file (path : Str)

/-- How an option may be written: with one or two dashes, in one or two words. -/
inductive Words : Setting → List Str → Prop where
  | line1 {d t n} : d = "-".toList ∨ d = "--".toList → Decimal t n →
      Words (.line t n) [d ++ "line".toList, t]
  | line2 {d t n} : d = "-".toList ∨ d = "--".toList → Decimal t n →
      Words (.line t n) [d ++ "line=".toList ++ t]
  | file1 {d p} : d = "-".toList ∨ d = "--".toList → Words (.file p) [d ++ "file".toList, p]
  | file2 {d p} : d = "-".toList ∨ d = "--".toList → Words (.file p) [d ++ "file=".toList ++ p]

/-- Several options. -/
inductive AllWords : List Setting → List Str → Prop where
  | nil : AllWords [] []
  | cons {s ss w ws} : Words s w → AllWords ss ws → AllWords (s :: ss) (w ++ ws)

/-- The last file named. -/
def file : List Setting → Str → Str
  | [], p => p
  | .file p :: ss, _ => file ss p
  | .line _ _ :: ss, p => file ss p

/-- The last line named. -/
def line : List Setting → Int → Int
  | [], n => n
  | .line _ n :: ss, _ => line ss n
  | .file _ :: ss, n => line ss n

/-- The meaning of a query: the method and what it is called with. -/
inductive Query : List Str → Rpc.Spec.Call → Arg → Prop where
  | mentions {us} : Query ("mentions".toList :: us) .urlMentions (.urlMentions ⟨us, none⟩)
  | set {ps} : Query ("set".toList :: ps) .linkSet (.linkSet ps)
  | capture {u} : Query ["capture".toList, u] .capture (.capture ⟨"org-protocol".toList, u, false⟩)
  | visit {ss ws} : AllWords ss ws →
      Query ("visit".toList :: ws) .visit (.visit ⟨file ss [], line ss 0⟩)
  | hello : Query ["hello".toList] .hello (.hello [⟨"org".toList, "0.2".toList⟩,
      ⟨"object".toList, "0.2".toList⟩, ⟨"org-protocol".toList, "0.2".toList⟩])

/-- Queries for which something is sent: the name of the method, and the parameter when it is taken
from the command line as it is. -/
inductive Sends (parse : Str → Option Json) : List Str → Str → Json → Prop where
  | visit {ws d} : Sends parse ("visit".toList :: ws) "linkremark.visit".toList d
  | mentions {us d} : Sends parse ("mentions".toList :: us) "linkremark.urlMentions".toList d
  | set {ps d} : Sends parse ("set".toList :: ps) "linkremark.linkSet".toList d
  | capture {u d} : Sends parse ["capture".toList, u] "linkremark.capture".toList d
  | hello {d} : Sends parse ["hello".toList] "linkremark.hello".toList d
  | helloText {t d} : parse t = some d →
      Sends parse ["hello".toList, t] "linkremark.hello".toList d

/-- Calls of the program are those of `Verif.Rpc.Client` connected to the backend by two streams of
bytes; the result is what its text says. -/
def Connected (e : Env) (call : Str → Json → Option Json) : Prop :=
  ∀ m d v, call m d = some v → ∃ (short short' : Bool) (s : Rpc.Client.State Json Bytes)
    (t : Rpc.Server.State Bytes Bytes Arg Json) (i : Nat) (c : Rpc.Client.Call Json Bytes) (x : Bytes),
      JsonText.Spec.Joined short short' (world e) s t ∧ JsonText.Spec.Usual short short' s t ∧
      s.calls[i]? = some c ∧ c.method = m ∧ c.param = .arr [d] ∧ (i, .reply x) ∈ s.log ∧
      JsonText.unmarshal x = some v

end Spec
open Spec

/-! ### Words -/

theorem classify_plain {w : Str} : Args.classify w = .plain ↔ NotOption w := by
  unfold Args.classify NotOption
  split
  · rename_i c cs
    simp only [List.head?_cons]
    constructor
    · intro h
      split at h
      · cases h
      · split at h
        · cases h
        · split at h <;> cases h
    · intro h; simp at h
  · rename_i h
    refine ⟨fun _ => ?_, fun _ => rfl⟩
    match w, h with
    | [], _ => exact .inl rfl
    | [c], _ =>
      by_cases hc : c = '-'
      · subst hc; exact .inr (.inl rfl)
      · exact .inr (.inr (by simpa using hc))
    | c :: b :: cs, h =>
      refine .inr (.inr ?_)
      intro hc
      simp only [List.head?_cons, Option.some.injEq] at hc
      subst hc
      exact h b cs rfl

theorem classify_stop {w : Str} : Args.classify w = .stop ↔ w = dashes := by
  unfold Args.classify
  split
  · rename_i c cs
    constructor
    · intro h
      by_cases h1 : c = '-' ∧ cs = []
      · rw [h1.1, h1.2]; rfl
      · dsimp only at h
        rw [if_neg h1] at h
        split at h
        · cases h
        · split at h <;> cases h
    · intro h
      have h' : '-' :: c :: cs = ['-', '-'] := h
      simp only [List.cons.injEq, true_and] at h'
      rw [if_pos h']
  · rename_i h
    refine ⟨fun h => (by cases h), fun hw => ?_⟩
    exact absurd hw (h '-' [])

theorem separator_at {pre post : List Str} (h : dashes ∉ pre) :
    separator (pre ++ dashes :: post) = pre.length := by
  induction pre with
  | nil => rw [List.nil_append, separator, if_pos rfl]; rfl
  | cons a pre ih =>
    simp only [List.mem_cons, not_or] at h
    rw [List.cons_append, separator, if_neg (fun e => h.1 e.symm), ih h.2, List.length_cons]

theorem separator_cases (args : List Str) : (dashes ∉ args ∧ separator args = args.length) ∨
    ∃ pre post, args = pre ++ dashes :: post ∧ dashes ∉ pre := by
  induction args with
  | nil => exact .inl ⟨by simp, rfl⟩
  | cons a args ih =>
    by_cases ha : a = dashes
    · exact .inr ⟨[], args, by rw [ha]; rfl, by simp⟩
    · rcases ih with ⟨h1, h2⟩ | ⟨pre, post, rfl, h⟩
      · refine .inl ⟨by simp only [List.mem_cons, not_or]; exact ⟨fun e => ha e.symm, h1⟩, ?_⟩
        rw [separator, if_neg ha, h2, List.length_cons]
      · exact .inr ⟨a :: pre, post, rfl, by
          simp only [List.mem_cons, not_or]; exact ⟨fun e => ha e.symm, h⟩⟩

theorem split_iff {args : List Str} {cmd : Str} {b q : List Str} :
    split args = .ok (cmd, b, q) ↔
      args = cmd :: b ++ dashes :: q ∧ cmd ≠ dashes ∧ dashes ∉ b ∧ q ≠ [] := by
  constructor
  · intro h
    match args with
    | [] => cases h
    | a :: args =>
      simp only [split] at h
      split at h
      · cases h
      · rename_i h1
        split at h
        · cases h
        · rename_i h2
          simp only [Except.ok.injEq, Prod.mk.injEq] at h
          obtain ⟨rfl, hb, hq⟩ := h
          rcases separator_cases (a :: args) with ⟨_, hs⟩ | ⟨pre, post, he, hp⟩
          · omega
          · rw [he, separator_at hp] at h1 h2 hb hq
            match pre with
            | [] => simp at h1
            | x :: pre =>
              simp only [List.cons_append, List.cons.injEq] at he
              obtain ⟨rfl, rfl⟩ := he
              simp only [List.mem_cons, not_or] at hp
              have e1 : pre = b := by
                rw [← hb, List.take_left' rfl]; rfl
              have e2 : post = q := by
                rw [← hq]; simp
              subst e1 e2
              refine ⟨rfl, fun e => hp.1 e.symm, hp.2, ?_⟩
              intro e
              subst e
              simp at h2
  · rintro ⟨rfl, hc, hb, hq⟩
    have hs : separator (cmd :: b ++ dashes :: q) = b.length + 1 :=
      separator_at (pre := cmd :: b) (by
        simp only [List.mem_cons, not_or]; exact ⟨fun e => hc e.symm, hb⟩)
    have hl : 0 < q.length := List.length_pos_iff.mpr hq
    have hlen : (cmd :: b ++ dashes :: q).length = b.length + q.length + 2 := by
      simp; omega
    simp only [List.cons_append] at hs hlen ⊢
    simp only [split]
    rw [hs, hlen, if_neg (by omega), if_neg (by omega)]
    simp

/-- C63: everything before the first `--` is the command of the backend, everything after it is the
query; other command lines are refused. -/
theorem c63_split {args : List Str} {cmd : Str} {b q : List Str} :
    (topFlags args).bind split = .ok (cmd, b, q) ↔ Line args cmd b q := by
  constructor
  · intro h
    match args with
    | [] => cases h
    | a :: args =>
      rw [topFlags] at h
      split at h
      · rename_i hc
        obtain ⟨h1, h2, h3, h4⟩ := split_iff.mp (show split (a :: args) = _ from h)
        rw [h1]
        simp only [List.cons_append, List.cons.injEq] at h1
        rw [h1.1] at hc
        exact .bare (classify_plain.mp hc) h3 h4
      · rename_i hc
        obtain ⟨h1, h2, h3, h4⟩ := split_iff.mp (show split args = _ from h)
        rw [classify_stop.mp hc, h1]
        exact .after h2 h3 h4
      · cases h
      · split at h <;> cases h
  · intro h
    cases h with
    | bare h1 h2 h3 =>
      simp only [List.cons_append]
      rw [topFlags, classify_plain.mpr h1]
      refine split_iff.mpr ⟨rfl, ?_, h2, h3⟩
      rintro rfl
      rcases h1 with h | h | h
      · exact absurd h (by decide)
      · exact absurd h (by decide)
      · exact h rfl
    | after h1 h2 h3 =>
      rw [List.cons_append, topFlags, classify_stop.mpr rfl]
      exact split_iff.mpr ⟨rfl, h1, h2, h3⟩

/-! ### Options of `visit` -/

theorem digit_of {c : Char} (h : c.isDigit = true) :
    digit c = some (c.toNat - '0'.toNat) ∧ c.toNat - '0'.toNat < 10 ∧ c ≠ '_' := by
  have h' : '0' ≤ c ∧ c ≤ '9' := by
    unfold Char.isDigit at h
    rw [Bool.and_eq_true, decide_eq_true_iff, decide_eq_true_iff] at h
    exact h
  refine ⟨by rw [digit, if_pos h'], ?_, ?_⟩
  · have : c.toNat ≤ '9'.toNat := h'.2
    have e : '9'.toNat = 57 := rfl
    have e0 : '0'.toNat = 48 := rfl
    omega
  · rintro rfl; exact absurd h'.2 (by decide)

theorem digits_of {t : Str} (h : ∀ c ∈ t, c.isDigit = true) (n : Nat) :
    digits 10 t n = some (t.foldl (fun n c => 10 * n + (c.toNat - '0'.toNat)) n) := by
  induction t generalizing n with
  | nil => rfl
  | cons c t ih =>
    obtain ⟨h1, h2, h3⟩ := digit_of (h c (by simp))
    rw [digits, if_neg h3, h1]
    simp only
    rw [if_neg (by omega), ih fun x hx => h x (by simp [hx]), List.foldl_cons, Nat.mul_comm]

theorem parseUint_of {t : Str} {n : Int} (h : Decimal t n) : parseUint t = some (number t) := by
  have hu : '_' ∉ t := fun hm => (digit_of (h.digits _ hm)).2.2 rfl
  have hv := h.value
  have hf := h.fits
  have hd : digits (base t).1 (base t).2 0 = some (number t) := by
    by_cases h0 : t.head? = some '0'
    · rw [h.zero h0]; rfl
    · have : base t = (10, t) := by
        unfold base
        split
        · exact absurd rfl h0
        · exact absurd rfl h0
        · rfl
      rw [this]
      exact digits_of h.digits 0
  rw [parseUint, if_neg h.nonempty, hd]
  simp only
  rw [if_neg (by omega), if_neg (fun hh => hu hh.1)]

theorem parseInt_of {t : Str} {n : Int} (h : Decimal t n) : parseInt t = some n := by
  have hp := parseUint_of h
  have hv := h.value
  have hf := h.fits
  unfold parseInt
  split
  · exact absurd (h.digits '+' (by simp)) (by decide)
  · exact absurd (h.digits '-' (by simp)) (by decide)
  · rw [hp, Option.bind_some, if_neg (by omega), hv]

theorem classify_name {d : Str} (hd : d = "-".toList ∨ d = "--".toList) :
    Args.classify (d ++ "line".toList) = .flag "line".toList none ∧
    Args.classify (d ++ "file".toList) = .flag "file".toList none := by
  rcases hd with rfl | rfl <;> exact ⟨rfl, rfl⟩

theorem classify_value {d : Str} (hd : d = "-".toList ∨ d = "--".toList) (v : Str) :
    Args.classify (d ++ "line=".toList ++ v) = .flag "line".toList (some v) ∧
    Args.classify (d ++ "file=".toList ++ v) = .flag "file".toList (some v) := by
  rcases hd with rfl | rfl <;> exact ⟨rfl, rfl⟩

theorem visitFlags_words {s : Setting} {w : List Str} (h : Words s w) (q : Emacs.Location)
    (args : List Str) : visitFlags q (w ++ args) =
      visitFlags (match s with
        | .line _ n => { q with lineNo := n }
        | .file p => { q with filePath := p }) args := by
  cases h with
  | line1 hd hn =>
    rw [List.cons_append, visitFlags.eq_def]
    simp only [(classify_name hd).1, List.cons_append, List.nil_append]
    rw [if_pos trivial, parseInt_of hn]; rfl
  | line2 hd hn =>
    rw [List.cons_append, visitFlags.eq_def]
    simp only [(classify_value hd _).1, List.nil_append]
    rw [if_pos trivial, parseInt_of hn]; rfl
  | file1 hd =>
    rw [List.cons_append, visitFlags.eq_def]
    simp only [(classify_name hd).2, List.cons_append, List.nil_append]
    rw [if_neg (by decide), if_pos trivial]
  | file2 hd =>
    rw [List.cons_append, visitFlags.eq_def]
    simp only [(classify_value hd _).2, List.nil_append]
    rw [if_neg (by decide), if_pos trivial]

theorem visitFlags_all {ss : List Setting} {ws : List Str} (h : AllWords ss ws)
    (q : Emacs.Location) :
    visitFlags q ws = some ⟨file ss q.filePath, line ss q.lineNo⟩ := by
  induction h generalizing q with
  | nil => rfl
  | @cons s ss w ws hw _ ih =>
    rw [visitFlags_words hw, ih]
    cases s <;> rfl

/-! ### Queries -/

open Burl.Backend (plain_of c61_argument each_str mem)
open Burl.Backend.Spec (Plain Alike)
open Burl.Rpc.Server (reached)

theorem parseInt_fits {t : Str} {n : Int} (h : parseInt t = some n) : -2 ^ 63 ≤ n ∧ n < 2 ^ 63 := by
  have pos : ∀ {r : Str}, ((parseUint r).bind fun n => if n ≥ 2 ^ 63 then none else
      some (n : Int)) = some n → -2 ^ 63 ≤ n ∧ n < 2 ^ 63 := by
    intro r h
    cases hr : parseUint r with
    | none => rw [hr] at h; cases h
    | some k =>
      rw [hr, Option.bind_some] at h
      split at h
      · cases h
      · injection h with h; omega
  unfold parseInt at h
  split at h
  · exact pos h
  · rename_i r
    cases hr : parseUint r with
    | none => rw [hr] at h; cases h
    | some k =>
      rw [hr, Option.bind_some] at h
      split at h
      · cases h
      · injection h with h; omega
  · exact pos h

theorem strings_plain (us : List Str) : Plain (.arr (us.map .str)) := by
  refine .arr ?_
  intro v hv
  obtain ⟨u, _, rfl⟩ := List.mem_map.mp hv
  exact .str

theorem plain_one {v : Json} (h : Plain v) : Plain (.arr [v]) := by
  refine .arr ?_
  intro x hx
  rw [List.mem_singleton.mp hx]
  exact h

theorem mentions_argument (us : List Str) :
    argument .urlMentions (.arr [mentionsJson us]) = some (.urlMentions ⟨us, none⟩) := by
  have hp : Plain (.arr [mentionsJson us]) := plain_one (.obj (by
    intro m hm
    rw [List.mem_singleton.mp hm]
    exact strings_plain us) (List.pairwise_singleton _ _))
  rw [c61_argument hp]
  refine .first (.urlMentions (.obj ⟨.inl ⟨_, List.mem_cons_self, rfl, .arr (each_str us)⟩,
    .inr ⟨?_, rfl⟩⟩))
  intro m hm
  rw [List.mem_singleton.mp hm]
  show ¬Alike "options".toList "variants".toList
  decide +kernel

theorem set_argument (ps : List Str) :
    argument .linkSet (.arr [setJson ps]) = some (.linkSet ps) := by
  have hp : Plain (.arr [setJson ps]) := plain_one (.obj (by
    intro m hm
    rw [List.mem_singleton.mp hm]
    exact strings_plain ps) (List.pairwise_singleton _ _))
  rw [c61_argument hp]
  exact .first (.linkSet (.obj (.inl ⟨_, List.mem_cons_self, rfl, .arr (each_str ps)⟩)))

theorem location_argument {q : Emacs.Location} (h1 : -2 ^ 63 ≤ q.lineNo) (h2 : q.lineNo < 2 ^ 63) :
    argument .visit (.arr [locationJson q]) = some (.visit q) := by
  have hp : Plain (.arr [locationJson q]) := plain_one (.obj (by
    intro m hm
    simp only [List.mem_cons, List.not_mem_nil, or_false] at hm
    rcases hm with rfl | rfl
    · exact .str
    · exact .num) (by simp [mem]; decide))
  rw [c61_argument hp]
  exact .first (.visit (.obj ⟨.inl ⟨_, List.mem_cons_self, rfl, .str⟩,
    .inl ⟨_, List.mem_cons_of_mem _ List.mem_cons_self, rfl, .num h1 h2⟩⟩))

theorem line_fits {ss : List Setting} {ws : List Str} (h : AllWords ss ws) {n : Int}
    (h1 : -2 ^ 63 ≤ n) (h2 : n < 2 ^ 63) : -2 ^ 63 ≤ line ss n ∧ line ss n < 2 ^ 63 := by
  induction h generalizing n with
  | nil => exact ⟨h1, h2⟩
  | cons hw _ ih =>
    cases hw with
    | line1 _ hd => have := hd.value; have := hd.fits; exact ih (by omega) (by omega)
    | line2 _ hd => have := hd.value; have := hd.fits; exact ih (by omega) (by omega)
    | file1 _ => exact ih h1 h2
    | file2 _ => exact ih h1 h2

theorem subcommand_visit (parse : Str → Option Json) (args : List Str) :
    subcommand parse ("visit".toList :: args) = match visitFlags ⟨[], 0⟩ args with
      | none => .error .badQuery
      | some q => .ok ("linkremark.visit".toList, locationJson q) := rfl

/-- C63: a query is sent as a call of its method, and the method gets exactly what is written in
the query. -/
theorem c63_query {parse : Str → Option Json} {queries : List Str} {c : Rpc.Spec.Call} {arg : Arg}
    (h : Query queries c arg) : ∃ m d, subcommand parse queries = .ok (m, d) ∧ c.Name m ∧
      argument (reached c) (.arr [d]) = some arg := by
  cases h with
  | mentions => exact ⟨_, _, rfl, .inr (.inl rfl), mentions_argument _⟩
  | set => exact ⟨_, _, rfl, .inr (.inl rfl), set_argument _⟩
  | capture => exact ⟨_, _, rfl, .inr (.inl rfl), rfl⟩
  | @visit ss ws hw =>
    refine ⟨_, _, ?_, .inr (.inl rfl), location_argument (line_fits hw (by decide) (by decide)).1
      (line_fits hw (by decide) (by decide)).2⟩
    rw [subcommand_visit, visitFlags_all hw]; rfl
  | hello => exact ⟨_, _, rfl, .inr (.inl rfl), rfl⟩

/-- C63: nothing is sent for other queries: with another first word, with no address or several ones
to capture, with several arguments of `hello` or with one that is not JSON. -/
theorem c63_sends {parse : Str → Option Json} {queries : List Str} {m : Str} {d : Json}
    (h : subcommand parse queries = .ok (m, d)) : Sends parse queries m d := by
  match queries with
  | [] => cases h
  | name :: args =>
    unfold subcommand at h
    dsimp only at h
    split at h
    · rename_i hn
      subst hn
      split at h
      · cases h
      · cases h; exact .visit
    · split at h
      · rename_i hn; subst hn; cases h; exact .mentions
      · split at h
        · rename_i hn
          subst hn
          split at h
          · cases h; exact .capture
          · cases h
        · split at h
          · rename_i hn
            subst hn
            split at h
            · cases h; exact .hello
            · split at h
              · cases h
              · rename_i hp; cases h; exact .helloText hp
            · cases h
          · split at h
            · rename_i hn; subst hn; cases h; exact .set
            · cases h

/-- C63: an argument of `hello` is sent as it is. -/
theorem c63_helloText {parse : Str → Option Json} {t : Str} {v : Json} (h : parse t = some v) :
    subcommand parse ["hello".toList, t] = .ok ("linkremark.hello".toList, v) := by
  show (match parse t with
    | none => Except.error Outcome.badQuery
    | some v => .ok ("linkremark.hello".toList, v)) = _
  rw [h]

/-- Two addresses are not captured. -/
example (parse : Str → Option Json) (m : Str) (d : Json) :
    ¬Sends parse ["capture".toList, "a".toList, "b".toList] m d := nofun

/-! ### What is sent by `visit` -/

theorem splitEq_some {s name v : Str} (h : Args.splitEq s = (name, some v)) :
    s = name ++ '=' :: v := by
  unfold Args.splitEq at h
  have hs := List.takeWhile_append_dropWhile (p := fun c => c != '=') (l := s)
  split at h
  · cases h
  · rename_i c v' hd
    injection h with h1 h2
    injection h2 with h2
    subst h2
    have hc : c = '=' := by
      have := List.head_dropWhile_not (fun c => c != '=') (l := s) (by rw [hd]; simp)
      simpa [hd] using this
    rw [hd, h1, hc] at hs
    exact hs.symm

theorem classify_flag {a name v : Str} (h : Args.classify a = .flag name (some v)) :
    (name ++ '=' :: v) <:+ a := by
  unfold Args.classify at h
  split at h
  · rename_i c cs
    dsimp only at h
    by_cases h1 : c = '-' ∧ cs = []
    · rw [if_pos h1] at h; cases h
    · rw [if_neg h1] at h
      split at h
      · cases h
      · rename_i b bs hb
        split at h
        · cases h
        · injection h with h2 h3
          rw [← splitEq_some (Prod.ext h2 h3)]
          split
          · exact ⟨['-', c], rfl⟩
          · exact ⟨['-'], rfl⟩
  · cases h

theorem visitFlags_file {args : List Str} {q q' : Emacs.Location} (h : visitFlags q args = some q') :
    (q'.filePath = q.filePath ∨ q'.filePath ∈ args ∨ ∃ a ∈ args, "file=".toList ++ q'.filePath <:+ a) ∧
    (-2 ^ 63 ≤ q.lineNo → q.lineNo < 2 ^ 63 → -2 ^ 63 ≤ q'.lineNo ∧ q'.lineNo < 2 ^ 63) := by
  induction hn : args.length using Nat.strongRecOn generalizing args q with
  | ind n ih =>
  subst hn
  rw [visitFlags.eq_def] at h
  have keep : ∀ {q1 : Emacs.Location} {a : Str} {rest pre : List Str}, visitFlags q1 rest = some q' →
      args = a :: pre ++ rest → q1.filePath = q.filePath ∨ q1.filePath ∈ args ∨
        (∃ a ∈ args, "file=".toList ++ q1.filePath <:+ a) →
      (-2 ^ 63 ≤ q.lineNo → q.lineNo < 2 ^ 63 → -2 ^ 63 ≤ q1.lineNo ∧ q1.lineNo < 2 ^ 63) →
      (q'.filePath = q.filePath ∨ q'.filePath ∈ args ∨
        ∃ a ∈ args, "file=".toList ++ q'.filePath <:+ a) ∧
      (-2 ^ 63 ≤ q.lineNo → q.lineNo < 2 ^ 63 → -2 ^ 63 ≤ q'.lineNo ∧ q'.lineNo < 2 ^ 63) := by
    intro q1 a rest pre h1 he h2 h3
    obtain ⟨g1, g2⟩ := ih rest.length (by rw [he]; simp; omega) h1 rfl
    refine ⟨?_, fun a b => ?_⟩
    · rcases g1 with g | g | ⟨x, hx, g⟩
      · rw [g]; exact h2
      · exact .inr (.inl (by rw [he]; simp [g]))
      · exact .inr (.inr ⟨x, by rw [he]; simp [hx], g⟩)
    · obtain ⟨c, d⟩ := h3 a b; exact g2 c d
  split at h
  · injection h with h; subst h; exact ⟨.inl rfl, fun a b => ⟨a, b⟩⟩
  · rename_i a rest
    split at h
    · injection h with h; subst h; exact ⟨.inl rfl, fun a b => ⟨a, b⟩⟩
    · injection h with h; subst h; exact ⟨.inl rfl, fun a b => ⟨a, b⟩⟩
    · cases h
    · rename_i name value hcl
      split at h
      · split at h
        · rename_i v
          cases hv : parseInt v with
          | none => rw [hv] at h; cases h
          | some k =>
            rw [hv, Option.bind_some] at h
            exact keep (pre := []) h rfl (.inl rfl) fun _ _ => parseInt_fits hv
        · split at h
          · cases h
          · rename_i v rest'
            cases hv : parseInt v with
            | none => rw [hv] at h; cases h
            | some k =>
              rw [hv, Option.bind_some] at h
              exact keep (pre := [v]) h rfl (.inl rfl) fun _ _ => parseInt_fits hv
      · split at h
        · rename_i hname
          split at h
          · rename_i v
            refine keep (pre := []) h rfl (.inr (.inr ⟨a, by simp, ?_⟩)) fun a b => ⟨a, b⟩
            have := classify_flag hcl
            rw [hname] at this
            exact this
          · split at h
            · cases h
            · rename_i v rest'
              exact keep (pre := [v]) h rfl (.inr (.inl (by simp))) fun a b => ⟨a, b⟩
        · cases h

/-- C63: whatever the options of `visit` are, the file that is asked for is named on the command
line or is none, and the request can be read by the backend. -/
theorem c63_visit_file {parse : Str → Option Json} {args : List Str} {m : Str} {d : Json}
    (h : subcommand parse ("visit".toList :: args) = .ok (m, d)) :
    ∃ q, argument .visit (.arr [d]) = some (.visit q) ∧
      (q.filePath = [] ∨ q.filePath ∈ args ∨ ∃ a ∈ args, "file=".toList ++ q.filePath <:+ a) := by
  rw [subcommand_visit] at h
  cases hv : visitFlags ⟨[], 0⟩ args with
  | none => rw [hv] at h; cases h
  | some q =>
    rw [hv] at h
    simp only [Except.ok.injEq, Prod.mk.injEq] at h
    obtain ⟨-, rfl⟩ := h
    obtain ⟨h1, h2⟩ := visitFlags_file hv
    obtain ⟨h3, h4⟩ := h2 (by decide) (by decide)
    exact ⟨q, location_argument h3 h4, h1⟩

/-- C63 fails for numbers with zeros before them: `--line 010` asks for the line 8. -/
theorem c63_violation_line (parse : Str → Option Json) :
    ∃ d, subcommand parse ["visit".toList, "--line".toList, "010".toList] =
      .ok ("linkremark.visit".toList, d) ∧
      argument .visit (.arr [d]) = some (.visit ⟨[], 8⟩) :=
  ⟨_, rfl, rfl⟩

/-! ### Runs -/

theorem run_line {w : World} {args : List Str} {cmd : Str} {b q : List Str}
    (h : Line args cmd b q) : (run w args).started = some (cmd, b) := by
  unfold run
  rw [c63_split.mpr h]
  simp only
  split
  · rfl
  · split
    · rfl
    · split <;> rfl

/-- C63: a process is started exactly if the command line has a command and a query, and it is that
command with its arguments. -/
theorem c63_started {w : World} {args : List Str} {cmd : Str} {b : List Str} :
    (run w args).started = some (cmd, b) ↔ ∃ q, Line args cmd b q := by
  constructor
  · intro h
    cases hs : (topFlags args).bind split with
    | error o => unfold run at h; rw [hs] at h; cases h
    | ok x =>
      obtain ⟨c, b', q⟩ := x
      have hl := c63_split.mp hs
      rw [run_line hl] at h
      simp only [Option.some.injEq, Prod.mk.injEq] at h
      obtain ⟨rfl, rfl⟩ := h
      exact ⟨q, hl⟩
  · rintro ⟨q, h⟩; exact run_line h

/-- C63: a call is made only for a command line with a query, after the command has been started,
and it is the call for this query.  What is printed is its result, and it is printed whenever there
is one. -/
theorem c63_called {w : World} {args : List Str} :
    (∀ m d, (run w args).called = some (m, d) ↔ ∃ cmd b q, Line args cmd b q ∧
      w.start cmd b = true ∧ subcommand w.parse q = .ok (m, d)) ∧
    (∀ v, (run w args).printed = some v ↔
      ∃ m d, (run w args).called = some (m, d) ∧ w.call m d = some v) ∧
    ((run w args).outcome = .done → (run w args).printed ≠ none) := by
  cases hs : (topFlags args).bind split with
  | error o =>
    have hr : run w args = ⟨none, none, none, o⟩ := by unfold run; rw [hs]
    rw [hr]
    refine ⟨fun m d => ⟨fun h => (by cases h), ?_⟩, fun v => ⟨fun h => (by cases h), ?_⟩, ?_⟩
    · rintro ⟨cmd, b, q, hl, _⟩
      rw [c63_split.mpr hl] at hs; cases hs
    · rintro ⟨m, d, h, _⟩; cases h
    · intro h
      simp only at h
      subst h
      match args with
      | [] => cases hs
      | a :: args =>
        have key : ∀ l, split l ≠ .error .done := by
          intro l hl
          match l with
          | [] => cases hl
          | a :: l =>
            simp only [split] at hl
            split at hl
            · cases hl
            · split at hl <;> cases hl
        rw [topFlags] at hs
        split at hs
        · exact absurd (show split (a :: args) = _ from hs) (key _)
        · exact absurd (show split args = _ from hs) (key _)
        · cases hs
        · split at hs <;> cases hs
  | ok x =>
    obtain ⟨cmd, b, q⟩ := x
    have hl := c63_split.mp hs
    have huniq : ∀ {cmd' b' q'}, Line args cmd' b' q' → cmd' = cmd ∧ b' = b ∧ q' = q := by
      intro cmd' b' q' h
      have := c63_split.mpr h
      rw [hs] at this
      simp only [Except.ok.injEq, Prod.mk.injEq] at this
      exact ⟨this.1.symm, this.2.1.symm, this.2.2.symm⟩
    have hcall : ∀ m d, (∃ cmd b q, Line args cmd b q ∧
        w.start cmd b = true ∧ subcommand w.parse q = .ok (m, d)) ↔
        w.start cmd b = true ∧ subcommand w.parse q = .ok (m, d) := by
      intro m d
      constructor
      · rintro ⟨_, _, _, h1, h2⟩
        obtain ⟨rfl, rfl, rfl⟩ := huniq h1
        exact h2
      · intro h; exact ⟨_, _, _, hl, h⟩
    simp only [hcall]
    by_cases hst : w.start cmd b = true
    · cases hsub : subcommand w.parse q with
      | error o =>
        have hr : run w args = ⟨some (cmd, b), none, none, o⟩ := by
          unfold run; rw [hs]; simp only [hst, not_true_eq_false, if_false, hsub]
        rw [hr]
        refine ⟨fun m d => ⟨fun h => (by cases h), fun h => (by cases h.2)⟩,
          fun v => ⟨fun h => (by cases h), ?_⟩, ?_⟩
        · rintro ⟨m, d, h, _⟩; cases h
        · intro h
          simp only at h
          subst h
          exfalso
          unfold subcommand at hsub
          split at hsub
          · cases hsub
          · split at hsub
            · split at hsub <;> cases hsub
            · split at hsub
              · cases hsub
              · split at hsub
                · split at hsub <;> cases hsub
                · split at hsub
                  · split at hsub
                    · cases hsub
                    · split at hsub <;> cases hsub
                    · cases hsub
                  · split at hsub <;> cases hsub
      | ok x =>
        obtain ⟨m, d⟩ := x
        cases hc : w.call m d with
        | none =>
          have hr : run w args = ⟨some (cmd, b), some (m, d), none, .callFailed⟩ := by
            unfold run; rw [hs]; simp only [hst, not_true_eq_false, if_false, hsub, hc]
          rw [hr]
          refine ⟨fun m' d' => ?_, fun v => ⟨fun h => (by cases h), ?_⟩, fun h => (by cases h)⟩
          · simp [hst]
          · rintro ⟨m', d', h, h'⟩
            simp only [Option.some.injEq, Prod.mk.injEq] at h
            obtain ⟨rfl, rfl⟩ := h
            rw [hc] at h'; cases h'
        | some v =>
          have hr : (run w args).called = some (m, d) ∧ (run w args).printed = some v := by
            unfold run; rw [hs]; simp only [hst, not_true_eq_false, if_false, hsub, hc, and_self]
          rw [hr.1, hr.2]
          refine ⟨fun m' d' => ?_, fun v' => ?_, fun _ => by simp⟩
          · simp [hst]
          · constructor
            · intro h
              injection h with h; subst h
              exact ⟨m, d, rfl, hc⟩
            · rintro ⟨m', d', h, h'⟩
              simp only [Option.some.injEq, Prod.mk.injEq] at h
              obtain ⟨rfl, rfl⟩ := h
              rw [← h', hc]
    · have hr : run w args = ⟨some (cmd, b), none, none, .startFailed⟩ := by
        unfold run; rw [hs]; simp only; rw [if_pos hst]
      rw [hr]
      refine ⟨fun m d => ⟨fun h => (by cases h), fun h => absurd h.1 hst⟩,
        fun v => ⟨fun h => (by cases h), ?_⟩, fun h => (by cases h)⟩
      rintro ⟨m, d, h, _⟩; cases h

theorem reply_plain {e : Env} {w : World} (hw : Connected e w.call) {args : List Str} {cmd : Str}
    {b q : List Str} {c : Rpc.Spec.Call} {arg : Arg} {v : Json} (hl : Line args cmd b q)
    (hq : Query q c arg) (h : (run w args).printed = some v) :
    ∃ (r : Request Json Json) (p : Json), c.Name r.method ∧ r.params = some p ∧
      argument (reached c) p = some arg ∧ Answers (world e) r (.result v) ∧ JsonText.Spec.Plain 9999 v := by
  obtain ⟨m, d, hcalled, hc⟩ := (c63_called.2.1 v).mp h
  obtain ⟨cmd', b', q', hl', -, hsub⟩ := (c63_called.1 m d).mp hcalled
  have := c63_split.mpr hl
  rw [c63_split.mpr hl'] at this
  simp only [Except.ok.injEq, Prod.mk.injEq] at this
  obtain ⟨-, -, rfl⟩ := this
  obtain ⟨m', d', h1, h2, h3⟩ := c63_query (parse := w.parse) hq
  rw [hsub] at h1
  simp only [Except.ok.injEq, Prod.mk.injEq] at h1
  obtain ⟨rfl, rfl⟩ := h1
  obtain ⟨short, short', s, t, i, cl, x, s1, s2, s3, s4, s5, s6, s7⟩ := hw _ _ _ hc
  obtain ⟨n, v', hx, hn, hp⟩ := JsonText.joined_reply s1 s2 s3 s6
  rw [s7] at hx
  injection hx with hx
  subst hx
  refine ⟨_, _, ?_, rfl, ?_, hn, hp⟩
  · rw [← s4] at h2; exact h2
  · rw [s5]; exact h3

/-- C63: what is printed is an answer of the backend to the query on the command line. -/
theorem c63_reply {e : Env} {w : World} (hw : Connected e w.call) {args : List Str} {cmd : Str}
    {b q : List Str} {c : Rpc.Spec.Call} {arg : Arg} {v : Json} (hl : Line args cmd b q)
    (hq : Query q c arg) (h : (run w args).printed = some v) :
    ∃ (r : Request Json Json) (p : Json), c.Name r.method ∧ r.params = some p ∧
      argument (reached c) p = some arg ∧ Answers (world e) r (.result v) := by
  obtain ⟨r, p, h1, h2, h3, h4, -⟩ := reply_plain hw hl hq h
  exact ⟨r, p, h1, h2, h3, h4⟩

/-- C63: links printed by `mentions` are written in source files of the backend and their addresses
are variants of those on the command line; there are at most 8 of them. -/
theorem c63_mentions {e : Env} {w : World} (hw : Connected e w.call) {args : List Str} {cmd : Str}
    {b us : List Str} {v : Json} (hl : Line args cmd b ("mentions".toList :: us))
    (h : (run w args).printed = some v) :
    (∀ path url n, (path, url, n) ∈ seen v → Written e path url n ∧ Asked ⟨us, none⟩ url) ∧
    ∀ f : Str → Bool, (∀ u, f u = true ↔ Asked ⟨us, none⟩ u) → demand e f < 2 ^ 31 →
      (inside "Link" v).length ≤ 8 := by
  obtain ⟨r, p, h1, h2, h3, h4⟩ := c63_reply hw hl .mentions h
  obtain ⟨p', q', g1, g2, g3, -⟩ := Backend.c62_sound h1 h4
  obtain rfl := Option.some.inj (h2.symm.trans g1)
  have : Arg.urlMentions ⟨us, none⟩ = Arg.urlMentions q' := Option.some.inj (h3.symm.trans g2)
  injection this with this
  subst this
  refine ⟨g3, fun f hf hd => ?_⟩
  have := Backend.c62_limit hf h1 h4 h2 h3 (show (0 : Int) ≤ 8 by decide) hd
  have e8 : Tree.MentionsQuery.limit ⟨us, none⟩ = 8 := rfl
  omega

/-- C63: links of files of the backend that are asked for are printed by `mentions` if there are at
most 8 of them. -/
theorem c63_mentions_all {e : Env} {w : World} (hw : Connected e w.call) {args : List Str}
    {cmd : Str} {b us : List Str} {v : Json} (hl : Line args cmd b ("mentions".toList :: us))
    (h : (run w args).printed = some v) {f : Str → Bool} (hf : ∀ u, f u = true ↔ Asked ⟨us, none⟩ u)
    (hd : demand e f ≤ 8) {path url : Str} {n : Int} (hwr : Written e path url n)
    (ha : Asked ⟨us, none⟩ url) : ∃ n', (path, url, n') ∈ seen v := by
  obtain ⟨r, p, h1, h2, h3, h4⟩ := c63_reply hw hl .mentions h
  have e8 : Tree.MentionsQuery.limit ⟨us, none⟩ = 8 := rfl
  exact Backend.c62_complete hf h1 h4 h2 h3 (by rw [e8]; exact hd)
    (by rw [e8]; omega) hwr ha

/-- C63: if `visit` prints something then it is `true` and the last file on the command line is a
source file of the backend. -/
theorem c63_visit {e : Env} {w : World} (hw : Connected e w.call) {args : List Str} {cmd : Str}
    {b ws : List Str} {ss : List Setting} {v : Json} (hl : Line args cmd b ("visit".toList :: ws))
    (hs : AllWords ss ws) (h : (run w args).printed = some v) :
    v = .bool true ∧ ∃ src ∈ e.sources, src.name = file ss [] := by
  obtain ⟨r, p, h1, h2, h3, h4⟩ := c63_reply hw hl (.visit hs) h
  obtain ⟨p', q', g1, g2, g3, g4⟩ := Backend.c62_visit h1 h4
  obtain rfl := Option.some.inj (h2.symm.trans g1)
  have : Arg.visit _ = Arg.visit q' := Option.some.inj (h3.symm.trans g2)
  injection this with this
  subst this
  exact ⟨g3, g4⟩

/-- C63: addresses printed by `set` begin with prefixes on the command line and are written in the
files; there are at most 16 prefixes. -/
theorem c63_set {e : Env} {w : World} (hw : Connected e w.call) {args : List Str} {cmd : Str}
    {b ps : List Str} {v : Json} (hl : Line args cmd b ("set".toList :: ps))
    (h : (run w args).printed = some v) :
    e.disableLinkSet = false ∧ ps.length ≤ 16 ∧ ∃ us, member "urls" v = some (.arr us) ∧
      Backend.Spec.Listed e ps us := by
  obtain ⟨r, p, h1, h2, h3, h4⟩ := c63_reply hw hl .set h
  obtain ⟨p', ps', us, g1, g2, g3, g4, g5, g6⟩ := Backend.c62_linkSet h1 h4
  obtain rfl := Option.some.inj (h2.symm.trans g1)
  have : Arg.linkSet ps = Arg.linkSet ps' := Option.some.inj (h3.symm.trans g2)
  injection this with this
  subst this
  exact ⟨g4, g5, us, g3, g6⟩

/-- C63 fails for two `--` at the beginning: the program panics instead of an explanation. -/
theorem c63_violation_crash (w : World) (args : List Str) :
    (run w (dashes :: dashes :: args)).outcome = .crash := rfl

theorem subcommand_error {parse : Str → Option Json} {q : List Str} {o : Outcome}
    (h : subcommand parse q = .error o) : o = .noSubcommand ∨ o = .badQuery := by
  unfold subcommand at h
  have no : ∀ {o' : Outcome}, (Except.error o' : Except Outcome (Str × Json)) = .error o → o' = o :=
    fun h => by injection h
  split at h
  · exact .inl (no h).symm
  · split at h
    · split at h
      · exact .inr (no h).symm
      · cases h
    · split at h
      · cases h
      · split at h
        · split at h
          · cases h
          · exact .inr (no h).symm
        · split at h
          · split at h
            · cases h
            · split at h
              · exact .inr (no h).symm
              · cases h
            · exact .inr (no h).symm
          · split at h
            · cases h
            · exact .inl (no h).symm

/-- C63, for command lines without two `--` at the beginning: there is no panic. -/
theorem c63_no_crash_partial {w : World} {args : List Str}
    (h : ∀ rest, args ≠ dashes :: dashes :: rest) : (run w args).outcome ≠ .crash := by
  intro hc
  have key : ∀ l, split l = .error .crash → ∃ l', l = dashes :: l' := by
    intro l hl
    match l with
    | [] => cases hl
    | a :: l =>
      simp only [split] at hl
      split at hl
      · rename_i h0
        by_cases ha : a = dashes
        · exact ⟨l, by rw [ha]⟩
        · rw [separator, if_neg ha] at h0
          omega
      · split at hl <;> cases hl
  unfold run at hc
  split at hc
  · rename_i o hs
    simp only at hc
    subst hc
    match args with
    | [] => cases hs
    | a :: args =>
      rw [topFlags] at hs
      split at hs
      · rename_i hp
        obtain ⟨l', hl⟩ := key (a :: args) hs
        injection hl with hl _
        rw [classify_stop.mpr hl] at hp
        cases hp
      · rename_i hp
        obtain ⟨l', hl⟩ := key args hs
        exact h l' (by rw [hl, classify_stop.mp hp])
      · cases hs
      · split at hs <;> cases hs
  · split at hc
    · cases hc
    · split at hc
      · rename_i o hs
        simp only at hc
        subst hc
        rcases subcommand_error hs with h | h <;> cases h
      · split at hc
        · cases hc
        · simp only at hc
          split at hc
          · cases hc
          · split at hc <;> cases hc

/-- C63: a run succeeds exactly if a result has been printed, then the connection has been closed and
the command of the backend has succeeded. -/
theorem c63_done {w : World} {args : List Str} : (run w args).outcome = .done ↔
    (∃ v, (run w args).printed = some v) ∧ w.close = true ∧ w.wait = true := by
  constructor
  · intro h
    have hp := c63_called.2.2 h
    cases hv : (run w args).printed with
    | none => exact absurd hv hp
    | some v =>
      refine ⟨⟨v, rfl⟩, ?_⟩
      unfold run at h hv
      split at h
      · rename_i hs; rw [hs] at hv; cases hv
      · rename_i hs
        rw [hs] at hv
        simp only at hv
        split at h
        · cases h
        · rename_i h1
          rw [if_neg h1] at hv
          split at h
          · rename_i h2; rw [h2] at hv; cases hv
          · rename_i h2
            rw [h2] at hv
            simp only at hv
            split at h
            · cases h
            · simp only at h
              split at h
              · cases h
              · split at h
                · cases h
                · rename_i h3 h4
                  exact ⟨by simpa using h3, by simpa using h4⟩
  · rintro ⟨⟨v, hv⟩, hc, hw⟩
    unfold run at hv ⊢
    split
    · rename_i hs; rw [hs] at hv; cases hv
    · rename_i hs
      rw [hs] at hv
      simp only at hv
      split
      · rename_i h1; rw [if_pos h1] at hv; cases hv
      · rename_i h1
        rw [if_neg h1] at hv
        split
        · rename_i h2; rw [h2] at hv; cases hv
        · rename_i h2
          rw [h2] at hv
          simp only at hv
          split
          · rename_i h3; rw [h3] at hv; cases hv
          · rfl

/-! ### Cases -/

/-- A result of a method reaches the program. -/
theorem connected_of {e : Env} {call : Str → Json → Option Json}
    (h : ∀ m d v, call m d = some v → ∃ meth arg, Rpc.dispatch m = .ok meth ∧
      argument meth (.arr [d]) = some arg ∧ Backend.Returns e meth arg v none ∧ JsonText.Spec.Plain 9998 d ∧
      JsonText.Spec.Plain 9999 v ∧ v ≠ .null ∧
      (JsonText.requestText true ⟨some 0, m, some (.arr [d])⟩).length ≤ 2 ^ 30 ∧
      (JsonText.replyText true ⟨some (JsonText.encNat 0), .result v⟩).length ≤ 2 ^ 30) :
    Connected e call := by
  intro m d v hc
  obtain ⟨meth, arg, h1, h2, h3, h4, h5, h6, h7, h8⟩ := h m d v hc
  obtain ⟨s, t, k, -, -, -, -, -, g1, g2, g3, -, -, -, -, -, g4⟩ := JsonText.joined_one true true
    (c := ⟨m, .arr [d], fun _ => true⟩) h1 h2 h3 (by simpa [JsonText.Spec.Plain, JsonText.Spec.AllPlain] using h4)
    (by simp) h5 h6 rfl h7 h8 [] []
  exact ⟨true, true, s, t, 0, _, _, g1, g2, by rw [g3]; rfl, rfl, rfl, by rw [g4]; simp,
    JsonText.c68_roundtrip true (JsonText.plain_mono _ _ 10000 (by omega) h5)⟩

def k (s : String) : Str := s.toList

/-- `burl_client burl_backend --txt a.txt --txt b.txt -- mentions http://a/` -/
def exLine : List Str := [k "burl_backend", k "--txt", k "a.txt", k "--txt", k "b.txt", k "--",
  k "mentions", k "http://a/"]

theorem exLine_line : Line exLine (k "burl_backend")
    [k "--txt", k "a.txt", k "--txt", k "b.txt"] [k "mentions", k "http://a/"] :=
  .bare (cmd := k "burl_backend") (args := [k "--txt", k "a.txt", k "--txt", k "b.txt"])
    (queries := [k "mentions", k "http://a/"]) (.inr (.inr (by decide +kernel))) (by decide +kernel) (by simp)

open Classical in
/-- One call is answered. -/
noncomputable def only (m : Str) (d v : Json) : World :=
  ⟨fun _ => none, fun _ _ => true, fun m' d' => if m' = m ∧ d' = d then some v else none, true, true⟩

theorem only_run {args : List Str} {cmd : Str} {b q : List Str} {m : Str} {d v : Json}
    (hl : Line args cmd b q) (hs : subcommand (fun _ => none) q = .ok (m, d)) :
    (run (only m d v) args).printed = some v ∧ (run (only m d v) args).outcome = .done := by
  have hp : (run (only m d v) args).printed = some v :=
    (c63_called.2.1 v).2 ⟨m, d, (c63_called.1 m d).2 ⟨cmd, b, q, hl, rfl, hs⟩, if_pos ⟨rfl, rfl⟩⟩
  exact ⟨hp, c63_done.2 ⟨⟨v, hp⟩, rfl, rfl⟩⟩

theorem only_connected {e : Env} {m : Str} {d v : Json} {meth : Rpc.Method} {arg : Arg}
    (h1 : Rpc.dispatch m = .ok meth) (h2 : argument meth (.arr [d]) = some arg)
    (h3 : Backend.Returns e meth arg v none) (h4 : JsonText.Spec.Plain 9998 d)
    (h5 : JsonText.Spec.Plain 9999 v) (h6 : v ≠ .null)
    (h7 : (JsonText.requestText true ⟨some 0, m, some (.arr [d])⟩).length ≤ 2000)
    (h8 : (JsonText.replyText true ⟨some (JsonText.encNat 0), .result v⟩).length ≤ 2000) :
    Connected e (only m d v).call := by
  refine connected_of fun m' d' v' h => ?_
  simp only [only] at h
  split at h
  · rename_i hc
    obtain ⟨rfl, rfl⟩ := hc
    injection h with h
    subst h
    exact ⟨meth, arg, h1, h2, h3, h4, h5, h6, by omega, by omega⟩
  · cases h

/-- Hypotheses of `c63_mentions` and `c63_mentions_all` are met: both files are printed. -/
example : ∃ w v, Connected Backend.exTwo w.call ∧ (run w exLine).printed = some v ∧
    (run w exLine).outcome = .done ∧ seen v = [(k "a.txt", k "http://a", 1), (k "b.txt", k "http://a", 1)] := by
  have hy : ∃ y v, Backend.exTwoReply 8 = .ok y ∧ Json.renderR y = .ok v ∧ seen v =
      [(k "a.txt", k "http://a", 1), (k "b.txt", k "http://a", 1)] ∧ JsonText.Spec.Plain 9999 v ∧ v ≠ .null ∧
      (JsonText.replyText true ⟨some (JsonText.encNat 0), .result v⟩).length ≤ 2000 := by
    exact ⟨_, _, rfl, rfl, by decide +kernel, JsonText.plain_of _ _ (by decide +kernel), nofun, by decide +kernel⟩
  obtain ⟨y, v, hy, hv, h3, h4, h5, h6⟩ := hy
  have hret := Backend.exTwo_returns none hy hv
  obtain ⟨h7, h8⟩ := only_run (v := v) exLine_line rfl
  exact ⟨_, v, only_connected (meth := .urlMentions) rfl rfl hret
    (JsonText.plain_of _ _ (by decide +kernel))
    h4 h5 (by decide +kernel) h6, h7, h8, h3⟩

/-- Hypotheses of `c63_visit` are met: the last file is opened. -/
example : ∃ ss, AllWords ss [k "--file=a.txt", k "-line", k "1", k "--file", k "b.txt"] ∧
    file ss [] = k "b.txt" ∧ line ss 0 = 1 :=
  ⟨[.file (k "a.txt"), .line (k "1") 1, .file (k "b.txt")],
    .cons (w := [k "--file=a.txt"]) (.file2 (d := k "--") (.inr rfl))
      (.cons (w := [k "-line", k "1"]) (.line1 (d := k "-") (.inl rfl)
        ⟨by decide +kernel, by decide +kernel, by decide +kernel, by decide +kernel, by decide⟩)
        (.cons (w := [k "--file", k "b.txt"]) (.file1 (d := k "--") (.inr rfl)) .nil)), rfl, rfl⟩

/-- Hypotheses of `c63_set` are met, and the result reaches the program. -/
example : ∃ w v, Connected Backend.exTwo w.call ∧
    (run w [k "--", k "-b", k "--", k "set", k "http"]).printed = some v ∧
    member "urls" v = some (.arr [.str (k "http://a")]) := by
  have hg : ∃ o, Links.setGroup Backend.exTwo.letter (fun _ => some ([k "http://a"], none))
      [k "http"] Backend.exTwo.sources [] = .ok ([k "http://a"], none, o) :=
    ⟨[k "a.txt", k "b.txt"], by decide +kernel⟩
  obtain ⟨o, hg⟩ := hg
  have hl : Line [k "--", k "-b", k "--", k "set", k "http"] (k "-b") [] [k "set", k "http"] :=
    .after (cmd := k "-b") (args := []) (queries := [k "set", k "http"]) (by decide +kernel) (by simp) (by simp)
  obtain ⟨h7, -⟩ := only_run (v := Backend.linkSetJson [k "http://a"]) hl rfl
  exact ⟨_, _, only_connected (meth := .linkSet) rfl rfl
    (.linkSet rfl (.ok rfl (by decide) hg (List.Perm.refl _)))
    (JsonText.plain_of _ _ (by decide +kernel))
    (JsonText.plain_of _ _ (by decide +kernel))
    (by simp [Backend.linkSetJson]) (by decide +kernel) (by decide +kernel), h7, rfl⟩

/-- Command lines that are refused: there is no query, there is no command, an unknown option. -/
example (w : World) : (run w [k "burl_backend", k "hello"]).outcome = .usage ∧
    (run w [k "burl_backend", k "--"]).outcome = .usage ∧ (run w []).outcome = .usage ∧
    (run w [k "-x", k "burl_backend", k "--", k "hello"]).outcome = .badFlags ∧
    (run w [k "-help"]).outcome = .help := ⟨rfl, rfl, rfl, rfl, rfl⟩

/-- Queries that are refused after the backend has been started. -/
example (w : World) (hw : w.start (k "b") [] = true) :
    (run w [k "b", k "--", k "capture"]).outcome = .badQuery ∧
    (run w [k "b", k "--", k "search", k "x"]).outcome = .noSubcommand ∧
    (run w [k "b", k "--", k "visit", k "--line", k "x"]).outcome = .badQuery := by
  have h1 : ∀ q, split (k "b" :: k "--" :: q) = _ := fun q => rfl
  refine ⟨?_, ?_, ?_⟩ <;>
  · show (if ¬w.start (k "b") [] = true then _ else _ : Run).outcome = _
    rw [if_neg (by simp [hw])]
    rfl

/-- Numbers as `strconv` reads them. -/
example : parseInt (k "0x1F") = some 31 ∧ parseInt (k "1_000") = some 1000 ∧ parseInt (k "-12") = some (-12) ∧
    parseInt (k "1__0") = none ∧ parseInt (k "08") = none ∧ parseInt (k "9223372036854775808") = none ∧
    parseInt (k "-9223372036854775808") = some (-2 ^ 63) ∧ parseInt (k "_1") = none := by
  decide +kernel

end Burl.Tool.Client
