import Verif.Args.ManifestProps
import Verif.Tool.LineProps
/-! The command line of the backend (C65). -/
namespace Burl.Backend.Line
open Burl Burl.Args
open Burl.Tool.Client (classify_plain classify_stop)
open Burl.Tool.Client.Spec (NotOption dashes)
open Burl.Tool.Line (classify_inv)

namespace Spec

/-- Names of options. -/
def names : Flag → List String
  | .log => ["log"]
  | .scheme => ["scheme"]
  | .disableLinkSet => ["disable-link-set"]
  | .emacsclient => ["emacsclient"]
  | .emacsarg => ["emacsarg"]
  | .txt => ["txt"]
  | .org => ["org"]
  | .backend => ["backend"]
  | .manifestFirefox => ["manifest-firefox"]
  | .mozillaExtension => ["mozilla-extension"]
  | .manifestChrome => ["manifest-chrome"]
  | .chromeExtension => ["chrome-extension"]
  | .wrapper => ["wrapper"]
  | .force => ["force"]
  | .help => ["h", "help"]
  | .version => ["version", "v", "V"]

/-- Options that need no value. -/
def Switch (f : Flag) : Prop := f = .disableLinkSet ∨ f = .force ∨ f = .help ∨ f = .version

/-- Options that may be given several times. -/
def Several (f : Flag) : Prop :=
  f = .scheme ∨ f = .emacsarg ∨ f = .mozillaExtension ∨ f = .chromeExtension

/-- An option with its value. -/
abbrev Opt := Flag × Str

/-- How an option may be written. -/
inductive Words : Opt → List Str → Prop where
  | two {f n v d} : d = "-".toList ∨ d = "--".toList → n ∈ names f → ¬Switch f →
      Words (f, v) [d ++ String.toList n, v]
  | one {f n v d} : d = "-".toList ∨ d = "--".toList → n ∈ names f →
      Words (f, v) [d ++ String.toList n ++ "=".toList ++ v]
  | switch {f n d} : d = "-".toList ∨ d = "--".toList → n ∈ names f → Switch f →
      Words (f, "true".toList) [d ++ String.toList n]

/-- Several options. -/
inductive AllWords : List Opt → List Str → Prop where
  | nil : AllWords [] []
  | cons {o os w ws} : Words o w → AllWords os ws → AllWords (o :: os) (w ++ ws)

/-- A command line: options, then arguments. -/
inductive Written (os : List Opt) (rest : List Str) : List Str → Prop where
  | plain {ws} : AllWords os ws → (∀ a, rest.head? = some a → NotOption a) →
      Written os rest (ws ++ rest)
  | dashes {ws} : AllWords os ws → Written os rest (ws ++ dashes :: rest)

/-- Values given to an option. -/
def given (f : Flag) : List Opt → List Str
  | [] => []
  | (g, v) :: os => if g = f then v :: given f os else given f os

/-- Words for truth values. -/
def Yes (v : Str) : Prop :=
  v ∈ (["1", "t", "T", "true", "TRUE", "True"] : List String).map String.toList
def No (v : Str) : Prop :=
  v ∈ (["0", "f", "F", "false", "FALSE", "False"] : List String).map String.toList

/-- What options are accepted: values of switches are truth values; an empty value, which drops the
default ones, may be given to an option only if the first value of this option is an empty one. -/
structure Acceptable (os : List Opt) : Prop where
  switch : ∀ f, Switch f → ∀ v ∈ given f os, Yes v ∨ No v
  several : ∀ f, Several f → (given f os).head? = some [] ∨ ∀ v ∈ given f os, v ≠ []

/-- The last value given to an option. -/
def last (f : Flag) (default : String) (os : List Opt) : Str :=
  (given f os).getLastD default.toList

/-- Whether a switch is on. -/
def On (f : Flag) (os : List Opt) : Prop := ∃ v, (given f os).getLast? = some v ∧ Yes v

/-- The values of an option that may be given several times: added to the default ones, or those
after the last empty value. -/
inductive Chosen (ds vs : List Str) : List Str → Prop where
  | added : (∀ v ∈ vs, v ≠ []) → Chosen ds vs (ds ++ vs)
  | reset {pre post} : vs = pre ++ [] :: post → (∀ v ∈ post, v ≠ []) → Chosen ds vs post

/-- Files given by options. -/
def typed : List Opt → List Source
  | [] => []
  | (.org, n) :: os => ⟨.org, n⟩ :: typed os
  | (.txt, n) :: os => ⟨.txt, n⟩ :: typed os
  | _ :: os => typed os

/-- Settings given by a command line. -/
structure Means (d : Defaults) (os : List Opt) (rest : List Str) (c : Config) : Prop where
  logFile : c.logFile = last .log "-" os
  emacsCommand : c.emacsCommand = last .emacsclient "emacsclient" os
  backendName : c.backendName = last .backend "" os
  wrapper : c.wrapper = last .wrapper "" os
  firefox : c.firefox = last .manifestFirefox "" os
  chrome : c.chrome = last .manifestChrome "" os
  disableLinkSet : c.disableLinkSet = true ↔ On .disableLinkSet os
  force : c.force = true ↔ On .force os
  help : c.help = true ↔ On .help os
  version : c.version = true ↔ On .version os
  scheme : Chosen d.scheme (given .scheme os) c.scheme.values
  schemeModified : c.scheme.isModified = true ↔ given .scheme os ≠ []
  emacsArgs : Chosen d.emacsArgs (given .emacsarg os) c.emacsArgs.values
  mozillaIds : Chosen [d.mozilla] (given .mozillaExtension os) c.mozillaIds.values
  chromeIds : Chosen [d.chrome] (given .chromeExtension os) c.chromeIds.values
  sources : ∃ ss, SourcesOf rest ss ∧ c.sources = typed os ++ ss

end Spec
open Burl.Backend.Line.Spec

/-! ### Parsing -/

/-- Options one after another. -/
def applyAll (c : Config) : List Opt → Res Unit Config
  | [] => .ok c
  | (f, v) :: os => (f.set v c).bind fun c' => applyAll c' os

theorem isBool_iff {f : Flag} : f.isBool = true ↔ Switch f := by
  unfold Switch
  cases f <;> simp [Flag.isBool]

theorem lookup_name {f : Flag} {n : String} (h : n ∈ names f) :
    flagNames.lookup n.toList = some f := by
  have key : ∀ f : Flag, ∀ n ∈ names f, flagNames.lookup n.toList = some f := by
    intro f
    cases f <;> decide +kernel
  exact key f n h

theorem name_lookup {f : Flag} {n : Str} (h : flagNames.lookup n = some f) :
    ∃ m ∈ names f, n = String.toList m := by
  have key : ∀ p ∈ flagNames, ∃ m ∈ names p.2, p.1 = String.toList m := by decide +kernel
  have hm : (n, f) ∈ flagNames := by
    have : ∀ l : List (Str × Flag), l.lookup n = some f → (n, f) ∈ l := by
      intro l
      induction l with
      | nil => intro h; cases h
      | cons p l ih =>
        obtain ⟨k, g⟩ := p
        intro h
        rw [List.lookup_cons] at h
        split at h
        · rename_i e
          have e := beq_iff_eq.mp e
          injection h with h
          rw [e, h]
          exact List.mem_cons_self
        · exact List.mem_cons_of_mem _ (ih h)
    exact this _ h
  exact key (n, f) hm

theorem classify_name {f : Flag} {n : String} {d : Str} (hd : d = "-".toList ∨ d = "--".toList)
    (hn : n ∈ names f) (v : Str) :
    classify (d ++ n.toList) = .flag n.toList none ∧
    classify (d ++ n.toList ++ "=".toList ++ v) = .flag n.toList (some v) := by
  have key : ∀ f : Flag, ∀ n ∈ names f,
      ((∃ b t, n.toList = b :: t ∧ b ≠ '-' ∧ b ≠ '=') ∧ '=' ∉ n.toList) := by
    intro f
    cases f <;> simp only [names, List.forall_mem_cons] <;>
      exact ⟨⟨⟨_, _, rfl, by decide, by decide⟩, by decide⟩, by simp⟩
  obtain ⟨⟨b, t, hb, h1, h2⟩, h3⟩ := key f n hn
  have hs1 : splitEq n.toList = (n.toList, none) := by
    unfold splitEq
    have hnil : ∀ l : Str, '=' ∉ l → l.dropWhile (· != '=') = [] := by
      intro l
      induction l with
      | nil => exact fun _ => rfl
      | cons c cs ih =>
        intro h
        have hc : c ≠ '=' := fun hh => h (by rw [hh]; exact List.mem_cons_self)
        rw [List.dropWhile_cons, if_pos (by simpa using hc)]
        exact ih (fun hh => h (List.mem_cons_of_mem _ hh))
    rw [hnil _ h3]
  have hs2 : splitEq (n.toList ++ '=' :: v) = (n.toList, some v) := splitEq_eq h3
  rw [hb] at hs1 hs2 ⊢
  have e2 : ∀ d : Str, d ++ b :: t ++ "=".toList ++ v = d ++ (b :: t ++ '=' :: v) := by
    intro d; simp
  rw [e2]
  rcases hd with rfl | rfl
  · constructor
    · show classify ('-' :: b :: t) = _
      unfold classify
      simp only [if_neg h1]
      rw [if_neg (fun h => h1 h.1), if_neg (by rintro (h | h) <;> contradiction), hs1]
    · show classify ('-' :: b :: (t ++ '=' :: v)) = _
      unfold classify
      simp only [if_neg h1]
      rw [if_neg (fun h => h1 h.1), if_neg (by rintro (h | h) <;> contradiction)]
      rw [← List.cons_append, hs2]
  · constructor
    · show classify ('-' :: '-' :: b :: t) = _
      unfold classify
      simp only [if_true]
      rw [if_neg (by rintro ⟨_, h⟩; cases h), if_neg (by rintro (h | h) <;> contradiction), hs1]
    · show classify ('-' :: '-' :: b :: (t ++ '=' :: v)) = _
      unfold classify
      simp only [if_true]
      rw [if_neg (by rintro ⟨_, h⟩; cases h), if_neg (by rintro (h | h) <;> contradiction)]
      rw [← List.cons_append, hs2]

theorem parse_words {o : Opt} {w : List Str} (h : Words o w) (c : Config) (args : List Str) :
    parse c (w ++ args) = (o.1.set o.2 c).bind fun c' => parse c' args := by
  cases h with
  | @two f n v d hd hn hs =>
    rw [List.cons_append, parse.eq_def]
    simp only [(classify_name hd hn v).1, List.cons_append, List.nil_append, lookup_name hn]
    rw [if_neg (fun h => hs (isBool_iff.mp h))]
  | @one f n v d hd hn =>
    rw [List.cons_append, parse.eq_def]
    simp only [(classify_name hd hn v).2, List.nil_append, lookup_name hn]
  | @switch f n d hd hn hs =>
    rw [List.cons_append, parse.eq_def]
    simp only [(classify_name hd hn []).1, List.nil_append, lookup_name hn]
    rw [if_pos (isBool_iff.mpr hs)]

theorem parse_all {os : List Opt} {ws : List Str} (h : AllWords os ws) (c : Config)
    (args : List Str) : parse c (ws ++ args) = (applyAll c os).bind fun c' => parse c' args := by
  induction h generalizing c with
  | nil => rfl
  | @cons o os w ws hw _ ih =>
    rw [List.append_assoc, parse_words hw, applyAll]
    cases o.1.set o.2 c with
    | ok c' => simp only [Res.bind_ok]; exact ih c'
    | err e => rfl
    | panic => rfl

theorem parse_written {os : List Opt} {rest args : List Str} (h : Written os rest args)
    (c : Config) : parse c args = (applyAll c os).bind fun c' => .ok (c', rest) := by
  cases h with
  | plain h1 h2 =>
    rw [parse_all h1]
    congr 1
    funext c'
    cases rest with
    | nil => rfl
    | cons a rest => rw [parse.eq_def]; simp only [classify_plain.mpr (h2 a rfl)]
  | dashes h1 =>
    rw [parse_all h1]
    rfl

theorem bind_ok_inv {α β : Type} {r : Res Unit α} {f : α → Res Unit β} {b : β}
    (h : r.bind f = .ok b) : ∃ a, r = .ok a ∧ f a = .ok b := by
  cases r with
  | ok a => exact ⟨a, rfl, h⟩
  | err e => cases h
  | panic => cases h

theorem parse_ok {args : List Str} {c c' : Config} {rest : List Str}
    (h : parse c args = .ok (c', rest)) : ∃ os, Written os rest args := by
  induction hn : args.length using Nat.strongRecOn generalizing args c with
  | ind n ih =>
  subst hn
  have add : ∀ {o : Opt} {c1 : Config} {w more : List Str}, Words o w → args = w ++ more → w ≠ [] →
      parse c1 more = .ok (c', rest) → ∃ os, Written os rest args := by
    intro o c1 w more hw he hne hp
    have := List.length_pos_iff.mpr hne
    obtain ⟨os, hl⟩ := ih more.length (by rw [he, List.length_append]; omega) hp rfl
    refine ⟨o :: os, ?_⟩
    rw [he]
    cases hl with
    | plain h1 h2 => rw [← List.append_assoc]; exact .plain (.cons hw h1) h2
    | dashes h1 => rw [← List.append_assoc]; exact .dashes (.cons hw h1)
  rw [parse.eq_def] at h
  split at h
  · simp only [Res.ok.injEq, Prod.mk.injEq] at h
    obtain ⟨rfl, rfl⟩ := h
    exact ⟨[], .plain (ws := []) .nil (by simp)⟩
  · rename_i a args
    split at h
    · rename_i hc
      simp only [Res.ok.injEq, Prod.mk.injEq] at h
      obtain ⟨rfl, rfl⟩ := h
      refine ⟨[], .plain (ws := []) .nil ?_⟩
      intro x hx
      simp only [List.head?_cons, Option.some.injEq] at hx
      subst hx
      exact classify_plain.mp hc
    · rename_i hc
      simp only [Res.ok.injEq, Prod.mk.injEq] at h
      obtain ⟨rfl, rfl⟩ := h
      rw [classify_stop.mp hc]
      exact ⟨[], .dashes (ws := []) .nil⟩
    · cases h
    · rename_i name value hc
      obtain ⟨d, hd, ha1, ha2⟩ := classify_inv hc
      split at h
      · cases h
      · rename_i f hf
        obtain ⟨m, hm, rfl⟩ := name_lookup hf
        split at h
        · rename_i v
          obtain ⟨c1, _, hp⟩ := bind_ok_inv h
          refine add (o := (f, v)) (w := [a]) ?_ rfl (by simp) hp
          rw [ha2 _ rfl]; exact .one hd hm
        · by_cases hb : f.isBool = true
          · rw [if_pos hb] at h
            obtain ⟨c1, _, hp⟩ := bind_ok_inv h
            refine add (o := (f, "true".toList)) (w := [a]) ?_ rfl (by simp) hp
            rw [ha1 rfl]; exact .switch hd hm (isBool_iff.mp hb)
          · rw [if_neg hb] at h
            split at h
            · cases h
            · rename_i v args'
              obtain ⟨c1, _, hp⟩ := bind_ok_inv h
              refine add (o := (f, v)) (w := [a, v]) ?_ rfl (by simp) hp
              rw [ha1 rfl]; exact .two hd hm (fun h => hb (isBool_iff.mpr h))

/-! ### Settings -/

theorem parseBool_ok {v : Str} {b : Bool} (h : parseBool v = .ok b) : b = true ↔ Yes v := by
  unfold parseBool at h
  split at h
  · rename_i hv
    cases h
    exact ⟨fun _ => hv, fun _ => rfl⟩
  · rename_i hv
    split at h
    · cases h
      exact ⟨nofun, fun h => absurd h hv⟩
    · cases h

theorem parseBool_iff {v : Str} : (∃ b, parseBool v = .ok b) ↔ Yes v ∨ No v := by
  unfold parseBool
  split
  · rename_i hv; exact ⟨fun _ => .inl hv, fun _ => ⟨_, rfl⟩⟩
  · rename_i hv
    split
    · rename_i hw; exact ⟨fun _ => .inr hw, fun _ => ⟨_, rfl⟩⟩
    · rename_i hw
      exact ⟨fun ⟨_, h⟩ => (nomatch h), fun h => h.elim (fun h => absurd h hv) (fun h => absurd h hw)⟩

/-- A switch after several values. -/
def Bit : List Str → Bool → Bool → Prop
  | [], b, b' => b' = b
  | v :: vs, _, b' => ∃ b, parseBool v = .ok b ∧ Bit vs b b'

/-- The settings as functions of the values of options. -/
structure Apply (c : Config) (os : List Opt) (c' : Config) : Prop where
  logFile : c'.logFile = (given .log os).getLastD c.logFile
  emacsCommand : c'.emacsCommand = (given .emacsclient os).getLastD c.emacsCommand
  backendName : c'.backendName = (given .backend os).getLastD c.backendName
  wrapper : c'.wrapper = (given .wrapper os).getLastD c.wrapper
  firefox : c'.firefox = (given .manifestFirefox os).getLastD c.firefox
  chrome : c'.chrome = (given .manifestChrome os).getLastD c.chrome
  disableLinkSet : Bit (given .disableLinkSet os) c.disableLinkSet c'.disableLinkSet
  force : Bit (given .force os) c.force c'.force
  help : Bit (given .help os) c.help c'.help
  version : Bit (given .version os) c.version c'.version
  scheme : c.scheme.setAll (given .scheme os) = .ok c'.scheme
  emacsArgs : c.emacsArgs.setAll (given .emacsarg os) = .ok c'.emacsArgs
  mozillaIds : c.mozillaIds.setAll (given .mozillaExtension os) = .ok c'.mozillaIds
  chromeIds : c.chromeIds.setAll (given .chromeExtension os) = .ok c'.chromeIds
  sources : c'.sources = c.sources ++ typed os

theorem getLastD_cons (a b : Str) (l : List Str) : (a :: l).getLastD b = l.getLastD a := by
  cases l <;> rfl

theorem apply_cons {f : Flag} {v : Str} {c c1 c' : Config} {os : List Opt}
    (h1 : f.set v c = .ok c1) (h2 : Apply c1 os c') : Apply c ((f, v) :: os) c' := by
  obtain ⟨a1, a2, a3, a4, a5, a6, a7, a8, a9, a10, a11, a12, a13, a14, a15⟩ := h2
  cases f <;> simp only [Flag.set] at h1 <;>
    first
    | (injection h1 with h1
       subst h1
       constructor <;> simp only [given, typed, reduceCtorEq, if_true, if_false, getLastD_cons] <;>
         first | assumption | (simp only [List.append_assoc, List.singleton_append] at a15; exact a15))
    | (obtain ⟨m, hm, h1⟩ := bind_ok_inv h1
       injection h1 with h1
       subst h1
       constructor <;> simp only [given, typed, reduceCtorEq, if_true, if_false, MultiFlag.setAll,
           Bit, hm, Res.bind_ok] <;>
         first | assumption | exact ⟨_, rfl, by assumption⟩)

theorem apply_all {c c' : Config} {os : List Opt} (h : applyAll c os = .ok c') : Apply c os c' := by
  induction os generalizing c with
  | nil =>
    injection h with h
    subst h
    constructor <;> first | rfl | simp [typed]
  | cons o os ih =>
    obtain ⟨f, v⟩ := o
    obtain ⟨c1, h1, h2⟩ := bind_ok_inv h
    exact apply_cons h1 (ih h2)

/-- Whether values of all options are accepted. -/
structure Fine (c : Config) (os : List Opt) : Prop where
  switch : ∀ f, Switch f → ∀ v ∈ given f os, ∃ b, parseBool v = .ok b
  scheme : ∃ m, c.scheme.setAll (given .scheme os) = .ok m
  emacsArgs : ∃ m, c.emacsArgs.setAll (given .emacsarg os) = .ok m
  mozillaIds : ∃ m, c.mozillaIds.setAll (given .mozillaExtension os) = .ok m
  chromeIds : ∃ m, c.chromeIds.setAll (given .chromeExtension os) = .ok m

theorem setAll_cons {m : MultiFlag} {v : Str} {vs : List Str}
    (h : ∃ r, m.setAll (v :: vs) = .ok r) : ∃ m', m.set v = .ok m' ∧ ∃ r, m'.setAll vs = .ok r := by
  obtain ⟨r, h⟩ := h
  obtain ⟨m', h1, h2⟩ := bind_ok_inv h
  exact ⟨m', h1, r, h2⟩

theorem fine_all {c : Config} {os : List Opt} (h : Fine c os) : ∃ c', applyAll c os = .ok c' := by
  induction os generalizing c with
  | nil => exact ⟨c, rfl⟩
  | cons o os ih =>
    obtain ⟨f, v⟩ := o
    obtain ⟨a1, a2, a3, a4, a5⟩ := h
    have sw : ∀ g, Switch g → ∀ w ∈ given g os, ∃ b, parseBool w = .ok b := by
      intro g hg w hw
      refine a1 g hg w ?_
      unfold given
      split
      · exact List.mem_cons_of_mem _ hw
      · exact hw
    suffices ∃ c1, f.set v c = .ok c1 ∧ Fine c1 os by
      obtain ⟨c1, h1, h2⟩ := this
      obtain ⟨c', h3⟩ := ih h2
      exact ⟨c', by rw [applyAll, h1]; exact h3⟩
    by_cases hb : Switch f
    · obtain ⟨b, hb'⟩ := a1 f hb v (by unfold given; rw [if_pos rfl]; exact List.mem_cons_self)
      unfold Switch at hb
      rcases hb with rfl | rfl | rfl | rfl <;>
        simp only [given, reduceCtorEq, if_false] at a2 a3 a4 a5 <;>
        (apply Exists.intro
         apply And.intro
         · simp only [Flag.set, hb', Res.bind_ok]; rfl
         · exact ⟨sw, a2, a3, a4, a5⟩)
    · cases f <;> simp only [given, reduceCtorEq, if_true, if_false] at a2 a3 a4 a5 <;>
        first
        | (exfalso; apply hb; simp [Switch]; done)
        | exact ⟨_, rfl, sw, a2, a3, a4, a5⟩
        | (obtain ⟨m, h1, h2⟩ := setAll_cons a2
           apply Exists.intro
           apply And.intro
           · simp only [Flag.set, h1, Res.bind_ok]; rfl
           · exact ⟨sw, h2, a3, a4, a5⟩)
        | (obtain ⟨m, h1, h2⟩ := setAll_cons a3
           apply Exists.intro
           apply And.intro
           · simp only [Flag.set, h1, Res.bind_ok]; rfl
           · exact ⟨sw, a2, h2, a4, a5⟩)
        | (obtain ⟨m, h1, h2⟩ := setAll_cons a4
           apply Exists.intro
           apply And.intro
           · simp only [Flag.set, h1, Res.bind_ok]; rfl
           · exact ⟨sw, a2, a3, h2, a5⟩)
        | (obtain ⟨m, h1, h2⟩ := setAll_cons a5
           apply Exists.intro
           apply And.intro
           · simp only [Flag.set, h1, Res.bind_ok]; rfl
           · exact ⟨sw, a2, a3, a4, h2⟩)

theorem bit_values {vs : List Str} {b b' : Bool} (h : Bit vs b b') :
    ∀ v ∈ vs, ∃ x, parseBool v = .ok x := by
  induction vs generalizing b with
  | nil => simp
  | cons v vs ih =>
    obtain ⟨x, h1, h2⟩ := h
    intro w hw
    rcases List.mem_cons.mp hw with rfl | hw
    · exact ⟨x, h1⟩
    · exact ih h2 w hw

theorem bit_last {vs : List Str} {b b' : Bool} (h : Bit vs b b') :
    b' = true ↔ (vs = [] ∧ b = true) ∨ ∃ v, vs.getLast? = some v ∧ Yes v := by
  induction vs generalizing b with
  | nil => cases h; simp
  | cons v vs ih =>
    obtain ⟨x, h1, h2⟩ := h
    rw [ih h2]
    cases vs with
    | nil => simp [parseBool_ok h1]
    | cons w vs => simp [List.getLast?_cons_cons]

theorem bit_on {f : Flag} {os : List Opt} {b' : Bool} (h : Bit (given f os) false b') :
    b' = true ↔ On f os := by
  rw [bit_last h]
  simp [On]

theorem chosen {ds vs : List Str} {m : MultiFlag} (h : (MultiFlag.new ds).setAll vs = .ok m) :
    Chosen ds vs m.values := by
  have split : ∀ vs : List Str, (∀ v ∈ vs, v ≠ []) ∨
      ∃ pre post, vs = pre ++ [] :: post ∧ ∀ v ∈ post, v ≠ [] := by
    intro vs
    induction vs with
    | nil => exact .inl (by simp)
    | cons v vs ih =>
      rcases ih with ih | ⟨pre, post, rfl, ih⟩
      · by_cases hv : v = []
        · subst hv; exact .inr ⟨[], vs, rfl, ih⟩
        · exact .inl (by
            intro w hw
            rcases List.mem_cons.mp hw with rfl | hw
            · exact hv
            · exact ih w hw)
      · exact .inr ⟨v :: pre, post, rfl, ih⟩
  rcases split vs with hn | ⟨pre, post, hv, hp⟩
  · rw [(c46_values h).1 hn]; exact .added hn
  · rw [(c46_values h).2 pre post hv hp]; exact .reset hv hp

theorem fine_iff {d : Defaults} {os : List Opt} : Fine (.fresh d) os ↔ Acceptable os := by
  constructor
  · rintro ⟨a1, a2, a3, a4, a5⟩
    refine ⟨fun f hf v hv => parseBool_iff.mp (a1 f hf v hv), ?_⟩
    rintro f (rfl | rfl | rfl | rfl)
    · exact c46_refused.mp a2
    · exact c46_refused.mp a3
    · exact c46_refused.mp a4
    · exact c46_refused.mp a5
  · rintro ⟨a1, a2⟩
    exact ⟨fun f hf v hv => parseBool_iff.mpr (a1 f hf v hv),
      c46_refused.mpr (a2 .scheme (.inl rfl)),
      c46_refused.mpr (a2 .emacsarg (.inr (.inl rfl))),
      c46_refused.mpr (a2 .mozillaExtension (.inr (.inr (.inl rfl)))),
      c46_refused.mpr (a2 .chromeExtension (.inr (.inr (.inr rfl))))⟩

theorem apply_fine {c c' : Config} {os : List Opt} (h : Apply c os c') : Fine c os := by
  refine ⟨?_, ⟨_, h.scheme⟩, ⟨_, h.emacsArgs⟩, ⟨_, h.mozillaIds⟩, ⟨_, h.chromeIds⟩⟩
  rintro f (rfl | rfl | rfl | rfl)
  · exact bit_values h.disableLinkSet
  · exact bit_values h.force
  · exact bit_values h.help
  · exact bit_values h.version

/-! ### Theorems -/

/-- **C65.** A command line is accepted iff it consists of options, known by their names and having
acceptable values, followed by arguments. -/
theorem c65_accepted (d : Defaults) (args : List Str) :
    (∃ c, commandLine d args = .ok c) ↔ ∃ os rest, Written os rest args ∧ Acceptable os := by
  constructor
  · rintro ⟨c, h⟩
    obtain ⟨⟨c1, rest⟩, h1, _⟩ := bind_ok_inv h
    obtain ⟨os, hw⟩ := parse_ok h1
    rw [parse_written hw] at h1
    obtain ⟨c2, h2, _⟩ := bind_ok_inv h1
    exact ⟨os, rest, hw, fine_iff.mp (apply_fine (apply_all h2))⟩
  · rintro ⟨os, rest, hw, ha⟩
    obtain ⟨c', h⟩ := fine_all (fine_iff.mpr ha : Fine (.fresh d) os)
    exact ⟨_, by unfold commandLine; rw [parse_written hw, h]; rfl⟩

/-- **C65.** A command line that is not accepted is refused: there is no panic. -/
theorem c65_refused (d : Defaults) (args : List Str)
    (h : ¬∃ os rest, Written os rest args ∧ Acceptable os) : commandLine d args = .err () := by
  have hp : ∀ (n : Nat) (args : List Str) (c : Config), args.length ≤ n → parse c args ≠ .panic := by
    have hset : ∀ (f : Flag) (v : Str) (c : Config), f.set v c ≠ .panic := by
      have hm : ∀ (m : MultiFlag) (v : Str), m.set v ≠ .panic := by
        intro m v; unfold MultiFlag.set; split
        · split <;> nofun
        · nofun
      have hb : ∀ v : Str, parseBool v ≠ .panic := by
        intro v; unfold parseBool; split
        · nofun
        · split <;> nofun
      have hbind : ∀ {α β : Type} (r : Res Unit α) (k : α → β), r ≠ .panic →
          (r.bind fun a => .ok (k a)) ≠ .panic := by
        intro α β r k hr
        cases r with
        | ok a => nofun
        | err e => nofun
        | panic => exact absurd rfl hr
      intro f v c
      cases f <;> simp only [Flag.set] <;>
        first | exact hbind _ _ (hm _ _) | exact hbind _ _ (hb _) | nofun
    have hbind : ∀ (r : Res Unit Config) (k : Config → Res Unit (Config × List Str)), r ≠ .panic →
        (∀ c, k c ≠ .panic) → r.bind k ≠ .panic := by
      intro r k hr hk
      cases r with
      | ok a => exact hk a
      | err e => nofun
      | panic => exact absurd rfl hr
    intro n
    induction n with
    | zero =>
      intro args c hn
      cases args with
      | nil => rw [parse]; nofun
      | cons a args => simp at hn
    | succ n ih =>
      intro args c hn
      rw [parse.eq_def]
      split
      · nofun
      · rename_i a args
        simp only [List.length_cons] at hn
        split
        · nofun
        · nofun
        · nofun
        · split
          · nofun
          · split
            · exact hbind _ _ (hset _ _ _) (fun c => ih args c (by omega))
            · split
              · exact hbind _ _ (hset _ _ _) (fun c => ih args c (by omega))
              · split
                · nofun
                · rename_i v args'
                  simp only [List.length_cons] at hn
                  exact hbind _ _ (hset _ _ _) (fun c => ih args' c (by omega))
  cases hr : commandLine d args with
  | ok c => exact absurd ((c65_accepted d args).mp ⟨c, hr⟩) h
  | err e => rfl
  | panic =>
    unfold commandLine at hr
    cases hq : parse (.fresh d) args with
    | ok r => rw [hq] at hr; cases hr
    | err e => rw [hq] at hr; cases hr
    | panic => exact absurd hq (hp _ _ _ (Nat.le_refl _))

/-- **C65.** The settings are those that the options and arguments say, in whatever of the forms
the options are written. -/
theorem c65_settings {d : Defaults} {args : List Str} {c : Config}
    (h : commandLine d args = .ok c) {os : List Opt} {rest : List Str} (hw : Written os rest args) :
    Means d os rest c := by
  unfold commandLine at h
  rw [parse_written hw] at h
  obtain ⟨⟨c1, r⟩, h1, h2⟩ := bind_ok_inv h
  obtain ⟨c2, h3, h4⟩ := bind_ok_inv h1
  obtain ⟨rfl, rfl⟩ := Prod.mk.inj (Res.ok.inj h4)
  have h2 := Res.ok.inj h2
  subst h2
  have a := apply_all h3
  obtain ⟨ss, hs, hss⟩ := c52_positional c2.sources rest
  exact
    { logFile := a.logFile
      emacsCommand := a.emacsCommand
      backendName := a.backendName
      wrapper := a.wrapper
      firefox := a.firefox
      chrome := a.chrome
      disableLinkSet := bit_on a.disableLinkSet
      force := bit_on a.force
      help := bit_on a.help
      version := bit_on a.version
      scheme := chosen a.scheme
      schemeModified := c46_modified a.scheme
      emacsArgs := chosen a.emacsArgs
      mozillaIds := chosen a.mozillaIds
      chromeIds := chosen a.chromeIds
      sources := ⟨ss, hss, by
        show addSourceArgs c2.sources rest = _
        rw [hs, a.sources]; rfl⟩ }

/-- Options of several forms: a log that is dropped, two files, a switch, a reset of schemes. -/
def exOpts : List Opt :=
  [(.log, []), (.org, "a.org".toList), (.disableLinkSet, "true".toList), (.scheme, []),
    (.scheme, "gopher".toList)]

theorem exWritten : Written exOpts ["b.org".toList, "-x".toList] (["-log=", "--org", "a.org",
    "-disable-link-set", "--scheme=", "-scheme", "gopher", "b.org", "-x"].map String.toList) := by
  refine .plain (ws := ["-log=", "--org", "a.org", "-disable-link-set", "--scheme=", "-scheme",
    "gopher"].map String.toList) ?_ (by rintro a h; cases h; exact .inr (.inr (by decide)))
  refine .cons (w := ["-log=".toList]) (.one (n := "log") (v := []) (.inl rfl) (by simp [names])) ?_
  refine .cons (w := ["--org".toList, "a.org".toList])
    (.two (n := "org") (.inr rfl) (by simp [names]) (by simp [Switch])) ?_
  refine .cons (w := ["-disable-link-set".toList])
    (.switch (n := "disable-link-set") (.inl rfl) (by simp [names]) (by simp [Switch])) ?_
  refine .cons (w := ["--scheme=".toList])
    (.one (n := "scheme") (v := []) (.inr rfl) (by simp [names])) ?_
  exact .cons (w := ["-scheme".toList, "gopher".toList])
    (.two (n := "scheme") (.inl rfl) (by simp [names]) (by simp [Switch])) .nil

theorem exAcceptable : Acceptable exOpts := by
  constructor
  · rintro f (rfl | rfl | rfl | rfl) <;> simp [exOpts, given, Yes]
  · rintro f (rfl | rfl | rfl | rfl) <;> simp [exOpts, given]

example : ∃ c, commandLine ⟨[], ["doi".toList], [], []⟩ (["-log=", "--org", "a.org",
    "-disable-link-set", "--scheme=", "-scheme", "gopher", "b.org", "-x"].map String.toList) =
      .ok c := (c65_accepted _ _).mpr ⟨_, _, exWritten, exAcceptable⟩

example : On .disableLinkSet exOpts := ⟨"true".toList, rfl, by simp [Yes]⟩

example : Chosen ["doi".toList] (given .scheme exOpts) ["gopher".toList] :=
  .reset (pre := []) (post := ["gopher".toList]) rfl (by simp)

/-! A value after which another one can not be dropped. -/
example (rest : List Str) (d : Defaults) :
    commandLine d (["--scheme=gopher", "--scheme="].map String.toList ++ dashes :: rest) =
      .err () := by
  unfold commandLine
  rfl

end Burl.Backend.Line
