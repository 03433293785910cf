import Verif.Example.Client
import Verif.Example.Props
import Verif.Rpc.CommandProps
import Verif.Tool.ClientProps
/-! The example client (C78). -/
namespace Burl.Example
open Burl
open Burl.Json (Json)
open Burl.Rpc.Server (Body Answers)
open Burl.Rpc.Command (Os newClientCommand)
open Burl.Rpc.Client (Outcome)
open Burl.JsonText.Spec (Joined Usual)
open Burl.Tool.Client.Spec (NotOption dashes)
open Burl.Example.Spec

namespace Spec

/-- Words of a command line that name a backend and its arguments; `--` may precede them. -/
inductive Command : List Str → Str → List Str → Prop where
  | bare {cmd rest} : NotOption cmd → Command (cmd :: rest) cmd rest
  | after {cmd rest} : Command (dashes :: cmd :: rest) cmd rest

/-- Command lines without any words. -/
def Empty (args : List Str) : Prop := args = [] ∨ args = [dashes]

/-- A call has not been answered. -/
def Lost : Outcome Bytes → Prop
  | .reply _ => False
  | .server _ => False
  | _ => True

/-- What is relied on about numbers of the example. -/
structure Two (f : Floats) (two minus : f.F) : Prop where
  reads : f.read (f.write two) = some two
  reads' : f.read (f.write minus) = some minus
  root : f.read (f.write (f.sqrt two)) = some (f.sqrt two)
  positive : f.lt two f.zero = false
  negative : f.lt minus f.zero = true

end Spec

theorem topFlags_ok (args : List Str) (cmd : Str) (rest : List Str) :
    Tool.Client.topFlags args = .ok (cmd :: rest) ↔ Command args cmd rest := by
  constructor
  · intro h
    match args with
    | [] => cases h
    | a :: args =>
      rw [Tool.Client.topFlags] at h
      split at h
      · rename_i hc
        cases h
        exact .bare (Tool.Client.classify_plain.mp hc)
      · rename_i hc
        cases h
        rw [Tool.Client.classify_stop.mp hc]
        exact .after
      · cases h
      · split at h <;> cases h
  · intro h
    cases h with
    | bare h => rw [Tool.Client.topFlags, Tool.Client.classify_plain.mpr h]
    | after => rw [Tool.Client.topFlags, Tool.Client.classify_stop.mpr rfl]

theorem topFlags_nil (args : List Str) : Tool.Client.topFlags args = .ok [] ↔ Empty args := by
  constructor
  · intro h
    match args with
    | [] => exact .inl rfl
    | a :: args =>
      rw [Tool.Client.topFlags] at h
      split at h
      · cases h
      · rename_i hc
        cases h
        rw [Tool.Client.classify_stop.mp hc]
        exact .inr rfl
      · cases h
      · split at h <;> cases h
  · rintro (rfl | rfl)
    · rfl
    · rw [Tool.Client.topFlags, Tool.Client.classify_stop.mpr rfl]

/-- C78: which backend is started; two lines are printed if it is and none otherwise. -/
theorem c78_started (os : Os) (f : Floats) (two minus : f.F) (args : List Str) (o1 o2 : Outcome Bytes)
    (close : Rpc.Command.Result) :
    (∀ cmd rest, (main os f two minus args o1 o2 close).1 = some (cmd, rest) ↔
      Command args cmd rest ∧ os.stdin = true ∧ os.stdout = true ∧ os.start cmd rest = true) ∧
    ((main os f two minus args o1 o2 close).1 = none → (main os f two minus args o1 o2 close).2.1 = []) ∧
    ((main os f two minus args o1 o2 close).1 ≠ none →
      (main os f two minus args o1 o2 close).2.1 = [printed f two o1, printed f minus o2]) := by
  unfold main
  split
  · rename_i h
    refine ⟨fun cmd rest => ⟨fun h => (by cases h), fun hc => ?_⟩, fun _ => rfl, fun h => absurd rfl h⟩
    rw [(topFlags_ok ..).mpr hc.1] at h; cases h
  · rename_i h
    refine ⟨fun cmd rest => ⟨fun h => (by cases h), fun hc => ?_⟩, fun _ => rfl, fun h => absurd rfl h⟩
    rw [(topFlags_ok ..).mpr hc.1] at h; cases h
  · rename_i words h
    have key := Rpc.Command.c67_command os words
    have one : ∀ cmd rest, newClientCommand os words = .ok (cmd, rest) ↔
        Command args cmd rest ∧ os.stdin = true ∧ os.stdout = true ∧ os.start cmd rest = true := by
      intro cmd rest
      rw [key.1, ← topFlags_ok, h]
      simp
    split
    · rename_i hn
      refine ⟨fun cmd rest => ?_, fun _ => rfl, fun h => absurd rfl h⟩
      rw [← one, hn]; simp
    · rename_i hn
      refine ⟨fun cmd rest => ?_, fun _ => rfl, fun h => absurd rfl h⟩
      rw [← one, hn]; simp
    · rename_i c hn
      refine ⟨fun cmd rest => ?_, fun h => (by cases h), fun _ => rfl⟩
      rw [← one, hn]; simp

/-- C78: the usage is printed if there is no command, and the exit status after the calls is zero if
`Close` has not failed. -/
theorem c78_status (os : Os) (f : Floats) (two minus : f.F) (args : List Str) (o1 o2 : Outcome Bytes)
    (close : Rpc.Command.Result) :
    ((main os f two minus args o1 o2 close).2.2 = .usage ↔ Empty args) ∧
    ((main os f two minus args o1 o2 close).1 ≠ none →
      ((main os f two minus args o1 o2 close).2.2.status = 0 ↔ close = .nil)) ∧
    ((main os f two minus args o1 o2 close).2.2.status = 0 →
      (main os f two minus args o1 o2 close).2.2 = .help ∨
      (main os f two minus args o1 o2 close).1 ≠ none) := by
  unfold main
  split
  · rename_i h
    refine ⟨⟨fun h => (by cases h), fun hc => ?_⟩, fun h => absurd rfl h, fun _ => .inl rfl⟩
    rw [(topFlags_nil _).mpr hc] at h; cases h
  · rename_i h
    refine ⟨⟨fun h => (by cases h), fun hc => ?_⟩, fun h => absurd rfl h, fun h => (by cases h)⟩
    rw [(topFlags_nil _).mpr hc] at h; cases h
  · rename_i words h
    have key := (Rpc.Command.c67_command os words).2.1
    have one : newClientCommand os words = .error .noCommand ↔ Empty args := by
      rw [key, ← topFlags_nil, h]; simp
    split
    · rename_i hn
      exact ⟨⟨fun _ => one.mp hn, fun _ => rfl⟩, fun h => absurd rfl h, fun h => (by cases h)⟩
    · rename_i hn
      refine ⟨⟨fun h => (by cases h), fun hc => ?_⟩, fun h => absurd rfl h, fun h => (by cases h)⟩
      rw [one.mpr hc] at hn
      simp_all
    · rename_i hn
      refine ⟨⟨fun h => ?_, fun hc => ?_⟩, fun _ => ?_, fun _ => .inr (by simp)⟩
      · simp only at h
        split at h <;> cases h
      · rw [one.mpr hc] at hn; cases hn
      · simp only
        split <;> rename_i hc <;> simp [Ending.status, hc]

/-! ### Lines -/

theorem root_says {Id : Type} {f : Floats} (hf : Lawful f) {two minus : f.F} (h2 : Two f two minus)
    {r : Rpc.Server.Request Id Json} (hm : r.method = "example.Sqrt".toList)
    (hp : r.params = some (.arr [f.write two])) {b : Body Json} (h : Says f r b) :
    b = .result (f.write (f.sqrt two)) := by
  rcases c77_unique hf h (.root hm hp (.value h2.reads) h2.positive) with h | ⟨-, t, u, -, h⟩
  · exact h
  · cases h

theorem negative_says {Id : Type} {f : Floats} (hf : Lawful f) {two minus : f.F} (h2 : Two f two minus)
    {r : Rpc.Server.Request Id Json} (hm : r.method = "example.Sqrt".toList)
    (hp : r.params = some (.arr [f.write minus])) {b : Body Json} (h : Says f r b) :
    b = .error "square root of negative number".toList := by
  rcases c77_unique hf h (.negative hm hp (.value h2.reads') h2.negative) with h | ⟨hw, -⟩
  · exact h
  · cases hw with
    | method h _ => exact absurd hm h
    | none h => rw [h] at hp; cases hp
    | sqrt _ h h' => rw [hp] at h; cases h; exact absurd (.value h2.reads') (h' _)
    | sleep h _ _ => rw [hm] at h; exact absurd h (by decide)

theorem read_not_null {f : Floats} (hf : Lawful f) {v : Json} {x : f.F} (h : f.read v = some x) :
    (decFloat f).apply v f.zero = x := by
  rcases hf.read h with ⟨n, rfl⟩ | ⟨t, rfl⟩
  · show (f.read (.num n)).getD f.zero = x
    rw [h]; rfl
  · show (f.read (.real t)).getD f.zero = x
    rw [h]; rfl

/-- C78: the first line tells the square root of 2 and the second one that there is no square root of
-2, unless the connection has failed. -/
theorem c78_lines {short short' : Bool} {f : Floats} (hf : Lawful f) {two minus : f.F}
    (h2 : Two f two minus) {s : Rpc.Client.State Json Bytes}
    {t : Rpc.Server.State Bytes Bytes (Arg f) Json Method} (h : Joined short short' (world f) s t)
    (hu : Usual short short' s t) (hc : s.calls = queries f two minus) {o1 o2 : Outcome Bytes}
    (h1 : (0, o1) ∈ s.log) (h1' : (1, o2) ∈ s.log) :
    (printed f two o1 = .result two (f.sqrt two) ∨ (printed f two o1 = .error two o1 ∧ Lost o1)) ∧
    (printed f minus o2 = .error minus (.server "square root of negative number".toList) ∨
      (printed f minus o2 = .error minus o2 ∧ Lost o2)) := by
  have c0 : s.calls[0]? = some (query f two) := by rw [hc]; rfl
  have c1 : s.calls[1]? = some (query f minus) := by rw [hc]; rfl
  constructor
  · cases o1 with
    | reply x =>
      obtain ⟨n, v, hx, ha, -⟩ := JsonText.joined_reply h hu c0 h1
      have hv := root_says hf h2 rfl rfl (c77_reply hf ha)
      injection hv with hv
      subst hv
      left
      simp only [printed, stored, hx]
      rw [read_not_null hf h2.root]
    | server msg =>
      obtain ⟨n, ha⟩ := JsonText.joined_error h hu c0 h1
      have hv := root_says hf h2 rfl rfl (c77_reply hf ha)
      cases hv
    | _ => exact .inr ⟨rfl, trivial⟩
  · cases o2 with
    | reply x =>
      obtain ⟨n, v, hx, ha, -⟩ := JsonText.joined_reply h hu c1 h1'
      have hv := negative_says hf h2 rfl rfl (c77_reply hf ha)
      cases hv
    | server msg =>
      obtain ⟨n, ha⟩ := JsonText.joined_error h hu c1 h1'
      have hv := negative_says hf h2 rfl rfl (c77_reply hf ha)
      injection hv with hv
      subst hv
      exact .inl rfl
    | _ => exact .inr ⟨rfl, trivial⟩

/-- C78: if requests have been written, the backend has finished its work and frames come as they have
been written, the client reads both answers: the result of the first call and the error of the second
one. -/
theorem c78_heard (short short' : Bool) {f : Floats} (hf : Lawful f) {two minus : f.F}
    (h2 : Two f two minus) {s : Rpc.Client.State Json Bytes} (h : Rpc.Client.Steps Rpc.Client.start s)
    {fin fin' : Frame.SrcErr} {k : Nat} {t : Rpc.Server.State Bytes Bytes (Arg f) Json Method}
    (hs : Rpc.Server.Steps (JsonText.textOf (world f)) (Rpc.Server.start (JsonText.requests
      ⟨Frame.Spec.stream (s.sent.map (JsonText.requestText short)), [], fin⟩)) k t)
    (hu : Usual short short' s t) (hend : t.loop = .closed) (hb : t.broken = false)
    (hreq : ∀ q ∈ s.sent, (JsonText.requestText short q).length ≤ 512)
    (hrep : ∀ p ∈ t.out, (JsonText.replyText short' p).length ≤ 512)
    (hc : s.calls = queries f two minus) (hpc : ∀ i, i < 2 → s.pc i = .sent ∧ i ∉ s.bad)
    {a b : Nat} (ha : Rpc.Client.Numbered s 0 a) (hb' : Rpc.Client.Numbered s 1 b) :
    JsonText.Spec.heard short' a (.result (f.write (f.sqrt two))) ∈
      JsonText.responses ⟨JsonText.written short' t.out, [], fin'⟩ ∧
    JsonText.Spec.heard short' b (.error "square root of negative number".toList) ∈
      JsonText.responses ⟨JsonText.written short' t.out, [], fin'⟩ := by
  have c0 : s.calls[0]? = some (query f two) := by rw [hc]; rfl
  have c1 : s.calls[1]? = some (query f minus) := by rw [hc]; rfl
  have key := JsonText.heard_all (P := fun x => x.length + 1 ≤ 512)
    (fun _ _ body f g qs h hc fin => JsonText.small_map body f g qs h hc fin) short short'
    (w := world f) (fun _ => rfl) h (fin' := fin') hs hu hend hb
    (fun q hq => by have := hreq q hq; rw [JsonText.requestText_eq, List.length_append] at this; exact this)
    (fun p hp => by have := hrep p hp; rw [JsonText.replyText_eq, List.length_append] at this; exact this)
  constructor
  · obtain ⟨x, hx, hm⟩ := key 0 a _ ha c0 (hpc 0 (by omega)).1 (hpc 0 (by omega)).2
    rwa [root_says hf h2 rfl rfl (c77_reply hf hx)] at hm
  · obtain ⟨x, hx, hm⟩ := key 1 b _ hb' c1 (hpc 1 (by omega)).1 (hpc 1 (by omega)).2
    rwa [negative_says hf h2 rfl rfl (c77_reply hf hx)] at hm

/-- C78 does not hold for the exit status: it is zero though both calls have failed. -/
theorem c78_violation (os : Os) (f : Floats) (two minus : f.F) {args : List Str} {cmd : Str}
    {rest : List Str} (h : Command args cmd rest) (ho : os.stdin = true) (ho' : os.stdout = true)
    (hs : os.start cmd rest = true) :
    (main os f two minus args .unexpectedEOF .shutdown .nil).2 =
      ([.error two .unexpectedEOF, .error minus .shutdown], .done) := by
  have h1 := ((Rpc.Command.c67_command os (cmd :: rest)).1 cmd rest).mpr ⟨rfl, ho, ho', hs⟩
  unfold main
  simp only [(topFlags_ok ..).mpr h, h1]
  rfl

/-! ### An example -/

example : Two exFloats (Num.int 2) (Num.int (-2)) := ⟨rfl, rfl, rfl, rfl, rfl⟩

example : Command ["--".toList, "-backend".toList, "a".toList] "-backend".toList ["a".toList] := .after

end Burl.Example
