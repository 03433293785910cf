import Verif.Tool.GenericProps
import Verif.JsonText.AnyReplyProps
/-! The command-line client given arbitrary bytes by a program it has started (C82). -/
namespace Burl.Tool.Client
open Burl
open Burl.Json (Json)
open Burl.JsonText.Spec (Text)
open Burl.JsonText.Spec (TextFor Plain AllPlain MembersPlain Means ElemsMean MembersMean numValue Told FirstFor)
open Burl.Rpc.Spec (Padded Num)
open Burl.Rpc.Client (Numbered)
open Spec

namespace Spec

/-- Calls of the program are those of `Verif.Rpc.Client`, one in a run; replies are read from the given bytes,
and the result is what its text says. -/
def HearsFrom (data : Bytes) (call : Str → Json → Option Json) : Prop :=
  ∀ m d v, call m d = some v → ∃ (sched : List Nat) (fin : Frame.SrcErr) (s : Rpc.Client.State Json Bytes)
    (c : Rpc.Client.Call Json Bytes) (x : Bytes),
      Rpc.Client.Steps Rpc.Client.start s ∧ s.received <+: JsonText.responses ⟨data, sched, fin⟩ ∧
      s.calls = [c] ∧ c.method = m ∧ c.param = .arr [d] ∧ (0, .reply x) ∈ s.log ∧ JsonText.unmarshal x = some v

/-- Numbers that are read are written as numbers. -/
def Numbers (float : Json → Option Json) : Prop :=
  ∀ v w, float v = some w → ∃ n : Num, n.ok = true ∧ w = numValue n

end Spec

theorem plain_num {d : Nat} {n : Num} (h : n.ok = true) : Plain d (numValue n) := by
  have hv : ∀ t, numValue n = .real t → Plain d (.real t) := fun t e => by
    rw [Plain]; exact ⟨n, h, e⟩
  generalize e : numValue n = v at hv
  rw [numValue] at e
  split at e
  · subst e; simp [Plain]
  · subst e; exact hv _ rfl

mutual
theorem plain_means : ∀ (d : Nat) (t : Text) (v : Json), t.ok d = true → Means t v → Plain d v
  | _, .null, v, _, h => by rw [Means] at h; subst h; simp [Plain]
  | _, .bool _, v, _, h => by rw [Means] at h; subst h; simp [Plain]
  | _, .num n, v, hn, h => by
    rw [Means] at h; subst h; rw [Rpc.Spec.Json.ok] at hn; exact plain_num hn
  | _, .str _, v, _, h => by rw [Means] at h; obtain ⟨s, -, rfl⟩ := h; simp [Plain]
  | 0, .arr _, v, hn, h => by rw [Rpc.Spec.Json.ok] at hn; cases hn
  | 0, .obj _, v, hn, h => by rw [Rpc.Spec.Json.ok] at hn; cases hn
  | d + 1, .arr ts, v, hn, h => by
    rw [Means] at h; obtain ⟨vs, h, rfl⟩ := h
    rw [Rpc.Spec.Json.ok] at hn
    rw [Plain]
    exact allPlain_means d ts vs hn h
  | d + 1, .obj ts, v, hn, h => by
    rw [Means] at h; obtain ⟨vs, h, rfl⟩ := h
    rw [Rpc.Spec.Json.ok] at hn
    rw [Plain]
    exact membersPlain_means d ts vs hn h
theorem allPlain_means : ∀ (d : Nat) (ts : List Text) (vs : List Json), Rpc.Spec.arrOk d ts = true →
    ElemsMean ts vs → AllPlain d vs
  | _, [], vs, _, h => by rw [ElemsMean] at h; subst h; simp [AllPlain]
  | d, t :: ts, vs, hn, h => by
    rw [ElemsMean] at h
    obtain ⟨w, ws, h1, h2, rfl⟩ := h
    rw [Rpc.Spec.arrOk, Bool.and_eq_true] at hn
    rw [AllPlain]
    exact ⟨plain_means d t w hn.1 h1, allPlain_means d ts ws hn.2 h2⟩
theorem membersPlain_means : ∀ (d : Nat) (ts : List (List Rpc.Spec.Piece × Text)) (vs : List (Str × Json)),
    Rpc.Spec.objOk d ts = true → MembersMean ts vs → MembersPlain d vs
  | _, [], vs, _, h => by rw [MembersMean] at h; subst h; simp [MembersPlain]
  | d, (k, t) :: ts, vs, hn, h => by
    rw [MembersMean] at h
    obtain ⟨s, w, ws, -, h1, h2, rfl⟩ := h
    rw [Rpc.Spec.objOk, Bool.and_eq_true, Bool.and_eq_true] at hn
    rw [MembersPlain]
    exact ⟨plain_means d t w hn.1.2 h1, membersPlain_means d ts ws hn.2 h2⟩
end

theorem plain_text {d : Nat} {v : Json} {x : Bytes} (h : TextFor d v x) : Plain d v := by
  obtain ⟨t, h1, h2, -⟩ := h
  exact plain_means d t v h1 h2

theorem membersPlain_store {d : Nat} {k : Str} {v : Json} (hv : Plain d v) : ∀ {ms : List (Str × Json)},
    MembersPlain d ms → MembersPlain d (store k v ms)
  | [], _ => by rw [store, MembersPlain, MembersPlain]; exact ⟨hv, trivial⟩
  | m :: ms, h => by
    have h0 := h
    rw [MembersPlain] at h
    rw [store]
    split
    · rw [MembersPlain]; exact ⟨hv, h.2⟩
    · split
      · rw [MembersPlain]; exact ⟨hv, h0⟩
      · rw [MembersPlain]; exact ⟨h.1, membersPlain_store hv h.2⟩

mutual
theorem plain_generic {float : Json → Option Json} (hf : Numbers float) : ∀ (d : Nat) (v g : Json),
    generic float v = some g → Plain d v → Plain d g
  | _, .null, g, h, hp => by rw [generic] at h; cases h; exact hp
  | _, .bool _, g, h, hp => by rw [generic] at h; cases h; exact hp
  | _, .str _, g, h, hp => by rw [generic] at h; cases h; exact hp
  | _, .num n, g, h, _ => by
    rw [generic] at h; obtain ⟨n, h1, rfl⟩ := hf _ _ h; exact plain_num h1
  | _, .real n, g, h, _ => by
    rw [generic] at h; obtain ⟨n, h1, rfl⟩ := hf _ _ h; exact plain_num h1
  | 0, .arr _, g, _, hp => by rw [Plain] at hp; exact hp.elim
  | 0, .obj _, g, _, hp => by rw [Plain] at hp; exact hp.elim
  | d + 1, .arr vs, g, h, hp => by
    rw [generic] at h
    obtain ⟨ws, h', rfl⟩ := Option.map_eq_some_iff.1 h
    rw [Plain] at hp ⊢
    exact allPlain_generic hf d vs ws h' hp
  | d + 1, .obj ms, g, h, hp => by
    rw [generic] at h
    obtain ⟨ws, h', rfl⟩ := Option.map_eq_some_iff.1 h
    rw [Plain] at hp ⊢
    exact membersPlain_generic hf d ms [] ws h' hp (by simp [MembersPlain])
theorem allPlain_generic {float : Json → Option Json} (hf : Numbers float) : ∀ (d : Nat) (vs ws : List Json),
    genericAll float vs = some ws → AllPlain d vs → AllPlain d ws
  | _, [], ws, h, hp => by rw [genericAll] at h; cases h; exact hp
  | d, v :: vs, ws, h, hp => by
    rw [genericAll] at h
    obtain ⟨w, h1, h⟩ := Option.bind_eq_some_iff.1 h
    obtain ⟨ws', h2, rfl⟩ := Option.map_eq_some_iff.1 h
    rw [AllPlain] at hp ⊢
    exact ⟨plain_generic hf d v w h1 hp.1, allPlain_generic hf d vs ws' h2 hp.2⟩
theorem membersPlain_generic {float : Json → Option Json} (hf : Numbers float) : ∀ (d : Nat)
    (ms acc ws : List (Str × Json)), genericMembers float ms acc = some ws → MembersPlain d ms →
    MembersPlain d acc → MembersPlain d ws
  | _, [], acc, ws, h, _, ha => by rw [genericMembers] at h; cases h; exact ha
  | d, m :: ms, acc, ws, h, hp, ha => by
    rw [genericMembers] at h
    obtain ⟨w, h1, h⟩ := Option.bind_eq_some_iff.1 h
    rw [MembersPlain] at hp
    exact membersPlain_generic hf d ms _ ws h hp.2 (membersPlain_store (plain_generic hf d m.2 w h1 hp.1) ha)
end

/-- The number of the only call. -/
theorem only_number {P R : Type} {s : Rpc.Client.State P R} (h : Rpc.Client.Steps Rpc.Client.start s)
    {c : Rpc.Client.Call P R} (hc : s.calls = [c]) {i n : Nat} (hn : Numbered s i n) : n = 0 := by
  have hi := Rpc.Client.Steps.inv h
  have hall : ∀ j ∈ s.ids, j = 0 := by
    intro j hj
    refine Classical.byContradiction fun hne => hi.early j ?_ hj
    have : s.pc j = .idle := (hi.idle j).2 (by rw [hc, List.length_singleton]; omega)
    rw [this]; rfl
  have hnd := hi.nodup
  unfold Numbered at hn
  match hids : s.ids with
  | [] => rw [hids] at hn; cases hn
  | [a] =>
    rw [hids] at hn
    cases n with
    | zero => rfl
    | succ n => simp at hn
  | a :: b :: l =>
    rw [hids] at hnd hall
    have h1 := hall a (by simp)
    have h2 := hall b (by simp)
    rw [h1, h2] at hnd
    simp at hnd

/-- C82: whatever the program that has been started writes, the value printed by the client is the result
of the first reply there with the number 0, but perhaps for those read before the call, and this reply has
no error. -/
theorem c82_printed {data : Bytes} {w : World} (hw : HearsFrom data w.call) {args : List Str} {v : Json}
    (h : (run w args).printed = some v) :
    ∃ ms m before, Told data ms ∧ FirstFor 0 before ms m ∧ m.error = .absent ∧ m.result = some v ∧ Plain 9999 v := by
  obtain ⟨mt, d, -, hc⟩ := (c63_called.2.1 v).mp h
  obtain ⟨sched, fin, s, c, x, s1, s2, s3, -, -, s6, s7⟩ := hw _ _ _ hc
  obtain ⟨n, b, ms, m, v', h1, -, h3, h4, h5, h6, h7⟩ := JsonText.c82_result s1 s2 s6
  have hv : v' = v := by
    obtain ⟨t, g1, g2, g3⟩ := h7
    have := JsonText.c68_decode (v := v') (x := x) ⟨[], x, [], by simp [Rpc.Spec.Blank],
      ⟨t, JsonText.ok_mono _ _ _ (by omega) g1, g2, g3⟩, by simp [Rpc.Spec.Blank], by simp⟩
    rw [s7] at this
    exact (Option.some.inj this).symm
  subst hv
  rw [only_number s1 s3 h1] at h4
  exact ⟨ms, m, b, h3, h4, h5, h6, plain_text h7⟩

/-- C82: output of the client is empty or a text of the value of the reply as an `interface{}` keeps it. -/
theorem c82_output (short : Bool) {float : Json → Option Json} (hf : Numbers float) {data : Bytes} {w : World}
    (hw : HearsFrom data w.call) (args : List Str) :
    output short float (run w args) = [] ∨
    ∃ ms m before v g, Told data ms ∧ FirstFor 0 before ms m ∧ m.error = .absent ∧ m.result = some v ∧
      Untyped float v g ∧ Padded (TextFor 9999 g) (output short float (run w args)) := by
  rw [output]
  split
  · exact .inl rfl
  · rename_i g hg
    obtain ⟨v, h1, h2⟩ := Option.bind_eq_some_iff.1 hg
    obtain ⟨ms, m, b, e1, e2, e3, e4, e5⟩ := c82_printed hw h1
    exact .inr ⟨ms, m, b, v, g, e1, e2, e3, e4, (generic_untyped float v g).1 h2,
      JsonText.c71_text short (plain_generic hf _ v g h2 e5)⟩

/-- A program that does not read requests: a reply to the first one is always there. -/
def careless : World := ⟨fun _ => none, fun _ _ => true, fun _ _ => some (.bool true), true, true⟩

/-- Hypotheses of `c82_printed` and `c82_output`: `true` is printed as a list of mentions. -/
example : ∃ data, HearsFrom data careless.call ∧ (run careless exLine).printed = some (.bool true) ∧
    output true some (run careless exLine) ≠ [] := by
  have hp : (run careless exLine).printed = some (.bool true) :=
    (c63_called.2.1 _).2 ⟨_, _, (c63_called.1 _ _).2 ⟨_, _, _, exLine_line, rfl, rfl⟩, rfl⟩
  refine ⟨JsonText.written true [⟨some (JsonText.encNat 0), .result (.bool true)⟩], fun m d v h => ?_, hp, ?_⟩
  · cases h
    have hl : (JsonText.replyText true ⟨some (JsonText.encNat 0), .result (.bool true)⟩).length ≤ 512 := by
      decide +kernel
    obtain ⟨s, hs, s1, -, s3, s4, -⟩ := JsonText.one_call (P := Json) ⟨m, .arr [d], fun _ => true⟩
      (JsonText.enc true (.bool true)) rfl
    refine ⟨[], .eof, s, _, _, hs, ⟨[], ?_⟩, s1, rfl, rfl, by rw [s4]; exact List.mem_singleton_self _,
      JsonText.c68_roundtrip true (by simp [Plain])⟩
    rw [List.append_nil, s3, JsonText.written_eq true (by
      intro p hp; rw [List.mem_singleton] at hp; subst hp; exact Nat.lt_of_le_of_lt hl (by omega))]
    exact ((JsonText.responses_one true (n := 0) (p := ⟨some (JsonText.encNat 0), .result (.bool true)⟩) (by omega) rfl
      (by intro v hv; cases hv; simp [Plain]) (Nat.le_trans hl (by omega)) [] .eof)).symm
  · rw [output, hp]
    decide +kernel

/-- `Numbers`: integers are kept, other numbers are refused. -/
example : Numbers fun v => match v with
    | .num n => some (.num n)
    | _ => none := by
  intro v w h
  cases v with
  | num n =>
    cases h
    obtain ⟨t, h1, h2, -⟩ := JsonText.c68_encode true (d := 0) (v := .num n) (by simp [Plain])
    cases t with
    | num k => exact ⟨k, by rwa [Rpc.Spec.Json.ok] at h1, by rwa [Means] at h2⟩
    | _ => simp [Means] at h2
  | _ => cases h

end Burl.Tool.Client
