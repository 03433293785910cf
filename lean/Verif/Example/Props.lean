import Verif.Example.Spec
import Verif.Rpc.ServerProps
import Verif.JsonText.SessionProps
/-! The example backend (C77). -/
namespace Burl.Example
open Burl
open Burl.Json (Json)
open Burl.Rpc (lookup splitLastDot)
open Burl.Rpc.Server (Request Reply Body State Answers Methods Calls Matched start)
open Burl.Frame.Spec (stream)
open Burl.JsonText
open Burl.JsonText.Spec (Text)
open Burl.Example.Spec

/-! ### Names -/

namespace Spec

/-- Calls the program serves. -/
def Name : Method → Str → Prop
  | .sqrt, name => name = "example.Sqrt".toList
  | .sleep, name => name = "example.Sleep".toList

end Spec

theorem lookup_iff (name : Str) (m : Method) : lookup services name = .ok m ↔ Name m name := by
  constructor
  · intro h
    unfold lookup at h
    cases hs : splitLastDot name with
    | none => rw [hs] at h; cases h
    | some p =>
      obtain ⟨a, b⟩ := p
      rw [hs] at h
      obtain ⟨rfl, -⟩ := Rpc.splitLastDot_spec _ _ _ hs
      simp only [services, List.lookup_cons, List.lookup_nil] at h
      by_cases ha : a = "example".toList
      · subst ha
        simp only [beq_self_eq_true, methods, List.lookup_cons, List.lookup_nil] at h
        by_cases h1 : b = "Sqrt".toList
        · subst h1
          simp only [beq_self_eq_true] at h
          cases h
          show ("example".toList ++ '.' :: "Sqrt".toList : Str) = "example.Sqrt".toList
          decide
        · rw [show (b == "Sqrt".toList) = false by simpa using h1] at h
          by_cases h2 : b = "Sleep".toList
          · subst h2
            simp only [beq_self_eq_true] at h
            cases h
            show ("example".toList ++ '.' :: "Sleep".toList : Str) = "example.Sleep".toList
            decide
          · rw [show (b == "Sleep".toList) = false by simpa using h2] at h
            cases h
      · rw [show (a == "example".toList) = false by simpa using ha] at h
        cases h
  · intro h
    cases m <;> (rw [Name] at h; subst h; rfl)

/-- C77: names of methods that are served. -/
theorem c77_names (name : Str) (m : Method) : Methods.find name = .ok m ↔ Name m name := by
  rw [← lookup_iff]
  simp only [Methods.find]
  cases lookup services name <;> simp

theorem find_error {name : Str} {e : Rpc.DispatchErr} (h : lookup services name = .error e) :
    (Methods.find name : Except Str Method) = .error (Rpc.Server.missingText e name) := by
  show (match lookup services name with
    | .error e => .error (Rpc.Server.missingText e name)
    | .ok m => .ok m : Except Str Method) = _
  rw [h]

/-- C77: messages for names that are not served. A name without a dot, a name of another
service, a name of another method of the service. -/
theorem c77_message (name : Str) :
    ('.' ∉ name → (Methods.find name : Except Str Method) =
      .error ("rpc: service/method request ill-formed: ".toList ++ name)) ∧
    (∀ a b, name = a ++ '.' :: b → '.' ∉ b → a ≠ "example".toList →
      (Methods.find name : Except Str Method) =
        .error ("rpc: can't find service ".toList ++ name)) ∧
    (∀ b, name = "example.".toList ++ b → '.' ∉ b → (∀ m, ¬ Name m name) →
      (Methods.find name : Except Str Method) =
        .error ("rpc: can't find method ".toList ++ name)) := by
  have split : ∀ a b, name = a ++ '.' :: b → '.' ∉ b → splitLastDot name = some (a, b) := by
    intro a b h hb
    cases hs : splitLastDot name with
    | none => exact absurd (by rw [h]; simp) (Rpc.splitLastDot_none _ hs)
    | some p =>
      obtain ⟨a', b'⟩ := p
      obtain ⟨h', hb'⟩ := Rpc.splitLastDot_spec _ _ _ hs
      have := Rpc.lastDot_unique (h.symm.trans h') hb hb'
      rw [this.1, this.2]
  refine ⟨fun h => ?_, fun a b h hb ha => ?_, fun b h hb hm => ?_⟩
  · have : splitLastDot name = none := by
      cases hs : splitLastDot name with
      | none => rfl
      | some p => exact absurd (by rw [(Rpc.splitLastDot_spec _ p.1 p.2 hs).1]; simp) h
    exact find_error (e := .illFormed) (by unfold lookup; rw [this])
  · have hl : services.lookup a = none := by
      simp only [services, List.lookup_cons, List.lookup_nil]
      rw [show (a == "example".toList) = false by simpa using ha]
    exact find_error (e := .noService) (by unfold lookup; rw [split a b h hb]; simp only [hl])
  · have hl : methods.lookup b = none := by
      simp only [methods, List.lookup_cons, List.lookup_nil]
      rw [show (b == "Sqrt".toList) = false by
          simpa using fun e => hm .sqrt (by rw [h, e]; rfl),
        show (b == "Sleep".toList) = false by
          simpa using fun e => hm .sleep (by rw [h, e]; rfl)]
    have hsv : services.lookup "example".toList = some methods := rfl
    have h' : name = "example".toList ++ '.' :: b := h
    exact find_error (e := .noMethod)
      (by unfold lookup; rw [split _ b h' hb]; simp only [hsv, hl])

/-- Non-vacuity: one name of each kind. -/
example : (Methods.find "Sqrt".toList : Except Str Method) =
      .error "rpc: service/method request ill-formed: Sqrt".toList ∧
    (Methods.find "math.Sqrt".toList : Except Str Method) =
      .error "rpc: can't find service math.Sqrt".toList ∧
    (Methods.find "example.Cbrt".toList : Except Str Method) =
      .error "rpc: can't find method example.Cbrt".toList := ⟨rfl, rfl, rfl⟩

instance : Calls Method Method where
  Name := Name
  method m := m
  found {name m} h := ⟨m, (c77_names name m).mp h, rfl⟩
  missing {name t} h := by
    refine ⟨?_, fun c hc => ?_⟩
    · simp only [Methods.find] at h
      cases hl : lookup services name with
      | ok m => rw [hl] at h; cases h
      | error e =>
        rw [hl] at h
        injection h with h
        rw [← h]
        unfold Rpc.Server.missingText
        cases e <;> simp
    · rw [(c77_names name c).mpr hc] at h
      cases h

/-! ### Answers -/

theorem params_iff {α : Type} {d : Backend.Dec α} {zero : α} {is : Json → α → Prop}
    (h : ∀ v x, v ≠ .null → ((d.ok v = true ∧ d.apply v zero = x) ↔ is v x)) (hn : ∀ x, ¬is .null x)
    (p : Json) (x : α) : Backend.decParams d zero p = some x ↔ Given is zero p x := by
  constructor
  · intro hp
    cases p with
    | null => cases hp; exact .nothing
    | arr vs =>
      cases vs with
      | nil => cases hp; exact .absent
      | cons v vs =>
        by_cases hv : v = .null
        · subst hv; cases hp; exact .null
        · have : Backend.decParams d zero (.arr (v :: vs)) =
              if d.ok v then some (d.apply v zero) else none := by
            cases v <;> first | rfl | exact absurd rfl hv
          rw [this] at hp
          split at hp
          · rename_i hok
            injection hp with hp
            exact .value ((h v x hv).mp ⟨hok, hp⟩)
          · cases hp
    | _ => cases hp
  · intro hg
    cases hg with
    | nothing => rfl
    | absent => rfl
    | null => rfl
    | @value v vs _ hi =>
      have hv : v ≠ .null := by
        rintro rfl
        exact hn _ hi
      obtain ⟨h1, h2⟩ := (h v x hv).mpr hi
      have : Backend.decParams d zero (.arr (v :: vs)) =
          if d.ok v then some (d.apply v zero) else none := by
        cases v <;> first | rfl | exact absurd rfl hv
      rw [this, if_pos h1, h2]

theorem number_iff {f : Floats} (hf : Lawful f) (p : Json) (x : f.F) :
    Backend.decParams (decFloat f) f.zero p = some x ↔ Number f p x := by
  refine params_iff ?_ ?_ p x
  · intro v x hv
    have h1 : (decFloat f).ok v = (f.read v).isSome := by cases v <;> first | rfl | exact absurd rfl hv
    have h2 : (decFloat f).apply v f.zero = (f.read v).getD f.zero := by
      cases v <;> first | rfl | exact absurd rfl hv
    rw [h1, h2]
    cases f.read v <;> simp
  · intro x hx
    rcases hf.read hx with ⟨n, h⟩ | ⟨t, h⟩ <;> cases h

theorem time_iff (p : Json) (t : Int) : Backend.decParams Backend.decInt 0 p = some t ↔ Time p t := by
  refine params_iff ?_ ?_ p t
  · intro v x hv
    cases v with
    | null => exact absurd rfl hv
    | num n =>
      simp only [Backend.decInt, decide_eq_true_eq, IsInt, Json.Json.num.injEq]
      constructor
      · rintro ⟨h, rfl⟩; exact ⟨rfl, h⟩
      · rintro ⟨rfl, h⟩; exact ⟨h, rfl⟩
    | _ => simp [Backend.decInt, IsInt]
  · rintro x ⟨h, -⟩
    cases h

theorem sqrt_arg {f : Floats} (hf : Lawful f) {p : Json} {a : Arg f}
    (h : (world f).unmarshal .sqrt p = .ok a) : ∃ x, a = .sqrt x ∧ Number f p x := by
  simp only [world, argument] at h
  cases hd : Backend.decParams (decFloat f) f.zero p with
  | none => rw [hd] at h; cases h
  | some x => rw [hd] at h; cases h; exact ⟨x, rfl, (number_iff hf p x).mp hd⟩

theorem sleep_arg {f : Floats} {p : Json} {a : Arg f}
    (h : (world f).unmarshal .sleep p = .ok a) : ∃ t, a = .sleep t ∧ Time p t := by
  simp only [world, argument] at h
  cases hd : Backend.decParams Backend.decInt 0 p with
  | none => rw [hd] at h; cases h
  | some x => rw [hd] at h; cases h; exact ⟨x, rfl, (time_iff p x).mp hd⟩

theorem bad_arg {f : Floats} (hf : Lawful f) {m : Method} {p : Json} {msg : Str}
    (h : (world f).unmarshal m p = .error msg) :
    msg ≠ [] ∧ (m = .sqrt → ∀ x, ¬Number f p x) ∧ (m = .sleep → ∀ t, ¬Time p t) := by
  simp only [world] at h
  split at h
  · cases h
  · rename_i hn
    injection h with h
    refine ⟨by rw [← h]; simp, ?_, ?_⟩
    · rintro rfl x hx
      simp [argument, (number_iff hf p x).mpr hx] at hn
    · rintro rfl t ht
      simp [argument, (time_iff p t).mpr ht] at hn

theorem method_cases {name : Str} {m : Method} (h : Name m name) :
    (m = .sqrt ∧ name = "example.Sqrt".toList) ∨ (m = .sleep ∧ name = "example.Sleep".toList) := by
  cases m
  · exact .inl ⟨rfl, h⟩
  · exact .inr ⟨rfl, h⟩

/-- C77: what a reply to a request says. -/
theorem c77_reply {Id : Type} {f : Floats} (hf : Lawful f) {r : Request Id Json} {b : Body Json}
    (h : Answers (world f) r b) : Says f r b := by
  cases h with
  | unknown h1 h2 => exact .wrong (.method (h1 .sqrt) (h1 .sleep)) h2
  | noParams h1 h2 => exact .wrong (.none h1) h2
  | @badParams c p msg h1 h2 h3 h4 =>
    obtain ⟨-, ha, hb⟩ := bad_arg hf h3
    rcases method_cases h1 with ⟨rfl, hn⟩ | ⟨rfl, hn⟩
    · exact .wrong (.sqrt hn h2 (ha rfl)) h4
    · exact .wrong (.sleep hn h2 (hb rfl)) h4
  | badParamsSilent h1 h2 h3 => exact absurd rfl (bad_arg hf h3).1
  | @result c p a v h1 h2 h3 h4 =>
    rcases method_cases h1 with ⟨rfl, hn⟩ | ⟨rfl, hn⟩
    · obtain ⟨x, rfl, hx⟩ := sqrt_arg hf h3
      have h4 : Returns f .sqrt (.sqrt x) v none := h4
      generalize he : (none : Option Str) = e at h4
      cases h4 with
      | sqrt =>
        unfold sqrt at he ⊢
        split at he
        · cases he
        · rename_i hl
          rw [if_neg hl]
          exact .root hn h2 hx (by simpa using hl)
    · obtain ⟨t, rfl, ht⟩ := sleep_arg h3
      have h4 : Returns f .sleep (.sleep t) v none := h4
      cases h4
      exact .slept hn h2 ht
  | @failed c p a v msg h1 h2 h3 h4 h5 =>
    rcases method_cases h1 with ⟨rfl, hn⟩ | ⟨rfl, hn⟩
    · obtain ⟨x, rfl, hx⟩ := sqrt_arg hf h3
      have h4 : Returns f .sqrt (.sqrt x) v (some msg) := h4
      generalize he : some msg = e at h4
      cases h4 with
      | sqrt =>
        unfold sqrt at he
        split at he
        · rename_i hl
          injection he with he
          subst he
          exact .negative hn h2 hx hl
        · cases he
    · obtain ⟨t, rfl, ht⟩ := sleep_arg h3
      have h4 : Returns f .sleep (.sleep t) v (some msg) := h4
      cases h4
  | @failedSilent c p a v h1 h2 h3 h4 =>
    rcases method_cases h1 with ⟨rfl, hn⟩ | ⟨rfl, hn⟩
    · obtain ⟨x, rfl, hx⟩ := sqrt_arg hf h3
      have h4 : Returns f .sqrt (.sqrt x) v (some []) := h4
      generalize he : some ([] : Str) = e at h4
      cases h4 with
      | sqrt =>
        unfold sqrt at he
        split at he <;> cases he
    · obtain ⟨t, rfl, ht⟩ := sleep_arg h3
      have h4 : Returns f .sleep (.sleep t) v (some []) := h4
      cases h4

theorem given_unique {α : Type} {is : Json → α → Prop} {zero : α} (h1 : ∀ v x y, is v x → is v y → x = y)
    (h2 : ∀ x, ¬is .null x) {p : Json} {x y : α} (hx : Given is zero p x) (hy : Given is zero p y) :
    x = y := by
  cases hx <;> cases hy <;> first
    | rfl
    | (rename_i a; exact absurd a (h2 _))
    | (rename_i a b; exact h1 _ _ _ a b)

/-- C77: a request has one answer, up to the text of the message for a request that is wrong. -/
theorem c77_unique {Id : Type} {f : Floats} (hf : Lawful f) {r : Request Id Json} {b c : Body Json}
    (hb : Says f r b) (hc : Says f r c) :
    b = c ∨ Wrong f r ∧ ∃ t u, b = .error t ∧ c = .error u := by
  have hnum : ∀ {p x y}, Number f p x → Number f p y → x = y := fun h1 h2 =>
    given_unique (fun v x y a b => by rw [a] at b; exact Option.some.inj b)
      (fun x hx => by rcases hf.read hx with ⟨n, h⟩ | ⟨t, h⟩ <;> cases h) h1 h2
  have htime : ∀ {p x y}, Time p x → Time p y → x = y := fun h1 h2 =>
    given_unique (fun v x y a b => by have := a.1.symm.trans b.1; injection this)
      (fun x hx => by cases hx.1) h1 h2
  have hne : ("example.Sqrt".toList : Str) ≠ "example.Sleep".toList := by decide
  have hwrong : ∀ b : Body Json, Wrong f r → Says f r b → ∃ t, b = .error t := by
    intro b hw hs
    cases hs with
    | wrong => exact ⟨_, rfl⟩
    | negative => exact ⟨_, rfl⟩
    | root h1 h2 h3 _ =>
      cases hw with
      | method h _ => exact absurd h1 h
      | none h => rw [h] at h2; cases h2
      | sqrt _ h4 h5 => rw [h4] at h2; cases h2; exact absurd h3 (h5 _)
      | sleep h _ _ => exact absurd (h1.symm.trans h) hne
    | slept h1 h2 h3 =>
      cases hw with
      | method _ h => exact absurd h1 h
      | none h => rw [h] at h2; cases h2
      | sqrt h _ _ => exact absurd (h.symm.trans h1) hne
      | sleep _ h4 h5 => rw [h4] at h2; cases h2; exact absurd h3 (h5 _)
  by_cases hw : Wrong f r
  · exact .inr ⟨hw, by
      obtain ⟨t, h1⟩ := hwrong b hw hb
      obtain ⟨u, h2⟩ := hwrong c hw hc
      exact ⟨t, u, h1, h2⟩⟩
  · left
    cases hb with
    | wrong h => exact absurd h hw
    | root h1 h2 h3 h4 =>
      cases hc with
      | wrong h => exact absurd h hw
      | slept g1 => exact absurd (h1.symm.trans g1) hne
      | root g1 g2 g3 g4 => rw [h2] at g2; cases g2; rw [hnum h3 g3]
      | negative g1 g2 g3 g4 => rw [h2] at g2; cases g2; rw [hnum h3 g3, g4] at h4; cases h4
    | negative h1 h2 h3 h4 =>
      cases hc with
      | wrong h => exact absurd h hw
      | slept g1 => exact absurd (h1.symm.trans g1) hne
      | negative => rfl
      | root g1 g2 g3 g4 => rw [h2] at g2; cases g2; rw [hnum h3 g3, g4] at h4; cases h4
    | slept h1 h2 h3 =>
      cases hc with
      | wrong h => exact absurd h hw
      | slept g1 g2 g3 => rw [h2] at g2; cases g2; rw [htime h3 g3]
      | root g1 => exact absurd (g1.symm.trans h1) hne
      | negative g1 => exact absurd (g1.symm.trans h1) hne

/-! ### Sessions -/

theorem returns_some (f : Floats) {m : Method} {p : Json} {a : Arg f}
    (h : (world f).unmarshal m p = .ok a) : ∃ v t, Returns f m a v t := by
  simp only [world] at h
  split at h
  · rename_i x hx
    injection h with h
    subst h
    cases m <;> simp only [argument, Option.map_eq_some_iff] at hx <;> obtain ⟨y, -, rfl⟩ := hx
    · exact ⟨_, _, .sqrt⟩
    · exact ⟨_, _, .sleep⟩
  · cases h

/-- C77: no requests end the program before its input ends, every request gets one reply with its
identifier unless nobody reads them, and it says what the request asks for. -/
theorem c77_requests {Id : Type} {f : Floats} (hf : Lawful f) {reqs : List (Request Id Json)} {n : Nat}
    {s : State Id Json (Arg f) Json Method} (h : Rpc.Server.Steps (world f) (start reqs) n s) :
    s.crashed = false ∧ n ≤ 5 * reqs.length + 4 ∧
    ∃ ks : List Nat, ks.length = s.out.length ∧ ks.Nodup ∧
      (∀ (i k : Nat) (p : Reply Id Json), ks[i]? = some k → s.out[i]? = some p →
        ∃ r, reqs[k]? = some r ∧ p.id = r.id ∧ Says f r p.body) ∧
      ((∀ s', Rpc.Server.Step (world f) s s' → s'.broken ≠ s.broken) → s.loop = .closed ∧
        ∀ k, k < reqs.length → k ∈ ks ∨ s.broken = true) := by
  have hcr : s.crashed = false := by
    cases hc : s.crashed with
    | false => rfl
    | true =>
      obtain ⟨r, hr, c, p, a, h1, h2, h3, h4⟩ := Rpc.Server.c59_crash h hc
      exact h4.elim
  refine ⟨hcr, Rpc.Server.c59_ends h, ?_⟩
  have key : ∀ ks, Matched (world f) reqs s.out ks → ks.length = s.out.length ∧ ks.Nodup ∧
      (∀ (i k : Nat) (p : Reply Id Json), ks[i]? = some k → s.out[i]? = some p →
        ∃ r, reqs[k]? = some r ∧ p.id = r.id ∧ Says f r p.body) := by
    intro ks hm
    refine ⟨hm.length, hm.once, fun i k p hk hp => ?_⟩
    obtain ⟨r, h1, h2, h3⟩ := hm.answers i k p hk hp
    exact ⟨r, h1, h2, c77_reply hf h3⟩
  by_cases hstuck : ∀ s', Rpc.Server.Step (world f) s s' → s'.broken ≠ s.broken
  · have hends : ∀ r ∈ reqs, ¬Rpc.Server.NeverEnds (world f) r := by
      rintro r hr ⟨c, p, a, h1, h2, h3, h4, _⟩
      obtain ⟨v, t, h5⟩ := returns_some f h3
      exact h4 v t h5
    obtain ⟨⟨ks, hm, hall⟩, hclosed⟩ := Rpc.Server.c59_progress h hcr hstuck
    obtain ⟨k1, k2, k3⟩ := key ks hm
    refine ⟨ks, k1, k2, k3, fun _ => ⟨hclosed hends, fun k hk => ?_⟩⟩
    rcases hall k _ (List.getElem?_eq_getElem hk) with h1 | h1 | ⟨v, _, h1⟩ | h1
    · exact .inl h1
    · exact .inr h1
    · cases h1
    · exact absurd h1 (hends _ (List.getElem_mem hk))
  · obtain ⟨ks, hm⟩ := Rpc.Server.c59_replies h
    obtain ⟨k1, k2, k3⟩ := key ks hm
    exact ⟨ks, k1, k2, k3, fun hs => absurd hs hstuck⟩

/-! ### Texts -/

theorem whole_result {f : Floats} (hf : Lawful f) {r : Request Json Json} {v : Json}
    (h : Answers (world f) r (.result v)) : JsonText.Whole v := by
  generalize hb : (Body.result v : Body Json) = b at h
  have hs := c77_reply hf h
  subst hb
  cases hs with
  | root =>
    rename_i x _ _ _ _
    rcases hf.write (f.sqrt x) with ⟨n, hn⟩ | ⟨n, h1, h2⟩
    · rw [hn]; exact whole_num n
    · cases hw : f.write (f.sqrt x) with
      | real t => exact ⟨0, by rw [JsonText.Spec.Plain]; exact ⟨n, h1, by rw [h2, hw]⟩⟩
      | num m => exact whole_num m
      | _ =>
        rw [hw] at h2
        unfold JsonText.Spec.numValue at h2
        split at h2 <;> cases h2
  | slept => exact whole_num _

/-- C77: the same for bytes: whatever the order of calls and the way bytes arrive, what has been written
is frames with JSON texts; every text is a reply to a request of its own with its identifier. -/
theorem c77_texts (short : Bool) {f : Floats} (hf : Lawful f) {xs : List Bytes}
    {rs : List (Request Json Json)} (hr : JsonText.Spec.Sent xs rs) {sched : List Nat}
    {fin : Frame.SrcErr} {n : Nat} {s : State Bytes Bytes (Arg f) Json Method}
    (h : Rpc.Server.Steps (textOf (world f)) (start (requests ⟨stream xs, sched, fin⟩)) n s)
    (hlen : ∀ p ∈ s.out, (replyText short p).length < 2 ^ 32) :
    ∃ (us : List Text) (ks : List Nat), written short s.out = stream (us.map fun u => u.text ++ [10]) ∧
      ks.length = us.length ∧ ks.Nodup ∧
      ∀ (i k : Nat) (u : Text), ks[i]? = some k → us[i]? = some u →
        ∃ r b, rs[k]? = some r ∧ Says f r b ∧ JsonText.Spec.Means u (JsonText.Spec.replyValue r.id b) := by
  obtain ⟨us, ks, h1, h2⟩ := session_texts short (whole_result hf) hr h hlen
  refine ⟨us, ks, h1, h2.length, h2.once, fun i k u hk hu => ?_⟩
  obtain ⟨-, r, b, h3, h4, h5⟩ := h2.answers i k u hk hu
  exact ⟨r, b, h3, c77_reply hf h4, h5⟩

/-! ### Sleeping calls -/

namespace Spec

/-- The program before any of its sleeping calls wakes up. -/
def asleep (f : Floats) : Rpc.Server.World Json (Arg f) Json Method :=
  { world f with returns := fun m a v t => (world f).returns m a v t ∧ m ≠ .sleep }

end Spec

/-- This is a part of an execution of the program. -/
theorem c77_asleep {Id : Type} {f : Floats} {s t : State Id Json (Arg f) Json Method} {n : Nat}
    (h : Rpc.Server.Steps (asleep f) s n t) : Rpc.Server.Steps (world f) s n t := by
  have step : ∀ {s t : State Id Json (Arg f) Json Method}, Rpc.Server.Step (asleep f) s t → Rpc.Server.Step (world f) s t := by
    intro s t h
    cases h with
    | read h1 h2 h3 => exact .read h1 h2 h3
    | refuse h1 h2 h3 h4 h5 => exact .refuse h1 h2 h3 h4 h5
    | spawn h1 h2 h3 h4 h5 => exact .spawn h1 h2 h3 h4 h5
    | finish h1 h2 h3 => exact .finish h1 h2 h3.1
    | panic h1 h2 h3 => exact .panic h1 h2 h3
    | take h1 h2 h3 h4 => exact .take h1 h2 h3 h4
    | stray h1 h2 h3 h4 => exact .stray h1 h2 h3 h4
    | write h1 h2 => exact .write h1 h2
    | break_ h1 h2 => exact .break_ h1 h2
    | eof h1 h2 h3 => exact .eof h1 h2 h3
    | close h1 h2 h3 => exact .close h1 h2 h3
  induction h with
  | refl => exact .refl
  | step _ hs ih => exact .step ih (step hs)

/-- C77: a call that sleeps does not delay others: if nothing but the end of a sleep can happen, all
requests have been answered except calls of `Sleep`. -/
theorem c77_concurrent {Id : Type} {f : Floats} {reqs : List (Request Id Json)} {n : Nat}
    {s : State Id Json (Arg f) Json Method} (h : Rpc.Server.Steps (asleep f) (start reqs) n s)
    (hb : s.broken = false) (hstuck : ∀ s', Rpc.Server.Step (asleep f) s s' → s'.broken ≠ s.broken) :
    ∀ (k : Nat) (r : Request Id Json), reqs[k]? = some r → r.method ≠ "example.Sleep".toList →
      ∃ p ∈ s.out, p.id = r.id ∧ Answers (world f) r p.body := by
  have hcr : s.crashed = false := by
    cases hc : s.crashed with
    | false => rfl
    | true =>
      obtain ⟨r, hr, c, p, a, h1, h2, h3, h4⟩ := Rpc.Server.c59_crash h hc
      exact h4.elim
  obtain ⟨⟨ks, hm, hall⟩, -⟩ := Rpc.Server.c59_progress h hcr hstuck
  intro k r hr hne
  have hk : k ∈ ks := by
    rcases hall k r hr with h1 | h1 | ⟨v, _, h1⟩ | ⟨c, p, a, h1, h2, h3, h4, _⟩
    · exact h1
    · rw [hb] at h1; cases h1
    · cases h1
    · rcases method_cases h1 with ⟨rfl, hn⟩ | ⟨rfl, hn⟩
      · obtain ⟨v, t, h5⟩ := returns_some f (m := .sqrt) h3
        exact absurd ⟨h5, by simp⟩ (h4 v t)
      · exact absurd hn hne
  obtain ⟨i, hi⟩ := List.getElem?_of_mem hk
  have hil := (List.getElem?_eq_some_iff.mp hi).1
  rw [hm.length] at hil
  obtain ⟨r', h1, h2, h3⟩ := hm.answers i k _ hi (List.getElem?_eq_getElem hil)
  rw [hr] at h1
  injection h1 with h1
  subst h1
  refine ⟨_, List.getElem_mem hil, h2, ?_⟩
  generalize s.out[i].body = b at h3
  cases h3 with
  | unknown h1 h2 => exact .unknown h1 h2
  | noParams h1 h2 => exact .noParams h1 h2
  | badParams h1 h2 h3 h4 => exact .badParams h1 h2 h3 h4
  | badParamsSilent h1 h2 h3 => exact .badParamsSilent h1 h2 h3
  | result h1 h2 h3 h4 => exact .result h1 h2 h3 h4.1
  | failed h1 h2 h3 h4 h5 => exact .failed h1 h2 h3 h4.1 h5
  | failedSilent h1 h2 h3 h4 => exact .failedSilent h1 h2 h3 h4.1

/-- C77, for times up to 9223372036854 milliseconds (292 years): a call sleeps for the time it has been
asked to.  Missing: longer times, see `c77_violation`. -/
theorem c77_pause_partial {t : Int} (h : t ≤ 9223372036854) :
    pause t = if t > 0 then t * 1000000 else 0 := by
  unfold pause
  split
  · rw [Tree.wrap64_id (by omega) (by omega)]
    simp only
    rw [if_pos (by omega)]
  · rfl

/-- C77 does not hold for longer times: a call never sleeps for as long as it has been asked to, and for
some of the times it does not sleep at all. -/
theorem c77_violation : (∀ t : Int, 9223372036854 < t → pause t < t * 1000000) ∧
    pause 9223372036855 = 0 ∧ pause (2 ^ 62) = 0 := by
  refine ⟨fun t ht => ?_, by decide, by decide⟩
  unfold pause Tree.wrap64
  split
  · simp only
    split <;> omega
  · omega

/-! ### An example of numbers -/

/-- Integers and a number with a fraction. -/
inductive Num where
  | int (n : Int)
  | root2
  deriving DecidableEq

/-- Square roots of 0, 1, 2 and 4. -/
def exFloats : Floats where
  F := Num
  zero := .int 0
  lt
    | .int a, .int b => a < b
    | .int a, .root2 => a ≤ 1
    | .root2, .int b => 1 < b
    | .root2, .root2 => false
  sqrt x := if x = .int 2 then .root2 else if x = .int 4 then .int 2 else x
  read
    | .num n => some (.int n)
    | .real t => if t = "1.4142135623730951".toList then some .root2 else none
    | _ => none
  write
    | .int n => .num n
    | .root2 => .real "1.4142135623730951".toList

theorem exFloats_lawful : Lawful exFloats where
  read {v x} h := by
    cases v <;> first
      | exact .inl ⟨_, rfl⟩
      | exact .inr ⟨_, rfl⟩
      | cases h
  write x := by
    cases x with
    | int n => exact .inl ⟨n, rfl⟩
    | root2 =>
      exact .inr ⟨⟨false, [49], [52, 49, 52, 50, 49, 51, 53, 54, 50, 51, 55, 51, 48, 57, 53, 49], none, false⟩,
        by decide, rfl⟩

/-- A request of a square root. -/
def exRoot (id n : Int) : Request Json Json :=
  ⟨some (.num id), "example.Sqrt".toList, some (.arr [.num n])⟩

example : Says exFloats (exRoot 1 2) (.result (.real "1.4142135623730951".toList)) :=
  .root (f := exFloats) (r := exRoot 1 2) (p := .arr [.num 2]) (x := Num.int 2) rfl rfl (.value rfl) rfl

example : Says exFloats (exRoot 2 (-2)) (.error "square root of negative number".toList) :=
  .negative (f := exFloats) (p := .arr [.num (-2)]) (x := Num.int (-2)) rfl rfl (.value rfl) rfl

example : Says exFloats ⟨some (Json.num 3), "example.Sqrt".toList, some (.arr [.str "2".toList])⟩
    (.error "json: cannot unmarshal".toList) := by
  refine .wrong (.sqrt rfl rfl fun x h => ?_) (by simp)
  cases h with
  | value h => cases h

/-- A call that sleeps is overtaken by the next ones. -/
theorem example_run : ∃ n, ∃ s : State Json Json (Arg exFloats) Json Method,
    Rpc.Server.Steps (world exFloats) (start
      [⟨some (.num 1), "example.Sleep".toList, some (.arr [.num 1500])⟩,
       ⟨some (.num 2), "example.sqrt".toList, some (.arr [.num 2])⟩, exRoot 3 2]) n s ∧
    s.loop = .closed ∧ s.broken = false ∧
    s.out = [⟨some (.num 2), .error "rpc: can't find method example.sqrt".toList⟩,
      ⟨some (.num 3), .result (.real "1.4142135623730951".toList)⟩,
      ⟨some (.num 1), .result (.num 1500)⟩] := by
  have d1 : lookup services "example.Sleep".toList = .ok Method.sleep := rfl
  have d2 : lookup services "example.sqrt".toList = .error .noMethod := rfl
  have d3 : lookup services "example.Sqrt".toList = .ok Method.sqrt := rfl
  have d4 : Rpc.Server.missingText .noMethod "example.sqrt".toList =
      "rpc: can't find method example.sqrt".toList := by decide +kernel
  exact Rpc.Server.example_session (w := world exFloats) (m1 := .sleep) (m3 := .sqrt)
    (a1 := .sleep 1500) (a3 := .sqrt (Num.int 2)) (t := "rpc: can't find method example.sqrt".toList)
    (v1 := .num 1500) (v3 := .real "1.4142135623730951".toList)
    (by simp only [Rpc.Server.prepare, Methods.find, d1]; rfl)
    (by simp only [Rpc.Server.prepare, Methods.find, d2, d4])
    (by simp only [Rpc.Server.prepare, Methods.find, exRoot, d3]; rfl)
    .sleep (.sqrt (f := exFloats) (x := Num.int 2)) rfl (by unfold Rpc.Server.respond; split <;> rfl) rfl

end Burl.Example
