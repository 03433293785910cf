import Verif.JsonText.ExactProps
import Verif.JsonText.RefusedProps
/-! What is read from arbitrary bytes. -/
namespace Burl.JsonText
open Burl
open Burl.Json (Json)
open Burl.Rpc (JState Fn jsonStep isSpace Decoder readValue scanBuf serve DErr ServeStop)
open Burl.Rpc.Spec (Blank Padded Piece)
open Burl.Rpc.Server (Request)
open Burl.Frame (Reader Src SrcErr RErr)
open Burl.Frame.Spec (le32)
open Burl.Extract (All₂)
open Burl.Backend.Spec (Latest TakesStr)
open Burl.JsonText.Spec

namespace Spec

/-- A beginning of what bytes have without headers of frames; the number is how much is left of the
frame at the beginning of the bytes. -/
inductive Payload : Nat → Bytes → Bytes → Prop where
  | stop {n x} : Payload n x []
  | byte {n b x p} : Payload n x p → Payload (n + 1) (b :: x) (b :: p)
  | header {n x p} : n ≤ 2 ^ 30 → Payload n x p → Payload 0 (le32 n ++ x) p

/-- A value is a request: an object, or `null` as an object without members. -/
def Asks (v : Json) (r : Request Json Json) : Prop :=
  (v = .null ∧ r = ⟨none, [], none⟩) ∨ ∃ ms, v = .obj ms ∧ Says ms r

/-- Bytes are a JSON text of a request. -/
def AsksText (r : Request Json Json) (x : Bytes) : Prop := ∃ v, Padded (TextFor 10000 v) x ∧ Asks v r

end Spec

/-! ### The scanner -/

/-- An array that has just begun is open. -/
def Open (s : JState) : Prop := s.fn = .beginValueOrEmpty → s.ctx ≠ []

theorem open_step {s s' : JState} {b : UInt8} (ho : Open s) (h : jsonStep s b = .more s') : Open s' := by
  intro hf
  have push : ∀ {c ctx fn}, Rpc.push c ctx fn = .more s' → s'.ctx ≠ [] := by
    intro c ctx fn hp
    unfold Rpc.push at hp
    split at hp
    · injection hp with hp; subst hp; simp
    · cases hp
  have pop : ∀ {ctx}, Rpc.pop ctx = .more s' → s'.fn ≠ .beginValueOrEmpty := by
    intro ctx hp
    unfold Rpc.pop at hp
    split at hp
    · cases hp
    · injection hp with hp; subst hp; simp
  have ev : ∀ {ctx b}, Rpc.stepEndValue ctx b = .more s' → s'.fn ≠ .beginValueOrEmpty := by
    intro ctx b hp
    unfold Rpc.stepEndValue at hp
    repeat' split at hp
    all_goals first
      | exact pop hp
      | (injection hp with hp; subst hp; simp)
      | cases hp
  have bv : ∀ {ctx b}, Rpc.stepBeginValue ctx b = .more s' → s'.fn = .beginValueOrEmpty → s'.ctx ≠ [] := by
    intro ctx b hp hf
    unfold Rpc.stepBeginValue at hp
    repeat' split at hp
    all_goals first
      | exact push hp
      | (injection hp with hp; subst hp; simp at hf)
      | cases hp
  have bs : ∀ {ctx b}, Rpc.stepBeginString ctx b = .more s' → s'.fn ≠ .beginValueOrEmpty := by
    intro ctx b hp
    unfold Rpc.stepBeginString at hp
    repeat' split at hp
    all_goals first
      | (injection hp with hp; subst hp; simp)
      | cases hp
  have sz : ∀ {ctx b}, Rpc.stepZero ctx b = .more s' → s'.fn ≠ .beginValueOrEmpty := by
    intro ctx b hp
    unfold Rpc.stepZero at hp
    repeat' split at hp
    all_goals first
      | exact ev hp
      | (injection hp with hp; subst hp; simp)
  have se : ∀ {ctx b}, Rpc.stepESign ctx b = .more s' → s'.fn ≠ .beginValueOrEmpty := by
    intro ctx b hp
    unfold Rpc.stepESign at hp
    repeat' split at hp
    all_goals first
      | (injection hp with hp; subst hp; simp)
      | cases hp
  unfold jsonStep at h
  repeat' split at h
  all_goals first
    | exact bv h hf
    | exact absurd hf (ev h)
    | exact absurd hf (bs h)
    | exact absurd hf (sz h)
    | exact absurd hf (se h)
    | (injection h with h; subst h; first | exact ho hf | simp at hf)
    | cases h

theorem stop_step {s : JState} {b : UInt8} (ho : Open s) (h : jsonStep s b = .stop) : jsonStep s 32 = .stop := by
  have push : ∀ {c ctx fn}, Rpc.push c ctx fn ≠ .stop := by
    intro c ctx fn hp
    unfold Rpc.push at hp
    split at hp <;> cases hp
  have pop : ∀ {ctx}, Rpc.pop ctx ≠ .stop := by
    intro ctx hp
    unfold Rpc.pop at hp
    split at hp <;> cases hp
  have ev : ∀ {ctx b}, Rpc.stepEndValue ctx b = .stop → ctx = [] := by
    intro ctx b hp
    unfold Rpc.stepEndValue at hp
    repeat' split at hp
    all_goals first
      | rfl
      | exact absurd hp pop
      | cases hp
  have bv : ∀ {ctx b}, Rpc.stepBeginValue ctx b ≠ .stop := by
    intro ctx b hp
    unfold Rpc.stepBeginValue at hp
    repeat' split at hp
    all_goals first
      | exact absurd hp push
      | cases hp
  have bs : ∀ {ctx b}, Rpc.stepBeginString ctx b ≠ .stop := by
    intro ctx b hp
    unfold Rpc.stepBeginString at hp
    repeat' split at hp
    all_goals cases hp
  have sz : ∀ {ctx b}, Rpc.stepZero ctx b = .stop → ctx = [] := by
    intro ctx b hp
    unfold Rpc.stepZero at hp
    repeat' split at hp
    all_goals first
      | exact ev hp
      | cases hp
  have se : ∀ {ctx b}, Rpc.stepESign ctx b ≠ .stop := by
    intro ctx b hp
    unfold Rpc.stepESign at hp
    repeat' split at hp
    all_goals cases hp
  obtain ⟨fn, ctx⟩ := s
  cases fn with
  | beginValueOrEmpty =>
    simp only [jsonStep] at h
    split at h
    · cases h
    · split at h
      · exact absurd (ev h) (ho rfl)
      · exact absurd h bv
  | beginValue => exact absurd h bv
  | beginStringOrEmpty =>
    simp only [jsonStep] at h
    split at h
    · cases h
    · split at h
      · split at h
        · cases h
        · exact absurd (ev h) (by simp)
      · exact absurd h bs
  | beginString => exact absurd h bs
  | endValue => simp only [jsonStep] at h; rw [ev h]; rfl
  | endTop => rfl
  | inString => simp only [jsonStep] at h; repeat' split at h
                all_goals cases h
  | esc => simp only [jsonStep] at h; repeat' split at h
           all_goals cases h
  | u0 => simp only [jsonStep] at h; split at h <;> cases h
  | u1 => simp only [jsonStep] at h; split at h <;> cases h
  | u2 => simp only [jsonStep] at h; split at h <;> cases h
  | u3 => simp only [jsonStep] at h; split at h <;> cases h
  | neg => simp only [jsonStep] at h; repeat' split at h
           all_goals cases h
  | one =>
    simp only [jsonStep] at h
    split at h
    · cases h
    · rw [sz h]; rfl
  | zero => simp only [jsonStep] at h; rw [sz h]; rfl
  | dot => simp only [jsonStep] at h; split at h <;> cases h
  | dot0 =>
    simp only [jsonStep] at h
    repeat' split at h
    all_goals first
      | cases h
      | (rw [ev h]; rfl)
  | e =>
    simp only [jsonStep] at h
    split at h
    · cases h
    · exact absurd h se
  | eSign => exact absurd h se
  | e0 =>
    simp only [jsonStep] at h
    split at h
    · cases h
    · rw [ev h]; rfl
  | lit rest =>
    cases rest with
    | nil => simp only [jsonStep] at h; rw [ev h]; rfl
    | cons c cs => simp only [jsonStep] at h; split at h <;> cases h

theorem open_run {s s' : JState} {x : Bytes} (ho : Open s) (h : Rpc.run s x = some s') : Open s' := by
  induction x generalizing s with
  | nil => rw [Rpc.run] at h; cases h; exact ho
  | cons b x ih =>
    rw [Rpc.run] at h
    split at h
    · rename_i s1 hs
      exact ih (open_step ho hs) h
    · cases h

theorem scan_more {s s' : JState} {x : Bytes} (h : scanBuf Rpc.json s x = .more s') : Rpc.run s x = some s' := by
  induction x generalizing s with
  | nil => simp only [scanBuf] at h; cases h; rfl
  | cons b x ih =>
    simp only [scanBuf] at h
    rw [Rpc.run]
    cases hs : jsonStep s b with
    | more s1 =>
      rw [show Rpc.json.step s b = .more s1 from hs] at h
      simp only at h
      cases hb : scanBuf Rpc.json s1 x with
      | more s2 => rw [hb] at h; cases h; exact ih hb
      | done n => rw [hb] at h; cases h
      | bad => rw [hb] at h; cases h
    | last => rw [show Rpc.json.step s b = .last from hs] at h; cases h
    | stop => rw [show Rpc.json.step s b = .stop from hs] at h; cases h
    | bad => rw [show Rpc.json.step s b = .bad from hs] at h; cases h

theorem scan_done {s : JState} {x : Bytes} {k : Nat} (ho : Open s) (h : scanBuf Rpc.json s x = .done k) :
    k ≤ x.length ∧ checkValid s (x.take k) = true := by
  induction x generalizing s k with
  | nil => simp only [scanBuf] at h; cases h
  | cons b x ih =>
    simp only [scanBuf] at h
    cases hs : jsonStep s b with
    | more s1 =>
      rw [show Rpc.json.step s b = .more s1 from hs] at h
      simp only at h
      cases hb : scanBuf Rpc.json s1 x with
      | more s2 => rw [hb] at h; cases h
      | bad => rw [hb] at h; cases h
      | done n =>
        rw [hb] at h
        cases h
        obtain ⟨h1, h2⟩ := ih (open_step ho hs) hb
        refine ⟨by simpa using h1, ?_⟩
        rw [List.take_succ_cons, checkValid, hs]
        exact h2
    | last =>
      rw [show Rpc.json.step s b = .last from hs] at h
      cases h
      refine ⟨by simp, ?_⟩
      rw [List.take_succ_cons, List.take_zero, checkValid, hs]
      rfl
    | stop =>
      rw [show Rpc.json.step s b = .stop from hs] at h
      cases h
      refine ⟨by simp, ?_⟩
      rw [List.take_zero, checkValid, stop_step ho hs]
    | bad => rw [show Rpc.json.step s b = .bad from hs] at h; cases h

/-! ### The decoder -/

theorem read_any (r : Reader) (k : Nat) {r' : Reader} {b : Bytes} {e : Option SrcErr}
    (h : r.read k = (r', b, e)) : r.src.data = b ++ r'.src.data ∧ r'.n = r.n - b.length ∧ b.length ≤ r.n := by
  unfold Reader.read at h
  split at h
  · cases h; simp
  split at h
  · cases h; simp
  rename_i hn hk
  simp only at h
  by_cases hd : r.src.data = []
  · rw [Frame.Src.read_nil _ _ hd] at h
    cases h
    simp [hd]
  · obtain ⟨m, sch, h1, h2, h3⟩ := Frame.Src.read_spec r.src (min k r.n) (by omega) hd
    rw [h3] at h
    cases h
    refine ⟨(List.take_append_drop _ _).symm, rfl, ?_⟩
    rw [List.length_take]
    omega

theorem readValue_any : ∀ (fuel : Nat) (s : JState) (n : Nat) (err : Option SrcErr) (d d' : Decoder) (r r' : Reader)
    (v : Bytes), readValue Rpc.json fuel s n err d r = (d', r', .ok v) → n ≤ d.buf.length →
    Rpc.run Rpc.json.start (d.buf.take n) = some s →
    ∃ got, v ++ d'.buf = d.buf ++ got ∧ r.src.data = got ++ r'.src.data ∧ r'.n = r.n - got.length ∧
      got.length ≤ r.n ∧ checkValid Rpc.json.start v = true := by
  intro fuel
  have h0 : Open Rpc.json.start := by intro h; cases h
  induction fuel with
  | zero => intro s n err d d' r r' v h; cases h
  | succ fuel ih =>
    intro s n err d d' r r' v h hn hr
    have ho := open_run h0 hr
    rw [readValue] at h
    cases hs : scanBuf Rpc.json s (d.buf.drop n) with
    | bad => rw [hs] at h; cases h
    | done k =>
      rw [hs] at h
      obtain ⟨h1, h2⟩ := scan_done ho hs
      cases h
      refine ⟨[], by simp, by simp, by simp, by simp, ?_⟩
      rw [← checkValid_run hr] at h2
      rw [List.take_add]
      exact h2
    | more s' =>
      rw [hs] at h
      have hm := scan_more hs
      have hall : Rpc.run Rpc.json.start d.buf = some s' := by
        have := Rpc.run_append Rpc.json.start (d.buf.take n) (d.buf.drop n)
        rw [List.take_append_drop, hr, Option.bind_some, hm] at this
        exact this
      simp only at h
      split at h
      · split at h
        · rename_i hstop
          cases h
          refine ⟨[], by simp, by simp, by simp, by simp, ?_⟩
          have := checkValid_run hall []
          rw [List.append_nil] at this
          rw [this, checkValid, show jsonStep s' 32 = .stop from hstop]
        · cases h
      · cases h
      · unfold Decoder.refill at h
        simp only at h
        generalize hk : (if d.cap - d.buf.length < 512 then 2 * d.cap + 512 else d.cap) = cap at h
        cases hrd : r.read (cap - d.buf.length) with
        | mk r1 be =>
          obtain ⟨b, e⟩ := be
          rw [hrd] at h
          simp only at h
          obtain ⟨g1, g2, g3⟩ := read_any _ _ hrd
          obtain ⟨got, e1, e2, e3, e4, e5⟩ := ih s' d.buf.length e ⟨d.buf ++ b, cap⟩ d' r1 r' v h
            (by simp) (by simpa using hall)
          refine ⟨b ++ got, by rw [e1]; simp, by rw [g1, e2]; simp, ?_, ?_, e5⟩
          · rw [e3, g2, List.length_append]; omega
          · rw [List.length_append]; omega

theorem payload_append {n : Nat} {got x p : Bytes} (h : got.length ≤ n) (hp : Payload (n - got.length) x p) :
    Payload n (got ++ x) (got ++ p) := by
  induction got generalizing n with
  | nil => simpa using hp
  | cons b got ih =>
    simp only [List.length_cons] at h hp
    obtain ⟨n, rfl⟩ : ∃ m, n = m + 1 := ⟨n - 1, by omega⟩
    exact .byte (ih (by omega) (by rwa [show n - got.length = n + 1 - (got.length + 1) by omega]))

theorem le32_of (a b c d : UInt8) : ∃ n, n < 2 ^ 32 ∧ le32 n = [a, b, c, d] := by
  have ha := a.toNat_lt; have hb := b.toNat_lt; have hc := c.toNat_lt; have hd := d.toNat_lt
  have e : ∀ (x : UInt8) (n : Nat), n % 256 = x.toNat → UInt8.ofNat n = x := by
    intro x n h
    apply UInt8.toNat_inj.1
    simp [h]
  refine ⟨a.toNat + 256 * b.toNat + 65536 * c.toNat + 16777216 * d.toNat, by omega, ?_⟩
  rw [← Frame.putU32_eq_le32, Frame.putU32]
  rw [e a _ (by omega), e b _ (by omega), e c _ (by omega), e d _ (by omega)]

theorem readHeader_any {r r' : Reader} (h : r.readHeader = (r', none)) :
    r.n = 0 ∧ ∃ size, size ≤ 2 ^ 30 ∧ r.src.data = le32 size ++ r'.src.data ∧ r'.n = size := by
  have hn : r.n = 0 := by
    refine Classical.byContradiction fun hc => ?_
    unfold Reader.readHeader at h
    rw [if_pos hc] at h
    cases h
  refine ⟨hn, ?_⟩
  match hd : r.src.data with
  | a :: b :: c :: d :: rest =>
    obtain ⟨size, hs, e⟩ := le32_of a b c d
    have hdd : r.src.data = le32 size ++ rest := by rw [hd, e]; rfl
    obtain ⟨sch, hh⟩ := Frame.readHeader_ok r hn size rest hs hdd
    rw [hh] at h
    split at h
    · cases h
    · rename_i hle
      cases h
      refine ⟨size, by rw [Frame.maxInSize] at hle; omega, ?_, rfl⟩
      rw [e]; rfl
  | [] => obtain ⟨sch, hh⟩ := Frame.readHeader_short r hn (by rw [hd]; simp)
          rw [hh] at h; cases h
  | [_] => obtain ⟨sch, hh⟩ := Frame.readHeader_short r hn (by rw [hd]; simp)
           rw [hh] at h; cases h
  | [_, _] => obtain ⟨sch, hh⟩ := Frame.readHeader_short r hn (by rw [hd]; simp)
              rw [hh] at h; cases h
  | [_, _, _] => obtain ⟨sch, hh⟩ := Frame.readHeader_short r hn (by rw [hd]; simp)
                 rw [hh] at h; cases h

theorem serve_any (accept : Bytes → Bool) : ∀ (fuel : Nat) (d : Decoder) (r : Reader),
    ∃ p, Payload r.n r.src.data p ∧ (serve Rpc.json accept fuel d r).1.flatten <+: d.buf ++ p ∧
      ∀ m ∈ (serve Rpc.json accept fuel d r).1, accept m = true ∧ checkValid Rpc.json.start m = true := by
  intro fuel
  induction fuel with
  | zero => intro d r; exact ⟨[], .stop, by simp [serve], by simp [serve]⟩
  | succ fuel ih =>
    intro d r
    rw [serve]
    cases hh : r.readHeader with
    | mk r1 e =>
      cases e with
      | some e => exact ⟨[], .stop, by simp, by simp⟩
      | none =>
        simp only
        obtain ⟨hn, size, h1, h2, h3⟩ := readHeader_any hh
        cases hv : readValue Rpc.json (r1.n + 3) Rpc.json.start 0 none d r1 with
        | mk d' x =>
          obtain ⟨r', o⟩ := x
          cases o with
          | error e => exact ⟨[], .stop, by simp, by simp⟩
          | ok v =>
            simp only
            obtain ⟨got, g1, g2, g3, g4, g5⟩ := readValue_any _ _ _ _ _ _ _ _ _ hv (Nat.zero_le _) rfl
            cases ha : accept v with
            | false => exact ⟨[], .stop, by simp, by simp⟩
            | true =>
              simp only [if_true]
              obtain ⟨p, hp, hf, hall⟩ := ih d' r'
              refine ⟨got ++ p, ?_, ?_, ?_⟩
              · rw [hn, h2]
                refine .header h1 ?_
                rw [← h3, g2]
                exact payload_append g4 (by rw [← g3]; exact hp)
              · rw [List.flatten_cons, ← List.append_assoc, ← g1, List.append_assoc]
                exact (List.prefix_append_right_inj v).2 hf
              · intro m hm
                rcases List.mem_cons.1 hm with rfl | hm
                · exact ⟨ha, g5⟩
                · exact hall m hm

/-! ### Requests -/

theorem mayBe_some {x : Bytes} {v : Json} (h : TextFor 9999 v x) : ∃ p, TextOf (rawField x) p ∧
    ∀ {o vs o'}, Latest (fun _ v o => o = some v) (fun _ => none) p vs o' →
      Latest (fun _ v o => o = some v) (fun _ => none) o (v :: vs) o' := by
  obtain ⟨h1, h2⟩ := rawField_of h
  by_cases hv : v = .null
  · subst hv
    exact ⟨none, by rw [h1 rfl]; trivial, fun hl => .null hl⟩
  · exact ⟨some v, by rw [h2 hv]; exact h, fun hl => .value hv rfl hl⟩

theorem header_back {xs : List (Str × Bytes)} {vs : List (Str × Json)} (hx : Texts xs vs)
    {b : Request Bytes Bytes} : ∀ {a : Request Bytes Bytes} {o o' : Option Json}, header xs a = some b →
    TextOf a.params o → TextOf a.id o' →
    ∃ r : Request Json Json, Latest TakesStr id a.method (membersNamed "method" vs) r.method ∧
      Latest (fun _ v o => o = some v) (fun _ => none) o (membersNamed "params" vs) r.params ∧
      Latest (fun _ v o => o = some v) (fun _ => none) o' (membersNamed "id" vs) r.id ∧ SameRequest b r := by
  induction hx with
  | nil =>
    intro a o o' h h1 h2
    cases h
    exact ⟨⟨o', b.method, o⟩, .done, .done, .done, rfl, h1, h2⟩
  | @cons k v x xs vs hok hx ih =>
    intro a o o' h h1 h2
    simp only [named_cons "method" (by decide), named_cons "params" (by decide), named_cons "id" (by decide)]
    rw [header] at h
    by_cases g1 : Backend.sameName "method".toList k = true
    · have g2 := sameName_excl (b := "params".toList) (by decide) g1
      have g3 := sameName_excl (b := "id".toList) (by decide) g1
      rw [if_pos g1, parse_of hok] at h
      simp only [g1, g2, g3, if_true, Bool.false_eq_true, if_false]
      cases v with
      | str m =>
        obtain ⟨r, e1, e2, e3, e4⟩ := ih h h1 h2
        exact ⟨r, .value (by simp) rfl e1, e2, e3, e4⟩
      | null =>
        obtain ⟨r, e1, e2, e3, e4⟩ := ih h h1 h2
        exact ⟨r, .null e1, e2, e3, e4⟩
      | _ => cases h
    rw [if_neg g1] at h
    simp only [g1]
    by_cases g2 : Backend.sameName "params".toList k = true
    · have g3 := sameName_excl (b := "id".toList) (by decide) g2
      rw [if_pos g2] at h
      obtain ⟨p, hp, hl⟩ := mayBe_some hok
      obtain ⟨r, e1, e2, e3, e4⟩ := ih (a := { a with params := rawField x }) h hp h2
      simp only [g2, g3, if_true, Bool.false_eq_true, if_false]
      exact ⟨r, e1, hl e2, e3, e4⟩
    rw [if_neg g2] at h
    simp only [g2]
    by_cases g3 : Backend.sameName "id".toList k = true
    · rw [if_pos g3] at h
      obtain ⟨p, hp, hl⟩ := mayBe_some hok
      obtain ⟨r, e1, e2, e3, e4⟩ := ih (a := { a with id := rawField x }) h h1 hp
      simp only [g3, if_true, Bool.false_eq_true, if_false]
      exact ⟨r, e1, e2, hl e3, e4⟩
    rw [if_neg g3] at h
    simp only [g3]
    obtain ⟨r, e1, e2, e3, e4⟩ := ih h h1 h2
    exact ⟨r, by simpa using e1, by simpa using e2, by simpa using e3, e4⟩

theorem request_back {v : Json} {x : Bytes} (hx : Padded (TextFor 10000 v) x) {b : Request Bytes Bytes}
    (h : request x = some b) : ∃ r, Asks v r ∧ SameRequest b r := by
  obtain ⟨w, y, w', hw, hy, -, rfl⟩ := hx
  cases v with
  | obj vs =>
    obtain ⟨xs, e, ht⟩ := request_obj (w' := w') hy hw
    rw [e] at h
    obtain ⟨r, e1, e2, e3, e4⟩ := header_back ht (o := none) (o' := none) h trivial trivial
    exact ⟨r, .inr ⟨vs, rfl, e1, e2, e3⟩, e4⟩
  | arr vs =>
    rw [request_none hw hy (.inl ⟨vs, rfl⟩)] at h
    cases h
  | null =>
    refine ⟨⟨none, [], none⟩, .inl ⟨rfl, rfl⟩, ?_⟩
    have : ∃ c, request (w ++ (y ++ w')) = some c ∧ c = ⟨none, [], none⟩ := by
      obtain ⟨t, ht, hm, hy⟩ := hy
      cases t with
      | null =>
        rw [Rpc.Spec.Json.Writes] at hy
        subst hy
        refine ⟨_, ?_, rfl⟩
        rw [request, skip_blank hw, show Rpc.Spec.bytesOf "null" = 110 :: [117, 108, 108] from rfl,
          List.cons_append, skip_head (by decide)]
        simp
      | num n => rw [Means, numValue] at hm; split at hm <;> cases hm
      | _ => simp [Means] at hm
    obtain ⟨c, hc, rfl⟩ := this
    rw [hc] at h
    cases h
    exact ⟨rfl, trivial, trivial⟩
  | _ =>
    exfalso
    obtain ⟨t, ht, hm, hy⟩ := hy
    obtain ⟨c, cs, e, -, hs⟩ := Rpc.writes_head ht hy
    rw [request, skip_blank hw, e, List.cons_append, skip_head hs] at h
    cases t with
    | null => simp [Means] at hm
    | arr _ => simp [Means] at hm
    | obj _ => simp [Means] at hm
    | bool x =>
      cases x with
      | true =>
        rw [Rpc.Spec.Json.Writes, e, show Rpc.Spec.bytesOf "true" = 116 :: [114, 117, 101] from rfl] at hy
        injection hy with hy
        subst hy
        simp at h
      | false =>
        rw [Rpc.Spec.Json.Writes, e, show Rpc.Spec.bytesOf "false" = 102 :: [97, 108, 115, 101] from rfl] at hy
        injection hy with hy
        subst hy
        simp at h
    | str ps =>
      rw [Rpc.Spec.Json.Writes, Rpc.Spec.strText] at hy
      rw [e] at hy
      cases hy
      simp at h
    | num n =>
      rw [Rpc.Spec.Json.Writes] at hy
      obtain ⟨b, bs, g1, -, -, g2, -, g3, -⟩ := num_head (n := n) (by simpa [Rpc.Spec.Json.ok] using ht)
      rw [e, g1] at hy
      cases hy
      simp [g2, g3] at h

end Burl.JsonText
