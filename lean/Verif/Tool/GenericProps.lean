import Verif.Tool.ClientTextProps
import Verif.JsonText.ExactProps
/-! Values of the type `interface{}` in the command-line client, exactly (C73): which of members with
one name counts and in which order members are printed. -/
namespace Burl.Tool.Client
open Burl
open Burl.Json (Json)
open Burl.JsonText.Spec (TextFor)
open Burl.Rpc.Spec (Padded)
open Burl.Backend (argument Arg Env world)
open Spec

namespace Spec

/-- The last of members with this name. -/
def last (k : Str) : List (Str × Json) → Option Json
  | [] => none
  | m :: ms => (last k ms).or (if m.1 = k then some m.2 else none)

mutual
/-- The second value is what an `interface{}` keeps of the first one: numbers become floating-point ones,
the last of members with one name is kept, members are in the order of names. -/
def Untyped (float : Json → Option Json) : Json → Json → Prop
  | .arr vs, w => ∃ ws, w = .arr ws ∧ UntypedAll float vs ws
  | .obj ms, w => ∃ ms' ws, w = .obj ws ∧ UntypedMembers float ms ms' ∧
      (ws.map (·.1)).Pairwise (· < ·) ∧ ∀ k, last k ws = last k ms'
  | .null, w => w = .null
  | .bool b, w => w = .bool b
  | .num n, w => float (.num n) = some w
  | .real t, w => float (.real t) = some w
  | .str s, w => w = .str s
def UntypedAll (float : Json → Option Json) : List Json → List Json → Prop
  | [], ws => ws = []
  | v :: vs, ws => ∃ w ws', ws = w :: ws' ∧ Untyped float v w ∧ UntypedAll float vs ws'
def UntypedMembers (float : Json → Option Json) : List (Str × Json) → List (Str × Json) → Prop
  | [], ws => ws = []
  | m :: ms, ws => ∃ w ws', ws = (m.1, w) :: ws' ∧ Untyped float m.2 w ∧ UntypedMembers float ms ws'
end

end Spec

/-! ### Maps -/

theorem lt_of_ne_of_not {a b : Str} (h : a ≠ b) (h' : ¬ a < b) : b < a := by
  rcases Classical.em (b < a) with h1 | h1
  · exact h1
  · exact absurd (List.le_antisymm (List.not_lt.1 h1) (List.not_lt.1 h')) h

theorem last_append (k : Str) (a b : List (Str × Json)) : last k (a ++ b) = (last k b).or (last k a) := by
  induction a with
  | nil => simp [last]
  | cons m a ih => simp only [List.cons_append, last, ih, Option.or_assoc]

theorem last_none {k : Str} {ms : List (Str × Json)} (h : k ∉ ms.map (·.1)) : last k ms = none := by
  induction ms with
  | nil => rfl
  | cons m ms ih =>
    simp only [List.map_cons, List.mem_cons, not_or] at h
    rw [last, ih h.2, if_neg (fun e => h.1 e.symm)]
    rfl

theorem last_some {k : Str} {v : Json} {ms : List (Str × Json)} (h : last k ms = some v) : (k, v) ∈ ms := by
  induction ms with
  | nil => cases h
  | cons m ms ih =>
    rw [last] at h
    cases hl : last k ms with
    | some w =>
      rw [hl, Option.some_or] at h
      exact List.mem_cons_of_mem _ (ih (hl.trans h))
    | none =>
      rw [hl, Option.none_or] at h
      split at h
      · rename_i e
        injection h with h
        subst e; subst h
        exact List.mem_cons_self
      · cases h

/-- A member is stored under its name, other members stay. -/
theorem last_store (k : Str) (v : Json) (k' : Str) : ∀ ms : List (Str × Json), (ms.map (·.1)).Pairwise (· < ·) →
    last k' (store k v ms) = if k = k' then some v else last k' ms
  | [], _ => by simp [store, last]
  | m :: ms, hs => by
    simp only [List.map_cons, List.pairwise_cons] at hs
    rw [store]
    split
    · rename_i e
      by_cases hk : k = k'
      · rw [last, last_none, if_pos hk, if_pos hk]
        · rfl
        · intro h
          subst hk
          rw [e] at h
          exact List.lt_irrefl _ (hs.1 _ h)
      · rw [if_neg hk, last, last, if_neg hk, if_neg (fun h => hk (e.trans h))]
    · split
      · rename_i h1 h2
        by_cases hk : k = k'
        · rw [if_pos hk, last, last_none, if_pos hk]
          · rfl
          · intro h
            subst hk
            simp only [List.map_cons, List.mem_cons] at h
            rcases h with h | h
            · exact h1 h
            · exact List.lt_irrefl _ (List.lt_trans h2 (hs.1 _ h))
        · rw [if_neg hk, last, if_neg hk, Option.or_none]
      · rename_i h1 h2
        rw [last, last_store k v k' ms hs.2, last]
        by_cases hk : k = k'
        · rw [if_pos hk, if_pos hk]; rfl
        · rw [if_neg hk, if_neg hk]

theorem store_names {k : Str} {v : Json} {x : Str} : ∀ {ms : List (Str × Json)}, x ∈ (store k v ms).map (·.1) →
    x = k ∨ x ∈ ms.map (·.1)
  | [], h => by simpa [store] using h
  | m :: ms, h => by
    rw [store] at h
    split at h
    · rename_i e
      simp only [List.map_cons, List.mem_cons] at h ⊢
      rcases h with h | h
      · exact .inl h
      · exact .inr (.inr h)
    · split at h
      · simpa using h
      · simp only [List.map_cons, List.mem_cons] at h ⊢
        rcases h with h | h
        · exact .inr (.inl h)
        · rcases store_names h with h | h
          · exact .inl h
          · exact .inr (.inr h)

theorem store_sorted (k : Str) (v : Json) : ∀ ms : List (Str × Json), (ms.map (·.1)).Pairwise (· < ·) →
    ((store k v ms).map (·.1)).Pairwise (· < ·)
  | [], _ => by simp [store]
  | m :: ms, hs => by
    have h0 := hs
    simp only [List.map_cons, List.pairwise_cons] at hs
    rw [store]
    split
    · rename_i e
      simp only [List.map_cons, List.pairwise_cons]
      exact ⟨fun x hx => e ▸ hs.1 x hx, hs.2⟩
    · split
      · rename_i h1 h2
        rw [List.map_cons, List.pairwise_cons]
        refine ⟨fun x hx => ?_, h0⟩
        simp only [List.map_cons, List.mem_cons] at hx
        rcases hx with hx | hx
        · exact hx ▸ h2
        · exact List.lt_trans h2 (hs.1 x hx)
      · rename_i h1 h2
        rw [List.map_cons, List.pairwise_cons]
        refine ⟨fun x hx => ?_, store_sorted k v ms hs.2⟩
        rcases store_names hx with hx | hx
        · exact hx ▸ lt_of_ne_of_not h1 h2
        · exact hs.1 x hx

/-- Sorted members are determined by what is found. -/
theorem sorted_unique : ∀ {a b : List (Str × Json)}, (a.map (·.1)).Pairwise (· < ·) →
    (b.map (·.1)).Pairwise (· < ·) → (∀ k, last k a = last k b) → a = b
  | [], [], _, _, _ => rfl
  | [], m :: b, _, hb, h => by
    exfalso
    have := h m.1
    simp only [List.map_cons, List.pairwise_cons] at hb
    rw [last, last, last_none (fun hm => List.lt_irrefl _ (hb.1 _ hm)), if_pos rfl] at this
    cases this
  | m :: a, [], ha, _, h => by
    exfalso
    have := h m.1
    simp only [List.map_cons, List.pairwise_cons] at ha
    rw [last, last, last_none (fun hm => List.lt_irrefl _ (ha.1 _ hm)), if_pos rfl] at this
    cases this
  | m :: a, n :: b, ha, hb, h => by
    simp only [List.map_cons, List.pairwise_cons] at ha hb
    have hma : last m.1 a = none := last_none (fun hm => List.lt_irrefl _ (ha.1 _ hm))
    have hnb : last n.1 b = none := last_none (fun hm => List.lt_irrefl _ (hb.1 _ hm))
    have h1 : last m.1 (n :: b) = some m.2 := by rw [← h m.1, last, hma, if_pos rfl]; rfl
    have h2 : last n.1 (m :: a) = some n.2 := by rw [h n.1, last, hnb, if_pos rfl]; rfl
    have hk : m.1 = n.1 := by
      rcases List.mem_cons.1 (last_some h1) with e | e
      · rw [← e]
      · rcases List.mem_cons.1 (last_some h2) with e' | e'
        · rw [← e']
        · exact absurd (List.lt_trans (hb.1 _ (List.mem_map_of_mem (f := (·.1)) e))
            (ha.1 _ (List.mem_map_of_mem (f := (·.1)) e'))) (List.lt_irrefl _)
    have hmn : m = n := by
      rw [last, ← hk] at h1
      rw [← hk] at hnb
      rw [hnb, if_pos rfl, Option.none_or] at h1
      injection h1 with h1
      exact Prod.ext hk h1.symm
    subst hmn
    rw [sorted_unique ha.2 hb.2 fun k => ?_]
    by_cases e : m.1 = k
    · subst e; rw [hma, hnb]
    · have := h k
      simpa [last, e] using this

/-! ### Values -/

mutual
theorem generic_untyped (float : Json → Option Json) : ∀ v g : Json, generic float v = some g ↔ Untyped float v g
  | .null, g => by rw [generic, Untyped]; exact ⟨fun h => (Option.some.inj h).symm, fun h => h ▸ rfl⟩
  | .bool b, g => by rw [generic, Untyped]; exact ⟨fun h => (Option.some.inj h).symm, fun h => h ▸ rfl⟩
  | .str s, g => by rw [generic, Untyped]; exact ⟨fun h => (Option.some.inj h).symm, fun h => h ▸ rfl⟩
  | .num n, g => by rw [generic, Untyped]
  | .real t, g => by rw [generic, Untyped]
  | .arr vs, g => by
    rw [generic, Untyped, Option.map_eq_some_iff]
    constructor
    · rintro ⟨ws, h, rfl⟩
      exact ⟨ws, rfl, (genericAll_untyped float vs ws).1 h⟩
    · rintro ⟨ws, rfl, h⟩
      exact ⟨ws, (genericAll_untyped float vs ws).2 h, rfl⟩
  | .obj ms, g => by
    rw [generic, Untyped, Option.map_eq_some_iff]
    constructor
    · rintro ⟨ws, h, rfl⟩
      obtain ⟨ms', h1, h2, h3⟩ := (genericMembers_untyped float ms [] ws .nil).1 h
      exact ⟨ms', ws, rfl, h1, h2, fun k => by rw [h3 k]; simp⟩
    · rintro ⟨ms', ws, rfl, h1, h2, h3⟩
      exact ⟨ws, (genericMembers_untyped float ms [] ws .nil).2 ⟨ms', h1, h2, fun k => by rw [h3 k]; simp⟩, rfl⟩
theorem genericAll_untyped (float : Json → Option Json) : ∀ vs ws : List Json,
    genericAll float vs = some ws ↔ UntypedAll float vs ws
  | [], ws => by rw [genericAll, UntypedAll]; exact ⟨fun h => (Option.some.inj h).symm, fun h => h ▸ rfl⟩
  | v :: vs, ws => by
    rw [genericAll, UntypedAll, Option.bind_eq_some_iff]
    constructor
    · rintro ⟨w, h1, h2⟩
      obtain ⟨ws', h3, rfl⟩ := Option.map_eq_some_iff.1 h2
      exact ⟨w, ws', rfl, (generic_untyped float v w).1 h1, (genericAll_untyped float vs ws').1 h3⟩
    · rintro ⟨w, ws', rfl, h1, h2⟩
      exact ⟨w, (generic_untyped float v w).2 h1, by rw [(genericAll_untyped float vs ws').2 h2]; rfl⟩
theorem genericMembers_untyped (float : Json → Option Json) : ∀ ms acc ws : List (Str × Json),
    (acc.map (·.1)).Pairwise (· < ·) → (genericMembers float ms acc = some ws ↔
      ∃ ms', UntypedMembers float ms ms' ∧ (ws.map (·.1)).Pairwise (· < ·) ∧ ∀ k, last k ws = last k (acc ++ ms'))
  | [], acc, ws, ha => by
    rw [genericMembers]
    constructor
    · intro h
      injection h with h
      subst h
      exact ⟨[], rfl, ha, fun k => by rw [List.append_nil]⟩
    · rintro ⟨ms', h1, h2, h3⟩
      rw [UntypedMembers] at h1
      subst h1
      rw [sorted_unique h2 ha fun k => by rw [h3 k, List.append_nil]]
  | (name, v) :: ms, acc, ws, ha => by
    rw [genericMembers, Option.bind_eq_some_iff]
    have hl : ∀ (w : Json) (ms' : List (Str × Json)) (k : Str),
        last k (store name w acc ++ ms') = last k (acc ++ (name, w) :: ms') := by
      intro w ms' k
      rw [last_append, last_append, last_store name w k acc ha, last, Option.or_assoc]
      congr 1
      split <;> rfl
    constructor
    · rintro ⟨w, h1, h2⟩
      obtain ⟨ms', h3, h4, h5⟩ := (genericMembers_untyped float ms _ ws (store_sorted name w acc ha)).1 h2
      exact ⟨(name, w) :: ms', ⟨w, ms', rfl, (generic_untyped float v w).1 h1, h3⟩, h4,
        fun k => (h5 k).trans (hl w ms' k)⟩
    · rintro ⟨_, ⟨w, ms', rfl, h1, h2⟩, h3, h4⟩
      exact ⟨w, (generic_untyped float v w).2 h1,
        (genericMembers_untyped float ms _ ws (store_sorted name w acc ha)).2
          ⟨ms', h2, h3, fun k => (h4 k).trans (hl w ms' k).symm⟩⟩
end

/-! ### Statements -/

/-- C73: the argument of `hello` exactly, for every text: what is sent is what an `interface{}` keeps of
what the text says. -/
theorem c73_hello_exact (float : Json → Option Json) {text : Str} {d g : Json}
    (ht : Padded (TextFor 10000 d) (JsonText.utf8 text)) :
    subcommand (parseArgument float) ["hello".toList, text] = .ok ("linkremark.hello".toList, g) ↔
      Untyped float d g := by
  rw [← generic_untyped]
  have hp : parseArgument float text = generic float d := by
    unfold parseArgument
    rw [JsonText.c68_decode ht]
    rfl
  constructor
  · intro h
    cases hg : parseArgument float text with
    | some g' =>
      rw [c63_helloText hg] at h
      injection h with h
      rw [← hp, hg, (Prod.mk.inj h).2]
    | none =>
      exfalso
      have h1 : subcommand (parseArgument float) ["hello".toList, text] = .error Outcome.badQuery := by
        show (match parseArgument float text with
          | none => Except.error Outcome.badQuery
          | some v => .ok ("linkremark.hello".toList, v)) = _
        rw [hg]
      rw [h1] at h
      cases h
  · intro h
    exact c63_helloText (hp.trans h)

/-- C73: names of members are printed in their order, the last of members with one name is printed. -/
theorem c73_output_order (short : Bool) {float : Json → Option Json} (hf : Floats float) {e : Env} {w : World}
    (hw : Connected e w.call) {args : List Str} {cmd : Str}
    {b q : List Str} {c : Rpc.Spec.Call} {arg : Arg} {v : Json} (hl : Line args cmd b q)
    (hq : Query q c arg) (h : (run w args).printed = some v) (hs : Small v) :
    ∃ g, Untyped float v g ∧ Padded (TextFor 9999 g) (output short float (run w args)) := by
  obtain ⟨r, p, h1, h2, h3, h4, hd⟩ := reply_plain hw hl hq h
  have hdist : Distinct v := by
    obtain ⟨_, _, _, _, h5⟩ := Backend.answered h1 h4
    exact distinct_returns h5
  obtain ⟨g, h5, h6⟩ := generic_common hf v hdist hs
  refine ⟨g, (generic_untyped float v g).1 h5, ?_⟩
  have : output short float (run w args) = JsonText.printed short g := by
    unfold output
    rw [h, Option.bind_some, h5]
  rw [this]
  exact JsonText.c71_text short (plain_rearranged 9999 v g h6 hd)

theorem untypedMembers_names (float : Json → Option Json) : ∀ {ms xs : List (Str × Json)},
    UntypedMembers float ms xs → xs.map (·.1) = ms.map (·.1)
  | [], xs, h => by rw [UntypedMembers] at h; subst h; rfl
  | m :: ms, xs, h => by
    rw [UntypedMembers] at h
    obtain ⟨w, xs', rfl, -, h⟩ := h
    simp [untypedMembers_names float h]

theorem last_perm {ms ws : List (Str × Json)} (h : ms.Perm ws) (hn : (ms.map (·.1)).Nodup) (k : Str) :
    last k ms = last k ws := by
  induction h with
  | nil => rfl
  | cons x _ ih =>
    simp only [List.map_cons, List.nodup_cons] at hn
    simp only [last, ih hn.2]
  | swap x y l =>
    simp only [List.map_cons, List.nodup_cons, List.mem_cons, not_or] at hn
    simp only [last, Option.or_assoc]
    congr 1
    by_cases h1 : x.1 = k
    · by_cases h2 : y.1 = k
      · exact absurd (h2.trans h1.symm) hn.1.1
      · simp [h1, h2]
    · by_cases h2 : y.1 = k <;> simp [h1, h2]
  | trans h1 _ ih1 ih2 => rw [ih1 hn, ih2 ((h1.map _).nodup_iff.1 hn)]

theorem untypedMembers_perm (float : Json → Option Json) {ms ms' : List (Str × Json)} (h : ms.Perm ms') :
    ∀ {xs : List (Str × Json)}, UntypedMembers float ms xs → ∃ xs', UntypedMembers float ms' xs' ∧ xs.Perm xs' := by
  induction h with
  | nil => exact fun {xs} h => ⟨xs, h, .refl _⟩
  | cons m _ ih =>
    intro xs h
    rw [UntypedMembers] at h
    obtain ⟨w, ws, rfl, h1, h2⟩ := h
    obtain ⟨xs', h3, h4⟩ := ih h2
    exact ⟨(m.1, w) :: xs', ⟨w, xs', rfl, h1, h3⟩, h4.cons _⟩
  | swap m n l =>
    intro xs h
    simp only [UntypedMembers] at h
    obtain ⟨w, _, rfl, h1, w', ws, rfl, h2, h3⟩ := h
    exact ⟨(m.1, w') :: (n.1, w) :: ws, by
      simp only [UntypedMembers]
      exact ⟨w', _, rfl, h2, w, ws, rfl, h1, h3⟩, .swap _ _ _⟩
  | trans _ _ ih1 ih2 =>
    intro xs h
    obtain ⟨ys, h1, h2⟩ := ih1 h
    obtain ⟨zs, h3, h4⟩ := ih2 h1
    exact ⟨zs, h3, h2.trans h4⟩

mutual
theorem untyped_rearranged (float : Json → Option Json) : ∀ v : Json, ∀ v' g, Rearranged v v' → Distinct v →
    Untyped float v g → Untyped float v' g
  | .null, v', g, h, _, hu => by rw [Rearranged] at h; subst h; exact hu
  | .bool _, v', g, h, _, hu => by rw [Rearranged] at h; subst h; exact hu
  | .num _, v', g, h, _, hu => by rw [Rearranged] at h; subst h; exact hu
  | .real _, v', g, h, _, hu => by rw [Rearranged] at h; subst h; exact hu
  | .str _, v', g, h, _, hu => by rw [Rearranged] at h; subst h; exact hu
  | .arr vs, v', g, h, hd, hu => by
    rw [Rearranged] at h
    obtain ⟨vs', rfl, h⟩ := h
    rw [Untyped] at hu ⊢
    obtain ⟨ws, rfl, hu⟩ := hu
    exact ⟨ws, rfl, untypedAll_rearranged float vs vs' ws h hd hu⟩
  | .obj ms, v', g, h, hd, hu => by
    rw [Rearranged] at h
    obtain ⟨ms', ms'', rfl, h1, h2⟩ := h
    rw [Distinct] at hd
    rw [Untyped] at hu ⊢
    obtain ⟨xs, ws, rfl, h3, h4, h5⟩ := hu
    have h6 := untypedMembers_rearranged float ms ms' xs h1 hd.2 h3
    obtain ⟨xs', h7, h8⟩ := untypedMembers_perm float h2 h6
    refine ⟨xs', ws, rfl, h7, h4, fun k => (h5 k).trans (last_perm h8 ?_ k)⟩
    rw [untypedMembers_names float h3]
    exact hd.1
theorem untypedAll_rearranged (float : Json → Option Json) : ∀ vs : List Json, ∀ vs' ws, RearrangedAll vs vs' →
    DistinctAll vs → UntypedAll float vs ws → UntypedAll float vs' ws
  | [], vs', ws, h, _, hu => by rw [RearrangedAll] at h; subst h; exact hu
  | v :: vs, vs', ws, h, hd, hu => by
    rw [RearrangedAll] at h
    obtain ⟨v', vs', rfl, h1, h2⟩ := h
    rw [UntypedAll] at hu ⊢
    obtain ⟨w, ws', rfl, h3, h4⟩ := hu
    exact ⟨w, ws', rfl, untyped_rearranged float v v' w h1 hd.1 h3,
      untypedAll_rearranged float vs vs' ws' h2 hd.2 h4⟩
theorem untypedMembers_rearranged (float : Json → Option Json) : ∀ ms : List (Str × Json), ∀ ms' xs,
    RearrangedMembers ms ms' → DistinctMembers ms → UntypedMembers float ms xs → UntypedMembers float ms' xs
  | [], ms', xs, h, _, hu => by rw [RearrangedMembers] at h; subst h; exact hu
  | (k, v) :: ms, ms', xs, h, hd, hu => by
    rw [RearrangedMembers] at h
    obtain ⟨v', ms', rfl, h1, h2⟩ := h
    rw [UntypedMembers] at hu ⊢
    obtain ⟨w, xs', rfl, h3, h4⟩ := hu
    exact ⟨w, xs', rfl, untyped_rearranged float v v' w h1 hd.1 h3,
      untypedMembers_rearranged float ms ms' xs' h2 hd.2 h4⟩
end

/-- C73: the text that is printed does not depend on the order of members in the reply. -/
theorem c73_canonical (short : Bool) (float : Json → Option Json) {r r' : Run} {v v' g : Json}
    (hv : r.printed = some v) (hv' : r'.printed = some v') (hr : Rearranged v v') (hd : Distinct v)
    (hg : Untyped float v g) : output short float r = output short float r' := by
  have h1 := (generic_untyped float v g).2 hg
  have h2 := (generic_untyped float v' g).2 (untyped_rearranged float v v' g hr hd hg)
  unfold output
  rw [hv, hv', Option.bind_some, Option.bind_some, h1, h2]

/-! ### Cases -/

/-- Hypotheses of `c73_hello_exact` are met by a text with a member that is repeated. -/
example : subcommand (parseArgument some) ["hello".toList, "{\"b\": 1, \"a\": null, \"b\": [2]}".toList] =
    .ok ("linkremark.hello".toList, .obj [("a".toList, .null), ("b".toList, .arr [.num 2])]) ↔
    Untyped some (.obj [("b".toList, .num 1), ("a".toList, .null), ("b".toList, .arr [.num 2])])
      (.obj [("a".toList, .null), ("b".toList, .arr [.num 2])]) :=
  c73_hello_exact some (JsonText.says_this (by decide +kernel))

/-- The relation holds for it. -/
example : Untyped some (.obj [("b".toList, .num 1), ("a".toList, .null), ("b".toList, .arr [.num 2])])
    (.obj [("a".toList, .null), ("b".toList, .arr [.num 2])]) :=
  (generic_untyped _ _ _).1 rfl

/-- The order of names is the order in which members are printed. -/
example : ¬ Untyped some (.obj [("b".toList, .num 1), ("a".toList, .null)])
    (.obj [("b".toList, .num 1), ("a".toList, .null)]) := by
  rintro ⟨ms, ws, h, -, h1, -⟩
  injection h with h
  subst h
  revert h1
  decide

/-- Hypotheses of `c73_canonical` are met. -/
example : Rearranged (.obj [("b".toList, .num 1), ("a".toList, .null)])
      (.obj [("a".toList, .null), ("b".toList, .num 1)]) ∧
    Distinct (.obj [("b".toList, .num 1), ("a".toList, .null)]) ∧
    Untyped some (.obj [("b".toList, .num 1), ("a".toList, .null)])
      (.obj [("a".toList, .null), ("b".toList, .num 1)]) :=
  ⟨⟨[("b".toList, .num 1), ("a".toList, .null)], _, rfl, ⟨_, _, rfl, rfl, _, _, rfl, rfl, rfl⟩, .swap _ _ _⟩,
    ⟨by decide, trivial, trivial, trivial⟩, (generic_untyped _ _ _).1 rfl⟩

end Burl.Tool.Client
