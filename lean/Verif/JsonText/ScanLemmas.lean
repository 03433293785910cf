import Verif.JsonText.DecodeLemmas
/-! The scanner lets through only JSON texts. -/
namespace Burl.JsonText
open Burl
open Burl.Rpc (JState Ctx Fn jsonStep isSpace isDigit isHex ch stepEndValue)
open Burl.Rpc.Spec (Piece Num strText Blank Padded arrOk objOk arrWrites objWrites bytesOf)
open Burl.JsonText.Spec (Text)

/-- The rest of a text is let through. -/
abbrev Valid (fn : Fn) (ctx : List Ctx) (x : Bytes) : Prop := checkValid ⟨fn, ctx⟩ x = true

theorem checkValid_more {s s' : JState} {b : UInt8} (h : jsonStep s b = .more s') (x : Bytes) :
    checkValid s (b :: x) = checkValid s' x := by
  rw [checkValid, h]

theorem checkValid_bad {s : JState} {b : UInt8} (h : jsonStep s b = .bad) (x : Bytes) :
    checkValid s (b :: x) = false := by
  rw [checkValid, h]

theorem checkValid_top (x : Bytes) : checkValid ⟨.endValue, []⟩ x = x.all isSpace := by
  cases x with
  | nil => rfl
  | cons b x => rfl

theorem checkValid_pop {s : JState} {b : UInt8} {cs : List Ctx} (h : jsonStep s b = Rpc.pop cs) (x : Bytes) :
    checkValid s (b :: x) = checkValid ⟨.endValue, cs⟩ x := by
  cases cs with
  | nil => rw [checkValid, h, checkValid_top]; rfl
  | cons c cs => exact checkValid_more h x

theorem checkValid_same {s s' : JState} {x : Bytes} (h : ∀ b, (x ++ [32]).head? = some b → jsonStep s b = jsonStep s' b) :
    checkValid s x = checkValid s' x := by
  cases x with
  | nil => rw [checkValid, checkValid, h 32 rfl]
  | cons b x => rw [checkValid, checkValid, h b rfl]

theorem blank_takeWhile (x : Bytes) : Blank (x.takeWhile isSpace) := by
  intro b hb
  have h := List.all_eq_true.1 (List.all_takeWhile (p := isSpace) (l := x)) b hb
  simp only [isSpace, Bool.or_eq_true, beq_iff_eq] at h
  rcases h with ((h | h) | h) | h <;> simp [h]

theorem split_skip (x : Bytes) : x = x.takeWhile isSpace ++ skip x := (List.takeWhile_append_dropWhile ..).symm

theorem skip_cases (x : Bytes) : skip x = [] ∨ ∃ b r, skip x = b :: r ∧ isSpace b = false := by
  cases h : skip x with
  | nil => exact .inl rfl
  | cons b r =>
    refine .inr ⟨b, r, rfl, ?_⟩
    cases hb : isSpace b with
    | false => rfl
    | true =>
      have := List.head?_dropWhile_not isSpace x
      rw [show x.dropWhile isSpace = b :: r from h] at this
      simp [hb] at this

theorem checkValid_skip {s : JState} (h : ∀ b, isSpace b = true → jsonStep s b = .more s) (x : Bytes) :
    checkValid s x = checkValid s (skip x) := by
  induction x with
  | nil => rfl
  | cons b x ih =>
    cases hb : isSpace b with
    | false => rw [skip_head hb]
    | true =>
      rw [checkValid_more (h b hb), ih]
      simp [skip, hb]

/-- White space, then a byte that is not. -/
theorem valid_skip {fn : Fn} {ctx : List Ctx} (h : ∀ b, isSpace b = true → jsonStep ⟨fn, ctx⟩ b = .more ⟨fn, ctx⟩)
    {x : Bytes} (hx : Valid fn ctx x) : ∃ w b r, Blank w ∧ x = w ++ b :: r ∧ isSpace b = false ∧ Valid fn ctx (b :: r) := by
  rw [Valid, checkValid_skip h] at hx
  rcases skip_cases x with e | ⟨b, r, e, hb⟩
  · rw [e, checkValid, h 32 rfl] at hx
    cases hx
  · rw [e] at hx
    exact ⟨x.takeWhile isSpace, b, r, blank_takeWhile x, by rw [← e]; exact split_skip x, hb, hx⟩

theorem step_endValue_space {c : Ctx} {cs : List Ctx} {b : UInt8} (h : isSpace b = true) :
    jsonStep ⟨.endValue, c :: cs⟩ b = .more ⟨.endValue, c :: cs⟩ := by
  simp [jsonStep, stepEndValue, h]

theorem valid_afterKey {cs : List Ctx} {x : Bytes} (h : Valid .endValue (.key :: cs) x) :
    ∃ w r, Blank w ∧ x = w ++ 58 :: r ∧ Valid .beginValue (.val :: cs) r := by
  obtain ⟨w, b, r, hw, rfl, hb, h⟩ := valid_skip (fun _ => step_endValue_space) h
  by_cases e : b = 58
  · subst e; exact ⟨w, r, hw, rfl, h⟩
  · have : jsonStep ⟨.endValue, .key :: cs⟩ b = .bad := by
      have e0 : ch ':' = 58 := rfl
      simp [jsonStep, stepEndValue, hb, e0, e]
    rw [Valid, checkValid_bad this] at h
    cases h

theorem valid_afterMember {cs : List Ctx} {x : Bytes} (h : Valid .endValue (.val :: cs) x) :
    ∃ w b r, Blank w ∧ x = w ++ b :: r ∧ (b = 44 ∧ Valid .beginString (.key :: cs) r ∨ b = 125 ∧ Valid .endValue cs r) := by
  obtain ⟨w, b, r, hw, rfl, hb, h⟩ := valid_skip (fun _ => step_endValue_space) h
  refine ⟨w, b, r, hw, rfl, ?_⟩
  by_cases e : b = 44
  · subst e; exact .inl ⟨rfl, h⟩
  · by_cases e' : b = 125
    · subst e'; exact .inr ⟨rfl, by rw [Valid, checkValid_pop (cs := cs) rfl] at h; exact h⟩
    · have : jsonStep ⟨.endValue, .val :: cs⟩ b = .bad := by
        have e0 : ch ',' = 44 := rfl
        have e1 : ch '}' = 125 := rfl
        simp [jsonStep, stepEndValue, hb, e0, e, e1, e']
      rw [Valid, checkValid_bad this] at h
      cases h

theorem valid_afterElement {cs : List Ctx} {x : Bytes} (h : Valid .endValue (.arr :: cs) x) :
    ∃ w b r, Blank w ∧ x = w ++ b :: r ∧ (b = 44 ∧ Valid .beginValue (.arr :: cs) r ∨ b = 93 ∧ Valid .endValue cs r) := by
  obtain ⟨w, b, r, hw, rfl, hb, h⟩ := valid_skip (fun _ => step_endValue_space) h
  refine ⟨w, b, r, hw, rfl, ?_⟩
  by_cases e : b = 44
  · subst e; exact .inl ⟨rfl, h⟩
  · by_cases e' : b = 93
    · subst e'; exact .inr ⟨rfl, by rw [Valid, checkValid_pop (cs := cs) rfl] at h; exact h⟩
    · have : jsonStep ⟨.endValue, .arr :: cs⟩ b = .bad := by
        have e0 : ch ',' = 44 := rfl
        have e1 : ch ']' = 93 := rfl
        simp [jsonStep, stepEndValue, hb, e0, e, e1, e']
      rw [Valid, checkValid_bad this] at h
      cases h

/-! ### Strings -/

theorem valid_hex {fn fn' : Fn} {ctx : List Ctx} (hs : ∀ b, jsonStep ⟨fn, ctx⟩ b = if isHex b then .more ⟨fn', ctx⟩ else .bad)
    {x : Bytes} (h : Valid fn ctx x) : ∃ a r, x = a :: r ∧ isHex a = true ∧ Valid fn' ctx r := by
  cases x with
  | nil =>
    have : jsonStep ⟨fn, ctx⟩ 32 = .bad := hs 32
    rw [Valid, checkValid, this] at h
    cases h
  | cons a r =>
    cases ha : isHex a with
    | true => exact ⟨a, r, rfl, ha, by rw [Valid, checkValid_more (by rw [hs, if_pos ha])] at h; exact h⟩
    | false =>
      rw [Valid, checkValid_bad (by rw [hs, if_neg (by simp [ha])])] at h
      cases h

theorem isEsc_contains {b : UInt8} (h : Rpc.isEsc b = true) : [98, 102, 110, 114, 116, 92, 47, 34].contains b = true := by
  simp only [Rpc.isEsc, Bool.or_eq_true, beq_iff_eq] at h
  rcases h with ((((((h | h) | h) | h) | h) | h) | h) | h <;> subst h <;> decide

theorem valid_string (ctx : List Ctx) : ∀ (n : Nat) (x : Bytes), x.length ≤ n → Valid .inString ctx x →
    ∃ ps r, ps.all Piece.ok = true ∧ x = body ps ++ 34 :: r ∧ Valid .endValue ctx r
  | _, [], _, h => by
    rw [Valid, checkValid] at h
    cases h
  | 0, _ :: _, hn, _ => by simp at hn
  | n + 1, b :: x, hn, h => by
    simp only [List.length_cons, Nat.add_le_add_iff_right] at hn
    have e1 : ch '"' = 34 := rfl
    have e2 : ch '\\' = 92 := rfl
    by_cases h34 : b = 34
    · subst h34
      exact ⟨[], x, rfl, rfl, h⟩
    by_cases h92 : b = 92
    · subst h92
      rw [Valid, checkValid_more (s' := ⟨.esc, ctx⟩) rfl] at h
      cases x with
      | nil => rw [checkValid] at h; cases h
      | cons e y =>
        simp only [List.length_cons] at hn
        by_cases he : Rpc.isEsc e = true
        · rw [checkValid_more (s' := ⟨.inString, ctx⟩) (by simp [jsonStep, he])] at h
          obtain ⟨ps, r, h1, rfl, h2⟩ := valid_string ctx n y (by omega) h
          exact ⟨.esc e :: ps, r, by rw [List.all_cons, h1, Piece.ok, isEsc_contains he]; rfl, by simp [Piece.text], h2⟩
        · by_cases hu : e = 117
          · subst hu
            rw [checkValid_more (s' := ⟨.u0, ctx⟩) rfl] at h
            obtain ⟨a, y, rfl, ha, h⟩ := valid_hex (fn := .u0) (fn' := .u1) (fun b => rfl) h
            obtain ⟨b, y, rfl, hb, h⟩ := valid_hex (fn := .u1) (fn' := .u2) (fun b => rfl) h
            obtain ⟨c, y, rfl, hc, h⟩ := valid_hex (fn := .u2) (fn' := .u3) (fun b => rfl) h
            obtain ⟨d, y, rfl, hd, h⟩ := valid_hex (fn := .u3) (fn' := .inString) (fun b => rfl) h
            simp only [List.length_cons] at hn
            obtain ⟨ps, r, h1, rfl, h2⟩ := valid_string ctx n y (by omega) h
            exact ⟨.u a b c d :: ps, r, by
              rw [List.all_cons, h1, Piece.ok, Rpc.hexDigit_eq, Rpc.hexDigit_eq, Rpc.hexDigit_eq, Rpc.hexDigit_eq, ha, hb,
                hc, hd]; rfl, by simp [Piece.text], h2⟩
          · have e3 : ch 'u' = 117 := rfl
            rw [checkValid_bad (by simp [jsonStep, he, e3, hu])] at h
            cases h
    · by_cases h32 : b < 32
      · rw [Valid, checkValid_bad (by simp [jsonStep, e1, e2, h34, h92, h32])] at h
        cases h
      · rw [Valid, checkValid_more (s' := ⟨.inString, ctx⟩) (by simp [jsonStep, e1, e2, h34, h92, h32])] at h
        obtain ⟨ps, r, h1, rfl, h2⟩ := valid_string ctx n x (by omega) h
        refine ⟨.plain b :: ps, r, ?_, by simp [Piece.text], h2⟩
        rw [List.all_cons, h1, Piece.ok]
        have : (32 : UInt8) ≤ b := UInt8.not_lt.1 h32
        simp [h34, h92, this]

/-! ### Numbers -/

theorem valid_digits {fn : Fn} {ctx : List Ctx} (hs : ∀ b, isDigit b = true → jsonStep ⟨fn, ctx⟩ b = .more ⟨fn, ctx⟩) :
    ∀ {x : Bytes}, Valid fn ctx x → ∃ ds r, x = ds ++ r ∧ ds.all isDigit = true ∧
      (∀ b, r.head? = some b → isDigit b = false) ∧ Valid fn ctx r
  | [], h => ⟨[], [], rfl, rfl, nofun, h⟩
  | b :: x, h => by
    cases hb : isDigit b with
    | false => exact ⟨[], b :: x, rfl, rfl, by rintro _ ⟨⟩; exact hb, h⟩
    | true =>
      rw [Valid, checkValid_more (hs b hb)] at h
      obtain ⟨ds, r, rfl, h1, h2, h3⟩ := valid_digits hs h
      exact ⟨b :: ds, r, rfl, by rw [List.all_cons, hb, h1]; rfl, h2, h3⟩

/-- A digit that is needed. -/
theorem valid_digit {fn fn' : Fn} {ctx : List Ctx}
    (hs : ∀ b, jsonStep ⟨fn, ctx⟩ b = if isDigit b then .more ⟨fn', ctx⟩ else .bad)
    {x : Bytes} (h : Valid fn ctx x) : ∃ a r, x = a :: r ∧ isDigit a = true ∧ Valid fn' ctx r := by
  cases x with
  | nil =>
    have : jsonStep ⟨fn, ctx⟩ 32 = .bad := hs 32
    rw [Valid, checkValid, this] at h
    cases h
  | cons a r =>
    cases ha : isDigit a with
    | true => exact ⟨a, r, rfl, ha, by rw [Valid, checkValid_more (by rw [hs, if_pos ha])] at h; exact h⟩
    | false =>
      rw [Valid, checkValid_bad (by rw [hs, if_neg (by simp [ha])])] at h
      cases h

theorem head_or {r : Bytes} (h : ∀ b, r.head? = some b → isDigit b = false) {b : UInt8}
    (hb : (r ++ [32]).head? = some b) : isDigit b = false := by
  cases r with
  | nil => cases hb; rfl
  | cons a r => exact h b hb

/-- The sign of an exponent. -/
def signText : Option Bool → Bytes
  | none => []
  | some true => [45]
  | some false => [43]

theorem valid_exponent {ctx : List Ctx} {x : Bytes} (h : Valid .e ctx x) :
    ∃ sgn ds r, x = signText sgn ++ (ds ++ r) ∧ ds ≠ [] ∧ ds.all isDigit = true ∧ Valid .endValue ctx r := by
  have key : ∀ {y : Bytes}, Valid .eSign ctx y → ∃ ds r, y = ds ++ r ∧ ds ≠ [] ∧ ds.all isDigit = true ∧
      Valid .endValue ctx r := by
    intro y h
    obtain ⟨a, r, rfl, ha, h⟩ := valid_digit (fn := .eSign) (fn' := .e0) (fun b => rfl) h
    obtain ⟨ds, r, rfl, h1, h2, h3⟩ := valid_digits (fun b hb => by simp [jsonStep, hb]) h
    refine ⟨a :: ds, r, rfl, by simp, by rw [List.all_cons, ha, h1]; rfl, ?_⟩
    rw [Valid, checkValid_same (s' := ⟨.endValue, ctx⟩)] at h3
    · exact h3
    · intro b hb
      simp [jsonStep, head_or h2 hb]
  cases x with
  | nil => rw [Valid, checkValid] at h; cases h
  | cons b x =>
    by_cases h1 : b = 43
    · subst h1
      obtain ⟨ds, r, rfl, h'⟩ := key (y := x) (by rw [Valid, checkValid_more (s' := ⟨.eSign, ctx⟩) rfl] at h; exact h)
      exact ⟨some false, ds, r, rfl, h'⟩
    by_cases h2 : b = 45
    · subst h2
      obtain ⟨ds, r, rfl, h'⟩ := key (y := x) (by rw [Valid, checkValid_more (s' := ⟨.eSign, ctx⟩) rfl] at h; exact h)
      exact ⟨some true, ds, r, rfl, h'⟩
    · have e1 : ch '+' = 43 := rfl
      have e2 : ch '-' = 45 := rfl
      rw [Valid, checkValid_same (s' := ⟨.eSign, ctx⟩) (by
        intro b' hb'
        cases hb'
        simp [jsonStep, e1, e2, h1, h2])] at h
      obtain ⟨ds, r, h3, h⟩ := key h
      exact ⟨none, ds, r, h3, h⟩

/-- The exponent, if there is one. -/
def expText (upper : Bool) : Option (Option Bool × List UInt8) → Bytes
  | none => []
  | some (sgn, ds) => (if upper then 69 else 101) :: (signText sgn ++ ds)

/-- Digits of an exponent. -/
def expOk : Option (Option Bool × List UInt8) → Bool
  | none => true
  | some (_, ds) => !ds.isEmpty && ds.all isDigit

theorem valid_exp {fn : Fn} {ctx : List Ctx} {x : Bytes} (h : Valid fn ctx x)
    (he : ∀ b, b = 101 ∨ b = 69 → jsonStep ⟨fn, ctx⟩ b = .more ⟨.e, ctx⟩)
    (hn : ∀ b, (x ++ [32]).head? = some b → b ≠ 101 → b ≠ 69 → jsonStep ⟨fn, ctx⟩ b = stepEndValue ctx b) :
    ∃ upper exp r, x = expText upper exp ++ r ∧ expOk exp = true ∧ Valid .endValue ctx r := by
  by_cases hb : x.head? = some 101 ∨ x.head? = some 69
  · cases x with
    | nil => rcases hb with hb | hb <;> cases hb
    | cons b x =>
      simp only [List.head?_cons, Option.some.injEq] at hb
      rw [Valid, checkValid_more (he b hb)] at h
      obtain ⟨sgn, ds, r, rfl, h1, h2, h3⟩ := valid_exponent h
      refine ⟨decide (b = 69), some (sgn, ds), r, ?_, ?_, h3⟩
      · simp only [expText, List.cons_append, List.append_assoc]
        rcases hb with rfl | rfl <;> rfl
      · rw [expOk, h2]; cases ds <;> simp at h1 ⊢
  · refine ⟨false, none, x, rfl, rfl, ?_⟩
    rw [Valid, checkValid_same (s' := ⟨.endValue, ctx⟩)] at h
    · exact h
    · intro b h1
      refine hn b h1 ?_ ?_
      · rintro rfl
        cases x with
        | nil => cases h1
        | cons a x => exact hb (.inl h1)
      · rintro rfl
        cases x with
        | nil => cases h1
        | cons a x => exact hb (.inr h1)

/-- The fraction, if there is one. -/
def fracText (frac : List UInt8) : Bytes := if frac.isEmpty then [] else 46 :: frac

theorem valid_frac {ctx : List Ctx} {x : Bytes} (h : Valid .zero ctx x) :
    ∃ frac upper exp r, x = fracText frac ++ (expText upper exp ++ r) ∧ frac.all isDigit = true ∧ expOk exp = true ∧
      Valid .endValue ctx r := by
  have e1 : ch '.' = 46 := rfl
  have e2 : ch 'e' = 101 := rfl
  have e3 : ch 'E' = 69 := rfl
  by_cases hb : x.head? = some 46
  · cases x with
    | nil => cases hb
    | cons b x =>
      simp only [List.head?_cons, Option.some.injEq] at hb
      subst hb
      rw [Valid, checkValid_more (s' := ⟨.dot, ctx⟩) rfl] at h
      obtain ⟨a, x, rfl, ha, h⟩ := valid_digit (fn := .dot) (fn' := .dot0) (fun b => rfl) h
      obtain ⟨ds, x, rfl, h1, h2, h3⟩ := valid_digits (fun b hb => by simp [jsonStep, hb]) h
      obtain ⟨upper, exp, r, rfl, h4, h5⟩ := valid_exp h3 (by rintro b (rfl | rfl) <;> rfl) (by
        intro b hb h4 h5
        simp [jsonStep, head_or h2 hb, e2, e3, h4, h5])
      exact ⟨a :: ds, upper, exp, r, by simp [fracText], by rw [List.all_cons, ha, h1]; rfl, h4, h5⟩
  · obtain ⟨upper, exp, r, rfl, h4, h5⟩ := valid_exp h (by rintro b (rfl | rfl) <;> rfl) (by
      intro b h1 h4 h5
      have : b ≠ 46 := by
        rintro rfl
        cases x with
        | nil => cases h1
        | cons a x => exact hb h1
      simp [jsonStep, Rpc.stepZero, e1, e2, e3, h4, h5, this])
    exact ⟨[], upper, exp, r, rfl, rfl, h4, h5⟩

theorem num_text (neg : Bool) (int frac : List UInt8) (upper : Bool) (exp : Option (Option Bool × List UInt8)) :
    (⟨neg, int, frac, exp, upper⟩ : Num).text = (if neg then [45] else []) ++ int ++ fracText frac ++ expText upper exp := by
  rcases exp with _ | ⟨_ | _ | _, ds⟩ <;> rfl

/-- Digits of the integral part: no extra zero. -/
def intOk : List UInt8 → Bool
  | [] => false
  | [d] => isDigit d
  | d :: ds => isDigit d && d != 48 && ds.all isDigit

theorem num_ok {neg : Bool} {int frac : List UInt8} {upper : Bool} {exp : Option (Option Bool × List UInt8)}
    (h1 : intOk int = true) (h2 : frac.all isDigit = true) (h3 : expOk exp = true) :
    (⟨neg, int, frac, exp, upper⟩ : Num).ok = true := by
  simp only [Num.ok, Bool.and_eq_true]
  refine ⟨⟨?_, h2⟩, ?_⟩
  · match int, h1 with
    | [_], h => exact h
    | _ :: _ :: _, h => exact h
  · rcases exp with _ | ⟨_, ds⟩
    · rfl
    · exact h3

/-- A number whose first digit has been read. -/
theorem valid_int {d : UInt8} {ctx : List Ctx} {x : Bytes} (hd : isDigit d = true)
    (h : d = 48 ∧ Valid .zero ctx x ∨ d ≠ 48 ∧ Valid .one ctx x) (neg : Bool) :
    ∃ n : Num, ∃ r, n.ok = true ∧ (if neg then [45] else []) ++ d :: x = n.text ++ r ∧ Valid .endValue ctx r := by
  rcases h with ⟨rfl, h⟩ | ⟨h0, h⟩
  · obtain ⟨frac, upper, exp, r, rfl, h1, h2, h3⟩ := valid_frac h
    refine ⟨⟨neg, [48], frac, exp, upper⟩, r, num_ok rfl h1 h2, ?_, h3⟩
    rw [num_text]
    simp
  · obtain ⟨ds, x, rfl, h1, h2, h3⟩ := valid_digits (fun b hb => by simp [jsonStep, hb]) h
    rw [Valid, checkValid_same (s' := ⟨.zero, ctx⟩) (by
      intro b hb
      simp [jsonStep, head_or h2 hb])] at h3
    obtain ⟨frac, upper, exp, r, rfl, h4, h5, h6⟩ := valid_frac h3
    refine ⟨⟨neg, d :: ds, frac, exp, upper⟩, r, num_ok ?_ h4 h5, ?_, h6⟩
    · cases ds with
      | nil => exact hd
      | cons a ds => simp [intOk, hd, h0] at h1 ⊢; exact h1
    · rw [num_text]
      simp

/-! ### Literals -/

theorem valid_lit (ctx : List Ctx) : ∀ (cs : List Char) (x : Bytes), cs ≠ [] → Valid (.lit cs) ctx x →
    ∃ r, x = cs.map ch ++ r ∧ Valid .endValue ctx r
  | [], _, h, _ => absurd rfl h
  | c :: cs, [], _, h => by
    rw [Valid, checkValid] at h
    simp only [jsonStep] at h
    split at h <;> simp_all
    rename_i h'
    split at h' <;> simp_all
  | c :: cs, b :: x, _, h => by
    by_cases hb : b = ch c
    · subst hb
      cases cs with
      | nil =>
        rw [Valid, checkValid_more (s' := ⟨.endValue, ctx⟩) (by simp [jsonStep])] at h
        exact ⟨x, rfl, h⟩
      | cons c' cs =>
        rw [Valid, checkValid_more (s' := ⟨.lit (c' :: cs), ctx⟩) (by simp [jsonStep])] at h
        obtain ⟨r, rfl, h'⟩ := valid_lit ctx (c' :: cs) x (by simp) h
        exact ⟨r, rfl, h'⟩
    · rw [Valid, checkValid_bad (by simp [jsonStep, hb])] at h
      cases h

/-! ### Values -/

/-- A value and what is behind it. -/
def Read (ctx : List Ctx) (x : Bytes) : Prop :=
  ∃ w t y r, Blank w ∧ Rpc.Spec.Json.ok (10000 - ctx.length) t = true ∧ t.Writes y ∧ x = w ++ (y ++ r) ∧
    Valid .endValue ctx r

theorem step_beginValue_space {ctx : List Ctx} {b : UInt8} (h : isSpace b = true) :
    jsonStep ⟨.beginValue, ctx⟩ b = .more ⟨.beginValue, ctx⟩ := by
  simp [jsonStep, Rpc.stepBeginValue, h]

theorem valid_elements {n : Nat} (ih : ∀ ctx x, x.length ≤ n → ctx.length ≤ 10000 → Valid .beginValue ctx x → Read ctx x)
    {ctx : List Ctx} {d : Nat} (hd : 10000 - ctx.length = d + 1) : ∀ (m : Nat) (x : Bytes), x.length ≤ m → m ≤ n →
      Valid .beginValue (.arr :: ctx) x → ∃ v vs y r, arrOk d (v :: vs) = true ∧ arrWrites (v :: vs) y ∧
        x = y ++ 93 :: r ∧ Valid .endValue ctx r
  | m, x, hm, hn, h => by
    have hr := ih (.arr :: ctx) x (by omega) (by simp only [List.length_cons]; omega) h
    clear h
    obtain ⟨w, t, y, r, hw, ht, hy, rfl, h⟩ := hr
    have hl : 10000 - (Ctx.arr :: ctx).length = d := by simp only [List.length_cons]; omega
    rw [hl] at ht
    have hr := valid_afterElement h
    clear h
    obtain ⟨w', b, r, hw', rfl, ⟨rfl, h⟩ | ⟨rfl, h⟩⟩ := hr
    · simp only [List.length_append, List.length_cons] at hm
      match m with
      | 0 => omega
      | m + 1 =>
        have hr := valid_elements ih hd m r (by omega) (by omega) h
        clear h
        obtain ⟨v, vs, z, r, h1, h2, rfl, h3⟩ := hr
        refine ⟨t, v :: vs, w ++ (y ++ w') ++ 44 :: z, r, by rw [arrOk, ht, h1]; rfl, ?_, by simp, h3⟩
        rw [arrWrites]
        exact ⟨_, z, ⟨w, y, w', hw, hy, hw', rfl⟩, h2, rfl⟩
    · refine ⟨t, [], w ++ (y ++ w'), r, by simp [arrOk, ht], ?_, by simp, h⟩
      rw [arrWrites]
      exact ⟨w, y, w', hw, hy, hw', rfl⟩

theorem valid_members {n : Nat} (ih : ∀ ctx x, x.length ≤ n → ctx.length ≤ 10000 → Valid .beginValue ctx x → Read ctx x)
    {ctx : List Ctx} {d : Nat} (hd : 10000 - ctx.length = d + 1) : ∀ (m : Nat) (x : Bytes), x.length ≤ m → m ≤ n →
      Valid .beginString (.key :: ctx) x → ∃ kv kvs y r, objOk d (kv :: kvs) = true ∧ objWrites (kv :: kvs) y ∧
        x = y ++ 125 :: r ∧ Valid .endValue ctx r
  | m, x, hm, hn, h => by
    have e1 : ch '"' = 34 := rfl
    have hr := valid_skip (fun b hb => by simp [jsonStep, Rpc.stepBeginString, hb]) h
    clear h
    obtain ⟨a, b, x, ha, rfl, hb, h⟩ := hr
    by_cases h34 : b = 34
    · subst h34
      rw [Valid, checkValid_more (s' := ⟨.inString, .key :: ctx⟩) rfl] at h
      have hr := valid_string _ _ x (Nat.le_refl _) h
      clear h
      obtain ⟨ps, x, hps, rfl, h⟩ := hr
      have hr := valid_afterKey h
      clear h
      obtain ⟨a', x, ha', rfl, h⟩ := hr
      simp only [List.length_append, List.length_cons] at hm
      have hr := ih (.val :: ctx) x (by omega) (by simp only [List.length_cons]; omega) h
      clear h
      obtain ⟨w, t, y, r, hw, ht, hy, rfl, h⟩ := hr
      have hl : 10000 - (Ctx.val :: ctx).length = d := by simp only [List.length_cons]; omega
      rw [hl] at ht
      have hk : Padded (· = strText ps) (a ++ (strText ps ++ a')) := ⟨a, _, a', ha, rfl, ha', rfl⟩
      have hr := valid_afterMember h
      clear h
      obtain ⟨w', b, r, hw', rfl, ⟨rfl, h⟩ | ⟨rfl, h⟩⟩ := hr
      · simp only [List.length_append, List.length_cons] at hm
        match m with
        | 0 => omega
        | m + 1 =>
          have hr := valid_members ih hd m r (by omega) (by omega) h
          clear h
          obtain ⟨kv, kvs, z, r, h1, h2, rfl, h3⟩ := hr
          refine ⟨(ps, t), kv :: kvs, a ++ (strText ps ++ a') ++ 58 :: (w ++ (y ++ w') ++ 44 :: z), r,
            by rw [objOk, hps, ht, h1]; rfl, ?_, by simp [strText_eq], h3⟩
          rw [objWrites]
          exact ⟨_, _, z, hk, ⟨w, y, w', hw, hy, hw', rfl⟩, h2, rfl⟩
      · refine ⟨(ps, t), [], a ++ (strText ps ++ a') ++ 58 :: (w ++ (y ++ w')), r, by simp only [objOk, hps, ht]; rfl, ?_,
          by simp [strText_eq], h⟩
        rw [objWrites]
        exact ⟨_, _, hk, ⟨w, y, w', hw, hy, hw', rfl⟩, rfl⟩
    · rw [Valid, checkValid_bad (by simp [jsonStep, Rpc.stepBeginString, hb, e1, h34])] at h
      cases h

theorem valid_value : ∀ (n : Nat) (ctx : List Ctx) (x : Bytes), x.length ≤ n → ctx.length ≤ 10000 →
    Valid .beginValue ctx x → Read ctx x
  | 0, ctx, x, hn, _, h => by
    have hr := valid_skip (fun _ => step_beginValue_space) h
    clear h
    obtain ⟨w, b, r, -, rfl, -, -⟩ := hr
    simp at hn
  | n + 1, ctx, x, hn, hc, h => by
    have ih := valid_value n
    have hr := valid_skip (fun _ => step_beginValue_space) h
    clear h
    obtain ⟨w, b, x, hw, rfl, hb, h⟩ := hr
    simp only [List.length_append, List.length_cons] at hn
    by_cases h1 : b = 123
    · subst h1
      by_cases hp : ctx.length + 1 ≤ 10000
      · obtain ⟨d, hd⟩ : ∃ d, 10000 - ctx.length = d + 1 := ⟨10000 - ctx.length - 1, by omega⟩
        rw [Valid, checkValid_more (s' := ⟨.beginStringOrEmpty, .key :: ctx⟩) (by
          rw [show jsonStep ⟨.beginValue, ctx⟩ 123 = Rpc.push .key ctx .beginStringOrEmpty from rfl, Rpc.push_ok _ _ _ hp])] at h
        have hr := valid_skip (fun b hb => by simp [jsonStep, hb]) h
        clear h
        obtain ⟨w', b, x', hw', rfl, hb', h⟩ := hr
        by_cases h2 : b = 125
        · subst h2
          rw [Valid, checkValid_pop (cs := ctx) rfl] at h
          refine ⟨w, .obj [], 123 :: (w' ++ [125]), x', hw, by rw [hd]; rfl, ?_, by simp, h⟩
          rw [Rpc.Spec.Json.Writes]
          exact ⟨w', by rw [objWrites]; exact hw', rfl⟩
        · have e1 : ch '}' = 125 := rfl
          rw [Valid, checkValid_same (s' := ⟨.beginString, .key :: ctx⟩) (by
            rintro _ ⟨⟩
            simp [jsonStep, hb', e1, h2])] at h
          have hv : Valid .beginString (.key :: ctx) (w' ++ b :: x') := by
            rw [Valid, checkValid_skip (fun b hb => by simp [jsonStep, Rpc.stepBeginString, hb]), skip_blank hw', skip_head hb']
            exact h
          obtain ⟨kv, kvs, y, r, h3, h4, h5, h6⟩ := valid_members ih hd n (w' ++ b :: x') (by omega) (Nat.le_refl _) hv
          rw [h5]
          refine ⟨w, .obj (kv :: kvs), 123 :: (y ++ [125]), r, hw, by rw [hd]; exact h3, ?_, by simp, h6⟩
          rw [Rpc.Spec.Json.Writes]
          exact ⟨y, h4, rfl⟩
      · rw [Valid, checkValid_bad (by
          rw [show jsonStep ⟨.beginValue, ctx⟩ 123 = Rpc.push .key ctx .beginStringOrEmpty from rfl, Rpc.push,
            if_neg hp])] at h
        cases h
    by_cases h2 : b = 91
    · subst h2
      by_cases hp : ctx.length + 1 ≤ 10000
      · obtain ⟨d, hd⟩ : ∃ d, 10000 - ctx.length = d + 1 := ⟨10000 - ctx.length - 1, by omega⟩
        rw [Valid, checkValid_more (s' := ⟨.beginValueOrEmpty, .arr :: ctx⟩) (by
          rw [show jsonStep ⟨.beginValue, ctx⟩ 91 = Rpc.push .arr ctx .beginValueOrEmpty from rfl, Rpc.push_ok _ _ _ hp])] at h
        have hr := valid_skip (fun b hb => by simp [jsonStep, hb]) h
        clear h
        obtain ⟨w', b, x', hw', rfl, hb', h⟩ := hr
        by_cases h2 : b = 93
        · subst h2
          rw [Valid, checkValid_pop (cs := ctx) rfl] at h
          refine ⟨w, .arr [], 91 :: (w' ++ [93]), x', hw, by rw [hd]; rfl, ?_, by simp, h⟩
          rw [Rpc.Spec.Json.Writes]
          exact ⟨w', by rw [arrWrites]; exact hw', rfl⟩
        · have e1 : ch ']' = 93 := rfl
          rw [Valid, checkValid_same (s' := ⟨.beginValue, .arr :: ctx⟩) (by
            rintro _ ⟨⟩
            simp [jsonStep, hb', e1, h2])] at h
          have hv : Valid .beginValue (.arr :: ctx) (w' ++ b :: x') := by
            rw [Valid, checkValid_skip (fun b hb => step_beginValue_space hb), skip_blank hw', skip_head hb']
            exact h
          obtain ⟨kv, kvs, y, r, h3, h4, h5, h6⟩ := valid_elements ih hd n (w' ++ b :: x') (by omega) (Nat.le_refl _) hv
          rw [h5]
          refine ⟨w, .arr (kv :: kvs), 91 :: (y ++ [93]), r, hw, by rw [hd]; exact h3, ?_, by simp, h6⟩
          rw [Rpc.Spec.Json.Writes]
          exact ⟨y, h4, rfl⟩
      · rw [Valid, checkValid_bad (by
          rw [show jsonStep ⟨.beginValue, ctx⟩ 91 = Rpc.push .arr ctx .beginValueOrEmpty from rfl, Rpc.push,
            if_neg hp])] at h
        cases h
    by_cases h3 : b = 34
    · subst h3
      rw [Valid, checkValid_more (s' := ⟨.inString, ctx⟩) rfl] at h
      have hr := valid_string _ _ x (Nat.le_refl _) h
      clear h
      obtain ⟨ps, r, hps, rfl, h⟩ := hr
      exact ⟨w, .str ps, strText ps, r, hw, by rw [Rpc.Spec.Json.ok]; exact hps, by rw [Rpc.Spec.Json.Writes],
        by simp [strText_eq], h⟩
    by_cases h4 : b = 45
    · subst h4
      rw [Valid, checkValid_more (s' := ⟨.neg, ctx⟩) rfl] at h
      cases x with
      | nil => rw [checkValid] at h; cases h
      | cons d x =>
        have e1 : ch '0' = 48 := rfl
        cases hd : isDigit d with
        | false =>
          have : d ≠ 48 := by rintro rfl; cases hd
          rw [checkValid_bad (by simp [jsonStep, e1, this, hd])] at h
          cases h
        | true =>
          obtain ⟨num, r, h5, h6, h7⟩ := valid_int (x := x) (ctx := ctx) hd (by
            by_cases h48 : d = 48
            · subst h48; exact .inl ⟨rfl, h⟩
            · rw [checkValid_more (s' := ⟨.one, ctx⟩) (by simp [jsonStep, e1, h48, hd])] at h
              exact .inr ⟨h48, h⟩) true
          refine ⟨w, .num num, num.text, r, hw, by rw [Rpc.Spec.Json.ok]; exact h5, by rw [Rpc.Spec.Json.Writes], ?_, h7⟩
          rw [← h6]; rfl
    by_cases h5 : b = 116
    · subst h5
      rw [Valid, checkValid_more (s' := ⟨.lit ['r', 'u', 'e'], ctx⟩) rfl] at h
      have hr := valid_lit ctx _ x (by simp) h
      clear h
      obtain ⟨r, rfl, h⟩ := hr
      exact ⟨w, .bool true, bytesOf "true", r, hw, by rw [Rpc.Spec.Json.ok], by rw [Rpc.Spec.Json.Writes], rfl, h⟩
    by_cases h6 : b = 102
    · subst h6
      rw [Valid, checkValid_more (s' := ⟨.lit ['a', 'l', 's', 'e'], ctx⟩) rfl] at h
      have hr := valid_lit ctx _ x (by simp) h
      clear h
      obtain ⟨r, rfl, h⟩ := hr
      exact ⟨w, .bool false, bytesOf "false", r, hw, by rw [Rpc.Spec.Json.ok], by rw [Rpc.Spec.Json.Writes], rfl, h⟩
    by_cases h7 : b = 110
    · subst h7
      rw [Valid, checkValid_more (s' := ⟨.lit ['u', 'l', 'l'], ctx⟩) rfl] at h
      have hr := valid_lit ctx _ x (by simp) h
      clear h
      obtain ⟨r, rfl, h⟩ := hr
      exact ⟨w, .null, bytesOf "null", r, hw, by rw [Rpc.Spec.Json.ok], by rw [Rpc.Spec.Json.Writes], rfl, h⟩
    have e1 : ch '{' = 123 := rfl
    have e2 : ch '[' = 91 := rfl
    have e3 : ch '"' = 34 := rfl
    have e4 : ch '-' = 45 := rfl
    have e5 : ch 't' = 116 := rfl
    have e6 : ch 'f' = 102 := rfl
    have e7 : ch 'n' = 110 := rfl
    have e8 : ch '0' = 48 := rfl
    cases hd : isDigit b with
    | false =>
      have : b ≠ 48 := by rintro rfl; cases hd
      rw [Valid, checkValid_bad (by
        simp [jsonStep, Rpc.stepBeginValue, hb, hd, this, e1, e2, e3, e4, e5, e6, e7, e8, h1, h2, h3, h4, h5, h6, h7])] at h
      cases h
    | true =>
      obtain ⟨num, r, h8, h9, h10⟩ := valid_int (x := x) (ctx := ctx) hd (by
        by_cases h48 : b = 48
        · subst h48; exact .inl ⟨rfl, h⟩
        · rw [Valid, checkValid_more (s' := ⟨.one, ctx⟩) (by
            simp [jsonStep, Rpc.stepBeginValue, hb, hd, h48, e1, e2, e3, e4, e5, e6, e7, e8, h1, h2, h3, h4, h5, h6, h7])] at h
          exact .inr ⟨h48, h⟩) false
      refine ⟨w, .num num, num.text, r, hw, by rw [Rpc.Spec.Json.ok]; exact h8, by rw [Rpc.Spec.Json.Writes], ?_, h10⟩
      rw [← h9]; rfl

/-- What is let through is a JSON text. -/
theorem text_of_valid {x : Bytes} (h : checkValid Rpc.json.start x = true) :
    ∃ t : Text, t.ok 10000 = true ∧ Padded t.Writes x := by
  have hr := valid_value x.length [] x (Nat.le_refl _) (by simp) h
  clear h
  obtain ⟨w, t, y, r, hw, ht, hy, rfl, h⟩ := hr
  rw [Valid, checkValid_top] at h
  refine ⟨t, ht, w, y, r, hw, hy, ?_, rfl⟩
  intro b hb
  have := List.all_eq_true.1 h b hb
  simp only [isSpace, Bool.or_eq_true, beq_iff_eq] at this
  rcases this with ((h | h) | h) | h <;> simp [h]

end Burl.JsonText
