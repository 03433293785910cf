import Verif.Rpc.DecoderLemmas
/-! The JSON scanner accepts every JSON text and notices the end of an object or array exactly
at its closing bracket. -/
namespace Burl.Rpc
open Burl.Rpc.Spec

/-- Feed bytes that must not complete the value. -/
def run (s : JState) : Bytes → Option JState
  | [] => some s
  | b :: bs => match jsonStep s b with
    | .more s' => run s' bs
    | _ => none

theorem run_append (s : JState) (a b : Bytes) : run s (a ++ b) = (run s a).bind (run · b) := by
  induction a generalizing s with
  | nil => simp [run]
  | cons x xs ih =>
    simp only [List.cons_append, run]
    split <;> simp [ih]

theorem run_cons_more {s s' : JState} {b : UInt8} (bs : Bytes) (h : jsonStep s b = .more s') :
    run s (b :: bs) = run s' bs := by
  simp [run, h]

theorem completes_of_run {s s' : JState} {bs : Bytes} {b : UInt8} (h : run s bs = some s')
    (hl : jsonStep s' b = .last) : Completes json s (bs ++ [b]) := by
  induction bs generalizing s with
  | nil => simp [run] at h; subst h; exact .last hl
  | cons x xs ih =>
    simp only [run] at h
    split at h
    · rename_i s1 h1; exact .more h1 (ih h)
    · simp at h

/-- The state behaves as the end of a value in `ctx` for every byte that may follow a value in
a JSON text. -/
def EndsAs (s : JState) (ctx : List Ctx) : Prop :=
  ∀ b, b = 44 ∨ b = 93 ∨ b = 125 ∨ b = 32 ∨ b = 9 ∨ b = 10 ∨ b = 13 →
    jsonStep s b = stepEndValue ctx b

theorem EndsAs.endValue (ctx : List Ctx) : EndsAs ⟨.endValue, ctx⟩ ctx := fun _ _ => rfl

@[simp] theorem hexDigit_eq (b : UInt8) : hexDigit b = isHex b := rfl
@[simp] theorem digit_eq (b : UInt8) : digit b = isDigit b := rfl

theorem isEsc_of (b : UInt8) (h : [98, 102, 110, 114, 116, 92, 47, 34].contains b = true) :
    isEsc b = true := by
  simp at h
  rcases h with h | h | h | h | h | h | h | h <;> subst h <;> decide

theorem run_piece (p : Piece) (h : p.ok = true) (ctx : List Ctx) (rest : Bytes) :
    run ⟨.inString, ctx⟩ (p.text ++ rest) = run ⟨.inString, ctx⟩ rest := by
  cases p with
  | plain b =>
    simp [Piece.ok] at h
    obtain ⟨⟨h1, h2⟩, h3⟩ := h
    apply run_cons_more
    have e1 : ch '"' = 34 := by decide
    have e2 : ch '\\' = 92 := by decide
    have e3 : ¬ b < 32 := by simpa using h3
    simp [jsonStep, e1, e2, h1, h2, e3]
  | esc b =>
    have hb := isEsc_of b h
    simp only [Piece.text, List.cons_append, List.nil_append]
    rw [run_cons_more (s' := ⟨.esc, ctx⟩) _ (by
      have e2 : ch '\\' = 92 := by decide
      have e1 : ch '"' = 34 := by decide
      simp [jsonStep, e1, e2])]
    apply run_cons_more
    simp [jsonStep, hb]
  | u a b c d =>
    simp [Piece.ok] at h
    obtain ⟨⟨⟨ha, hb⟩, hc⟩, hd⟩ := h
    simp only [Piece.text, List.cons_append, List.nil_append]
    rw [run_cons_more (s' := ⟨.esc, ctx⟩) _ (by
      have e2 : ch '\\' = 92 := by decide
      have e1 : ch '"' = 34 := by decide
      simp [jsonStep, e1, e2])]
    rw [run_cons_more (s' := ⟨.u0, ctx⟩) _ (by
      have e1 : isEsc 117 = false := by decide
      have e2 : ch 'u' = 117 := by decide
      simp [jsonStep, e1, e2])]
    rw [run_cons_more (s' := ⟨.u1, ctx⟩) _ (by simp [jsonStep, ha])]
    rw [run_cons_more (s' := ⟨.u2, ctx⟩) _ (by simp [jsonStep, hb])]
    rw [run_cons_more (s' := ⟨.u3, ctx⟩) _ (by simp [jsonStep, hc])]
    apply run_cons_more
    simp [jsonStep, hd]

theorem run_pieces (ps : List Piece) (h : ps.all Piece.ok = true) (ctx : List Ctx) (rest : Bytes) :
    run ⟨.inString, ctx⟩ ((ps.map Piece.text).flatten ++ rest) = run ⟨.inString, ctx⟩ rest := by
  induction ps with
  | nil => simp
  | cons p ps ih =>
    simp at h
    simp only [List.map_cons, List.flatten_cons, List.append_assoc]
    rw [run_piece p h.1, ih (by simpa using h.2)]

theorem run_inString (ps : List Piece) (h : ps.all Piece.ok = true) (ctx : List Ctx) (rest : Bytes) :
    run ⟨.inString, ctx⟩ ((ps.map Piece.text).flatten ++ 34 :: rest) = run ⟨.endValue, ctx⟩ rest := by
  rw [run_pieces ps h]
  apply run_cons_more
  rfl

theorem run_strText (fn : Fn) (hfn : fn = .beginValue ∨ fn = .beginString ∨ fn = .beginStringOrEmpty)
    (ps : List Piece) (h : ps.all Piece.ok = true) (ctx : List Ctx)
    (rest : Bytes) :
    run ⟨fn, ctx⟩ (strText ps ++ rest) = run ⟨.endValue, ctx⟩ rest := by
  simp only [strText, List.cons_append, List.append_assoc, List.nil_append]
  rw [run_cons_more (s' := ⟨.inString, ctx⟩)]
  · exact run_inString ps h ctx rest
  · rcases hfn with h | h | h <;> subst h <;> rfl

/-! Numbers -/

theorem run_digits (fn : Fn) (hfn : fn = .one ∨ fn = .dot0 ∨ fn = .e0) (ds : Bytes)
    (h : ds.all isDigit = true) (ctx : List Ctx) (rest : Bytes) :
    run ⟨fn, ctx⟩ (ds ++ rest) = run ⟨fn, ctx⟩ rest := by
  induction ds with
  | nil => rfl
  | cons d ds ih =>
    simp at h
    rw [List.cons_append, run_cons_more (s' := ⟨fn, ctx⟩), ih (by simpa using h.2)]
    rcases hfn with hf | hf | hf <;> subst hf <;> simp [jsonStep, h.1]

theorem num_endsAs (fn : Fn) (hfn : fn = .one ∨ fn = .zero ∨ fn = .dot0 ∨ fn = .e0)
    (ctx : List Ctx) : EndsAs ⟨fn, ctx⟩ ctx := by
  intro b hb
  rcases hb with hb | hb | hb | hb | hb | hb | hb <;> subst hb <;>
    rcases hfn with hf | hf | hf | hf <;> subst hf <;> rfl

theorem isDigit_cases (d : UInt8) (h : isDigit d = true) :
    d = 48 ∨ d = 49 ∨ d = 50 ∨ d = 51 ∨ d = 52 ∨ d = 53 ∨ d = 54 ∨ d = 55 ∨ d = 56 ∨ d = 57 := by
  simp [isDigit] at h
  obtain ⟨h1, h2⟩ := h
  have h1 : 48 ≤ d.toNat := h1
  have h2 : d.toNat ≤ 57 := h2
  have : d.toNat = 48 ∨ d.toNat = 49 ∨ d.toNat = 50 ∨ d.toNat = 51 ∨ d.toNat = 52 ∨ d.toNat = 53 ∨
    d.toNat = 54 ∨ d.toNat = 55 ∨ d.toNat = 56 ∨ d.toNat = 57 := by omega
  rcases this with h | h | h | h | h | h | h | h | h | h
  · exact .inl (UInt8.toNat_inj.mp h)
  · exact .inr (.inl (UInt8.toNat_inj.mp h))
  · exact .inr (.inr (.inl (UInt8.toNat_inj.mp h)))
  · exact .inr (.inr (.inr (.inl (UInt8.toNat_inj.mp h))))
  · exact .inr (.inr (.inr (.inr (.inl (UInt8.toNat_inj.mp h)))))
  · exact .inr (.inr (.inr (.inr (.inr (.inl (UInt8.toNat_inj.mp h))))))
  · exact .inr (.inr (.inr (.inr (.inr (.inr (.inl (UInt8.toNat_inj.mp h)))))))
  · exact .inr (.inr (.inr (.inr (.inr (.inr (.inr (.inl (UInt8.toNat_inj.mp h))))))))
  · exact .inr (.inr (.inr (.inr (.inr (.inr (.inr (.inr (.inl (UInt8.toNat_inj.mp h)))))))))
  · exact .inr (.inr (.inr (.inr (.inr (.inr (.inr (.inr (.inr (UInt8.toNat_inj.mp h)))))))))

theorem run_int (fn : Fn) (hfn : fn = .beginValue ∨ fn = .neg) (int : Bytes)
    (h : (match int with
      | [] => false
      | [d] => digit d
      | d :: ds => digit d && d != 48 && ds.all digit) = true) (ctx : List Ctx) :
    ∃ fn', (fn' = .one ∨ fn' = .zero) ∧
      ∀ rest, run ⟨fn, ctx⟩ (int ++ rest) = run ⟨fn', ctx⟩ rest := by
  cases int with
  | nil => simp at h
  | cons d ds =>
    by_cases h0 : d = 48
    · subst h0
      cases ds with
      | nil =>
        refine ⟨.zero, .inr rfl, fun rest => ?_⟩
        apply run_cons_more
        rcases hfn with hf | hf <;> subst hf <;> rfl
      | cons e es => simp at h
    · have hd : isDigit d = true ∧ ds.all isDigit = true := by
        cases ds with
        | nil => simpa using h
        | cons e es =>
          simp only [digit_eq, Bool.and_eq_true] at h
          exact ⟨h.1.1, h.2⟩
      refine ⟨.one, .inl rfl, fun rest => ?_⟩
      rw [List.cons_append, run_cons_more (s' := ⟨.one, ctx⟩), run_digits _ (.inl rfl) ds hd.2]
      rcases isDigit_cases d hd.1 with h | h | h | h | h | h | h | h | h | h
      · exact absurd h h0
      all_goals (subst h; rcases hfn with hf | hf <;> subst hf <;> rfl)

theorem run_exp (fn : Fn) (hfn : fn = .one ∨ fn = .zero ∨ fn = .dot0) (sgn : Option Bool)
    (ds : Bytes) (h1 : ds ≠ []) (h2 : ds.all isDigit = true) (upper : Bool) (ctx : List Ctx) :
    run ⟨fn, ctx⟩ ((if upper then 69 else 101) :: ((match sgn with | none => [] | some true => [45] | some false => [43])
      ++ ds)) = some ⟨.e0, ctx⟩ := by
  rw [run_cons_more (s' := ⟨.e, ctx⟩) _ (by
    rcases hfn with hf | hf | hf <;> subst hf <;> cases upper <;> rfl)]
  cases ds with
  | nil => exact absurd rfl h1
  | cons d ds =>
    simp at h2
    have hd : jsonStep ⟨.eSign, ctx⟩ d = .more ⟨.e0, ctx⟩ := by simp [jsonStep, stepESign, h2.1]
    have he : jsonStep ⟨.e, ctx⟩ d = .more ⟨.e0, ctx⟩ := by
      rcases isDigit_cases d h2.1 with h | h | h | h | h | h | h | h | h | h <;> subst h <;> rfl
    have hds := run_digits .e0 (.inr (.inr rfl)) ds (by simpa using h2.2) ctx []
    rw [List.append_nil] at hds
    match sgn with
    | none => rw [List.nil_append, run_cons_more _ he, hds]; rfl
    | some true =>
      rw [List.cons_append, List.nil_append, run_cons_more (s' := ⟨.eSign, ctx⟩) _ rfl,
        run_cons_more _ hd, hds]; rfl
    | some false =>
      rw [List.cons_append, List.nil_append, run_cons_more (s' := ⟨.eSign, ctx⟩) _ rfl,
        run_cons_more _ hd, hds]; rfl

theorem run_num (n : Num) (h : n.ok = true) (ctx : List Ctx) :
    ∃ s', run ⟨.beginValue, ctx⟩ n.text = some s' ∧ EndsAs s' ctx := by
  obtain ⟨neg, int, frac, exp, upper⟩ := n
  simp only [Num.ok, Bool.and_eq_true] at h
  obtain ⟨⟨h1, h2⟩, h3⟩ := h
  -- sign
  have hsign : ∃ fn, (fn = .beginValue ∨ fn = .neg) ∧ ∀ rest,
      run ⟨.beginValue, ctx⟩ ((if neg then [45] else []) ++ rest) = run ⟨fn, ctx⟩ rest := by
    cases neg with
    | false => exact ⟨.beginValue, .inl rfl, fun _ => rfl⟩
    | true => exact ⟨.neg, .inr rfl, fun _ => rfl⟩
  obtain ⟨fn, hfn, hs⟩ := hsign
  simp only [Num.text, List.append_assoc]
  rw [hs]
  obtain ⟨fn', hfn', hi⟩ := run_int fn hfn int h1 ctx
  rw [hi]
  have hfrac : ∃ fn'', (fn'' = .one ∨ fn'' = .zero ∨ fn'' = .dot0) ∧ ∀ rest,
      run ⟨fn', ctx⟩ ((if frac.isEmpty then [] else 46 :: frac) ++ rest) = run ⟨fn'', ctx⟩ rest := by
    cases frac with
    | nil => exact ⟨fn', by rcases hfn' with h | h <;> simp [h], fun _ => rfl⟩
    | cons d ds =>
      refine ⟨.dot0, by simp, fun rest => ?_⟩
      simp at h2
      simp only [List.isEmpty_cons, Bool.false_eq_true, if_false, List.cons_append]
      rw [run_cons_more (s' := ⟨.dot, ctx⟩) _ (by rcases hfn' with h | h <;> subst h <;> rfl),
        run_cons_more (s' := ⟨.dot0, ctx⟩) _ (by simp [jsonStep, h2.1]),
        run_digits .dot0 (.inr (.inl rfl)) ds (by simpa using h2.2)]
  obtain ⟨fn'', hfn'', hf⟩ := hfrac
  rw [hf]
  match exp, h3 with
  | none, _ =>
    refine ⟨⟨fn'', ctx⟩, rfl, num_endsAs fn'' ?_ ctx⟩
    rcases hfn'' with h | h | h <;> simp [h]
  | some (sgn, ds), h3 =>
    simp only [Bool.and_eq_true, Bool.not_eq_true'] at h3
    refine ⟨_, run_exp fn'' hfn'' sgn ds ?_ ?_ upper ctx, num_endsAs _ (by simp) ctx⟩
    · intro h; simp [h] at h3
    · exact h3.2

/-! Values -/

theorem text_head (d : Nat) (v : Json) (h : v.ok d = true) :
    ∃ b bs, v.text = b :: bs ∧ b ≠ 93 ∧ isSpace b = false := by
  cases v with
  | null => exact ⟨_, _, rfl, by decide, by decide⟩
  | bool b => cases b <;> exact ⟨_, _, rfl, by decide, by decide⟩
  | str s => exact ⟨34, _, by simp only [Json.text, strText]; rfl, by decide, by decide⟩
  | arr vs => exact ⟨91, _, by simp only [Json.text]; rfl, by decide, by decide⟩
  | obj kvs => exact ⟨123, _, by simp only [Json.text]; rfl, by decide, by decide⟩
  | num n =>
    obtain ⟨neg, int, frac, exp, upper⟩ := n
    simp only [Json.ok, Num.ok, Bool.and_eq_true] at h
    cases neg with
    | true => exact ⟨45, _, by simp only [Json.text, Num.text, if_true, List.cons_append]; rfl, by decide, by decide⟩
    | false =>
      cases int with
      | nil => simp at h
      | cons x xs =>
        have hx : isDigit x = true := by
          have := h.1.1
          cases xs with
          | nil => simpa using this
          | cons y ys => simp at this; exact this.1.1
        refine ⟨x, _, by simp only [Json.text, Num.text, Bool.false_eq_true, if_false, List.nil_append, List.cons_append]; rfl, ?_, ?_⟩
        · rcases isDigit_cases x hx with h | h | h | h | h | h | h | h | h | h <;> subst h <;> decide
        · rcases isDigit_cases x hx with h | h | h | h | h | h | h | h | h | h <;> subst h <;> decide

theorem run_orEmpty (ctx : List Ctx) (b : UInt8) (bs : Bytes) (h1 : b ≠ 93)
    (h2 : isSpace b = false) :
    run ⟨.beginValueOrEmpty, ctx⟩ (b :: bs) = run ⟨.beginValue, ctx⟩ (b :: bs) := by
  have e : ch ']' = 93 := by decide
  simp [run, jsonStep, h1, h2, e]

theorem push_ok (c : Ctx) (ctx : List Ctx) (fn : Fn) (h : ctx.length + 1 ≤ 10000) :
    push c ctx fn = .more ⟨fn, c :: ctx⟩ := by
  simp [push, h]

/-! White space -/

theorem isSpace_of {b : UInt8} (h : b = 32 ∨ b = 9 ∨ b = 10 ∨ b = 13) : isSpace b = true := by
  rcases h with rfl | rfl | rfl | rfl <;> rfl

theorem blank_nil : Blank [] := by simp [Blank]

theorem Blank.all {w : Bytes} (h : Blank w) : w.all isSpace = true := by
  rw [List.all_eq_true]
  exact fun b hb => isSpace_of (h b hb)

theorem Padded.self {P : Bytes → Prop} {x : Bytes} (h : P x) : Padded P x :=
  ⟨[], x, [], blank_nil, h, blank_nil, by simp⟩

mutual
/-- White space may be absent. -/
theorem writes_text : ∀ v : Json, v.Writes v.text
  | .null => by simp [Json.Writes, Json.text]
  | .bool true => by simp [Json.Writes, Json.text]
  | .bool false => by simp [Json.Writes, Json.text]
  | .num n => by simp [Json.Writes, Json.text]
  | .str s => by simp [Json.Writes, Json.text]
  | .arr vs => by
    rw [Json.Writes, Json.text]
    exact ⟨_, arrWrites_text vs, rfl⟩
  | .obj kvs => by
    rw [Json.Writes, Json.text]
    exact ⟨_, objWrites_text kvs, rfl⟩
theorem arrWrites_text : ∀ vs : List Json, arrWrites vs (arrText vs)
  | [] => by rw [arrWrites, arrText]; exact blank_nil
  | [v] => by rw [arrWrites, arrText]; exact Padded.self (writes_text v)
  | v :: w :: vs => by
    rw [arrWrites, arrText]
    exact ⟨_, _, Padded.self (writes_text v), arrWrites_text (w :: vs), rfl⟩
theorem objWrites_text : ∀ kvs : List (List Piece × Json), objWrites kvs (objText kvs)
  | [] => by rw [objWrites, objText]; exact blank_nil
  | [(k, v)] => by
    rw [objWrites, objText]
    exact ⟨_, _, Padded.self rfl, Padded.self (writes_text v), rfl⟩
  | (k, v) :: kv :: kvs => by
    rw [objWrites, objText]
    exact ⟨_, _, _, Padded.self rfl, Padded.self (writes_text v), objWrites_text (kv :: kvs), rfl⟩
end

/-- White space before a value or a name. -/
theorem run_blank (fn : Fn) (hfn : fn = .beginValue ∨ fn = .beginString ∨ fn = .beginValueOrEmpty ∨
    fn = .beginStringOrEmpty) {w : Bytes} (hw : Blank w) (ctx : List Ctx) (rest : Bytes) :
    run ⟨fn, ctx⟩ (w ++ rest) = run ⟨fn, ctx⟩ rest := by
  induction w with
  | nil => rfl
  | cons b w ih =>
    have hb := isSpace_of (hw b (by simp))
    rw [List.cons_append, run_cons_more (s' := ⟨fn, ctx⟩), ih fun x hx => hw x (by simp [hx])]
    rcases hfn with rfl | rfl | rfl | rfl <;>
      simp [jsonStep, stepBeginValue, stepBeginString, hb]

/-- White space after a value. -/
theorem run_blank_end {s : JState} {c : Ctx} {ctx : List Ctx} (hs : EndsAs s (c :: ctx)) {w : Bytes}
    (hw : Blank w) : ∃ s', run s w = some s' ∧ EndsAs s' (c :: ctx) := by
  induction w generalizing s with
  | nil => exact ⟨s, rfl, hs⟩
  | cons b w ih =>
    have hb := hw b (by simp)
    have h1 : jsonStep s b = .more ⟨.endValue, c :: ctx⟩ := by
      rw [hs b (by simp [hb])]
      simp [stepEndValue, isSpace_of hb]
    rw [run_cons_more _ h1]
    exact ih (EndsAs.endValue _) fun x hx => hw x (by simp [hx])

/-- The beginning of a text. -/
theorem writes_head {d : Nat} {v : Json} (h : v.ok d = true) {x : Bytes} (hx : v.Writes x) :
    ∃ b bs, x = b :: bs ∧ b ≠ 93 ∧ isSpace b = false := by
  cases v with
  | arr vs =>
    rw [Json.Writes] at hx
    obtain ⟨y, -, rfl⟩ := hx
    exact ⟨91, _, rfl, by decide, by decide⟩
  | obj kvs =>
    rw [Json.Writes] at hx
    obtain ⟨y, -, rfl⟩ := hx
    exact ⟨123, _, rfl, by decide, by decide⟩
  | bool b =>
    obtain ⟨c, bs, e, hc⟩ := text_head d _ h
    cases b <;> (rw [Json.Writes] at hx; rw [Json.text] at e; exact ⟨c, bs, by rw [hx, e], hc⟩)
  | _ =>
    obtain ⟨c, bs, e, h⟩ := text_head d _ h
    rw [Json.Writes] at hx
    rw [Json.text] at e
    exact ⟨c, bs, by rw [hx, e], h⟩

/-- The beginning of elements. -/
theorem arrWrites_head {d : Nat} {v : Json} {vs : List Json} (h : arrOk d (v :: vs) = true) {x : Bytes}
    (hx : arrWrites (v :: vs) x) :
    ∃ w b bs, Blank w ∧ x = w ++ b :: bs ∧ b ≠ 93 ∧ isSpace b = false := by
  rw [arrOk, Bool.and_eq_true] at h
  have key : ∀ {y}, Padded (fun y => v.Writes y) y →
      ∃ w b bs, Blank w ∧ y = w ++ b :: bs ∧ b ≠ 93 ∧ isSpace b = false := by
    rintro y ⟨w, z, w', h1, h2, -, rfl⟩
    obtain ⟨b, bs, rfl, h3⟩ := writes_head h.1 h2
    exact ⟨w, b, bs ++ w', h1, by simp, h3⟩
  cases vs with
  | nil => rw [arrWrites] at hx; exact key hx
  | cons u us =>
    rw [arrWrites] at hx
    obtain ⟨y, z, hy, -, rfl⟩ := hx
    obtain ⟨w, b, bs, h1, rfl, h2⟩ := key hy
    exact ⟨w, b, bs ++ 44 :: z, h1, by simp, h2⟩

/-- The beginning of members. -/
theorem objWrites_head {k : List Piece} {v : Json} {kvs : List (List Piece × Json)} {x : Bytes}
    (hx : objWrites ((k, v) :: kvs) x) : ∃ w bs, Blank w ∧ x = w ++ 34 :: bs := by
  have key : ∀ {y}, Padded (· = strText k) y → ∃ w bs, Blank w ∧ y = w ++ 34 :: bs := by
    rintro y ⟨w, z, w', h1, rfl, -, rfl⟩
    exact ⟨w, _, h1, by rw [strText, List.cons_append]⟩
  cases kvs with
  | nil =>
    rw [objWrites] at hx
    obtain ⟨a, y, ha, -, rfl⟩ := hx
    obtain ⟨w, bs, h1, rfl⟩ := key ha
    exact ⟨w, bs ++ 58 :: y, h1, by simp⟩
  | cons u us =>
    rw [objWrites] at hx
    obtain ⟨a, y, z, ha, -, -, rfl⟩ := hx
    obtain ⟨w, bs, h1, rfl⟩ := key ha
    exact ⟨w, bs ++ 58 :: (y ++ 44 :: z), h1, by simp⟩

/-- A name with white space around it. -/
theorem run_name {k : List Piece} (h : k.all Piece.ok = true) {a : Bytes} (ha : Padded (· = strText k) a)
    (ctx : List Ctx) (rest : Bytes) :
    run ⟨.beginString, .key :: ctx⟩ (a ++ 58 :: rest) = run ⟨.beginValue, .val :: ctx⟩ rest := by
  obtain ⟨w, y, w', h1, rfl, h2, rfl⟩ := ha
  rw [List.append_assoc, run_blank _ (by simp) h1, List.append_assoc,
    run_strText .beginString (.inr (.inl rfl)) k h]
  have key : ∀ w : Bytes, Blank w → run ⟨.endValue, .key :: ctx⟩ (w ++ 58 :: rest) =
      run ⟨.endValue, .key :: ctx⟩ (58 :: rest) := by
    intro w hw
    induction w with
    | nil => rfl
    | cons b w ih =>
      rw [List.cons_append, run_cons_more (s' := ⟨.endValue, .key :: ctx⟩), ih fun x hx => hw x (by simp [hx])]
      simp [jsonStep, stepEndValue, isSpace_of (hw b (by simp))]
  rw [key w' h2]
  exact run_cons_more _ rfl

mutual
theorem run_value : ∀ (v : Json) (d : Nat), v.ok d = true → ∀ (x : Bytes), v.Writes x →
    ∀ (c : Ctx) (ctx : List Ctx), ctx.length + 1 + d ≤ 10000 →
    ∃ s', run ⟨.beginValue, c :: ctx⟩ x = some s' ∧ EndsAs s' (c :: ctx)
  | .null, _, _, x, hx, c, ctx, _ => by
    rw [Json.Writes] at hx; subst hx
    exact ⟨⟨.endValue, c :: ctx⟩, rfl, EndsAs.endValue _⟩
  | .bool true, _, _, x, hx, c, ctx, _ => by
    rw [Json.Writes] at hx; subst hx
    exact ⟨⟨.endValue, c :: ctx⟩, rfl, EndsAs.endValue _⟩
  | .bool false, _, _, x, hx, c, ctx, _ => by
    rw [Json.Writes] at hx; subst hx
    exact ⟨⟨.endValue, c :: ctx⟩, rfl, EndsAs.endValue _⟩
  | .num n, _, h, x, hx, c, ctx, _ => by
    rw [Json.Writes] at hx; subst hx
    rw [Json.ok] at h
    exact run_num n h (c :: ctx)
  | .str s, _, h, x, hx, c, ctx, _ => by
    rw [Json.Writes] at hx; subst hx
    rw [Json.ok] at h
    have := run_strText .beginValue (.inl rfl) s h (c :: ctx) []
    rw [List.append_nil] at this
    exact ⟨⟨.endValue, c :: ctx⟩, by rw [this]; rfl, EndsAs.endValue _⟩
  | .arr vs, 0, h, _, _, _, _, _ => by simp [Json.ok] at h
  | .obj vs, 0, h, _, _, _, _, _ => by simp [Json.ok] at h
  | .arr vs, d + 1, h, x, hx, c, cs, hd => by
    rw [Json.Writes] at hx
    obtain ⟨y, hy, rfl⟩ := hx
    rw [Json.ok] at h
    obtain ⟨s', h1, h2⟩ := run_arr vs d h y hy (c :: cs) (by simp at hd ⊢; omega)
    refine ⟨⟨.endValue, c :: cs⟩, ?_, EndsAs.endValue _⟩
    rw [run_cons_more (s' := ⟨.beginValueOrEmpty, .arr :: c :: cs⟩) _ (by
      show push _ _ _ = _
      exact push_ok _ _ _ (by simp at hd ⊢; omega)), run_append, h1]
    simp only [Option.bind_some, run, h2]
    rfl
  | .obj kvs, d + 1, h, x, hx, c, cs, hd => by
    rw [Json.Writes] at hx
    obtain ⟨y, hy, rfl⟩ := hx
    rw [Json.ok] at h
    obtain ⟨s', h1, h2⟩ := run_obj kvs d h y hy (c :: cs) (by simp at hd ⊢; omega)
    refine ⟨⟨.endValue, c :: cs⟩, ?_, EndsAs.endValue _⟩
    rw [run_cons_more (s' := ⟨.beginStringOrEmpty, .key :: c :: cs⟩) _ (by
      show push _ _ _ = _
      exact push_ok _ _ _ (by simp at hd ⊢; omega)), run_append, h1]
    simp only [Option.bind_some, run, h2]
    rfl
  termination_by v => 2 * sizeOf v
theorem run_padded : ∀ (v : Json) (d : Nat), v.ok d = true → ∀ (x : Bytes),
    Padded (fun y => v.Writes y) x → ∀ (c : Ctx) (ctx : List Ctx), ctx.length + 1 + d ≤ 10000 →
    ∃ s', run ⟨.beginValue, c :: ctx⟩ x = some s' ∧ EndsAs s' (c :: ctx)
  | v, d, h, x, hx, c, ctx, hd => by
    obtain ⟨w, y, w', h1, h2, h3, rfl⟩ := hx
    obtain ⟨s1, e1, e2⟩ := run_value v d h y h2 c ctx hd
    obtain ⟨s2, e3, e4⟩ := run_blank_end e2 h3
    refine ⟨s2, ?_, e4⟩
    rw [run_blank _ (by simp) h1, run_append, e1]
    exact e3
  termination_by v => 2 * sizeOf v + 1
/-- Everything between the brackets of an array. -/
theorem run_arr : ∀ (vs : List Json) (d : Nat), arrOk d vs = true → ∀ (x : Bytes), arrWrites vs x →
    ∀ (ctx : List Ctx), ctx.length + 1 + d ≤ 10000 →
    ∃ s', run ⟨.beginValueOrEmpty, .arr :: ctx⟩ x = some s' ∧
      jsonStep s' 93 = stepEndValue (.arr :: ctx) 93
  | [], _, _, x, hx, ctx, _ => by
    rw [arrWrites] at hx
    have := run_blank .beginValueOrEmpty (by simp) hx (.arr :: ctx) []
    rw [List.append_nil] at this
    exact ⟨_, this, rfl⟩
  | v :: vs, d, h, x, hx, ctx, hd => by
    obtain ⟨w, b, bs, e0, e1, e2, e3⟩ := arrWrites_head h hx
    obtain ⟨s', h1, h2⟩ := run_elems v vs d h x hx ctx hd
    refine ⟨s', ?_, h2 93 (by simp)⟩
    rw [e1] at h1 ⊢
    rw [run_blank _ (by simp) e0] at h1 ⊢
    rw [run_orEmpty _ _ _ e2 e3, h1]
  termination_by vs => 2 * sizeOf vs + 1
theorem run_elems : ∀ (v : Json) (vs : List Json) (d : Nat), arrOk d (v :: vs) = true →
    ∀ (x : Bytes), arrWrites (v :: vs) x → ∀ (ctx : List Ctx), ctx.length + 1 + d ≤ 10000 →
    ∃ s', run ⟨.beginValue, .arr :: ctx⟩ x = some s' ∧ EndsAs s' (.arr :: ctx)
  | v, [], d, h, x, hx, ctx, hd => by
    rw [arrOk, Bool.and_eq_true] at h
    rw [arrWrites] at hx
    exact run_padded v d h.1 x hx .arr ctx hd
  | v, w :: vs, d, h, x, hx, ctx, hd => by
    rw [arrOk, Bool.and_eq_true] at h
    rw [arrWrites] at hx
    obtain ⟨y, z, hy, hz, rfl⟩ := hx
    obtain ⟨s1, h1, h2⟩ := run_padded v d h.1 y hy .arr ctx hd
    obtain ⟨s2, h3, h4⟩ := run_elems w vs d h.2 z hz ctx hd
    refine ⟨s2, ?_, h4⟩
    rw [run_append, h1]
    simp only [Option.bind_some]
    rw [run_cons_more (s' := ⟨.beginValue, .arr :: ctx⟩) _ (by rw [h2 44 (by simp)]; rfl), h3]
  termination_by v vs => 2 * sizeOf (v :: vs)
/-- Everything between the braces of an object. -/
theorem run_obj : ∀ (kvs : List (List Piece × Json)) (d : Nat), objOk d kvs = true →
    ∀ (x : Bytes), objWrites kvs x → ∀ (ctx : List Ctx), ctx.length + 1 + d ≤ 10000 →
    ∃ s', run ⟨.beginStringOrEmpty, .key :: ctx⟩ x = some s' ∧
      jsonStep s' 125 = stepEndValue (.val :: ctx) 125
  | [], _, _, x, hx, ctx, _ => by
    rw [objWrites] at hx
    have := run_blank .beginStringOrEmpty (by simp) hx (.key :: ctx) []
    rw [List.append_nil] at this
    exact ⟨_, this, rfl⟩
  | (k, v) :: kvs, d, h, x, hx, ctx, hd => by
    obtain ⟨w, bs, e0, e1⟩ := objWrites_head hx
    obtain ⟨s', h1, h2⟩ := run_members k v kvs d h x hx ctx hd
    refine ⟨s', ?_, h2 125 (by simp)⟩
    rw [e1] at h1 ⊢
    rw [run_blank _ (by simp) e0] at h1 ⊢
    exact h1
  termination_by kvs => 2 * sizeOf kvs + 1
theorem run_members : ∀ (k : List Piece) (v : Json) (kvs : List (List Piece × Json)) (d : Nat),
    objOk d ((k, v) :: kvs) = true → ∀ (x : Bytes), objWrites ((k, v) :: kvs) x →
    ∀ (ctx : List Ctx), ctx.length + 1 + d ≤ 10000 →
    ∃ s', run ⟨.beginString, .key :: ctx⟩ x = some s' ∧ EndsAs s' (.val :: ctx)
  | k, v, [], d, h, x, hx, ctx, hd => by
    rw [objOk, Bool.and_eq_true, Bool.and_eq_true] at h
    rw [objWrites] at hx
    obtain ⟨a, y, ha, hy, rfl⟩ := hx
    rw [run_name h.1.1 ha]
    exact run_padded v d h.1.2 y hy .val ctx hd
  | k, v, (k', v') :: kvs, d, h, x, hx, ctx, hd => by
    rw [objOk, Bool.and_eq_true, Bool.and_eq_true] at h
    rw [objWrites] at hx
    obtain ⟨a, y, z, ha, hy, hz, rfl⟩ := hx
    obtain ⟨s1, h1, h2⟩ := run_padded v d h.1.2 y hy .val ctx hd
    obtain ⟨s2, h3, h4⟩ := run_members k' v' kvs d h.2 z hz ctx hd
    refine ⟨s2, ?_, h4⟩
    rw [run_name h.1.1 ha, run_append, h1]
    simp only [Option.bind_some]
    rw [run_cons_more (s' := ⟨.beginString, .key :: ctx⟩) _ (by rw [h2 44 (by simp)]; rfl), h3]
  termination_by k v kvs => 2 * sizeOf ((k, v) :: kvs)
end

/-- A JSON object text completes exactly at its closing brace. -/
theorem completes_writes {kvs : List (List Piece × Json)} (h : (Json.obj kvs).ok 10000 = true) {x : Bytes}
    (hx : (Json.obj kvs).Writes x) : Completes json json.start x := by
  rw [Json.Writes] at hx
  obtain ⟨y, hy, rfl⟩ := hx
  rw [Json.ok] at h
  obtain ⟨s', h1, h2⟩ := run_obj kvs 9999 h y hy [] (by simp)
  apply Completes.more (s' := ⟨.beginStringOrEmpty, [.key]⟩) rfl
  exact completes_of_run h1 (by rw [h2]; rfl)

/-- A JSON array text completes exactly at its closing bracket. -/
theorem completes_arr {vs : List Json} (h : (Json.arr vs).ok 10000 = true) {x : Bytes}
    (hx : (Json.arr vs).Writes x) : Completes json json.start x := by
  rw [Json.Writes] at hx
  obtain ⟨y, hy, rfl⟩ := hx
  rw [Json.ok] at h
  obtain ⟨s', h1, h2⟩ := run_arr vs 9999 h y hy [] (by simp)
  apply Completes.more (s' := ⟨.beginValueOrEmpty, [.arr]⟩) rfl
  exact completes_of_run h1 (by rw [h2]; rfl)

theorem completes_obj (kvs : List (List Piece × Json)) (h : (Json.obj kvs).ok 10000 = true) :
    Completes json json.start (Json.obj kvs).text := completes_writes h (writes_text _)

end Burl.Rpc
