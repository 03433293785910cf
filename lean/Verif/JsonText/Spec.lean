import Verif.Json.Spec
import Verif.Rpc.Spec
/-! What JSON texts mean (RFC 8259), independent of the model.  Tokens and the white space between
them are those of `Rpc.Spec`. -/
namespace Burl.JsonText.Spec
open Burl
open Burl.Json (Json)
open Burl.Rpc.Spec (Piece Num)

/-- A JSON text, split into tokens. -/
abbrev Text := Rpc.Spec.Json

/-- Letters after a backslash and characters they stand for. -/
def escapes : List (UInt8 × Nat) :=
  [(34, 34), (92, 92), (47, 47), (98, 8), (102, 12), (110, 10), (114, 13), (116, 9)]

/-- The value of a hexadecimal digit. -/
def hexVal (b : UInt8) (n : Nat) : Prop :=
  (48 ≤ b.toNat ∧ b.toNat ≤ 57 ∧ n + 48 = b.toNat) ∨
  (97 ≤ b.toNat ∧ b.toNat ≤ 102 ∧ n + 87 = b.toNat) ∨
  (65 ≤ b.toNat ∧ b.toNat ≤ 70 ∧ n + 55 = b.toNat)

/-- The code in `\uXXXX`. -/
def code (a b c d : UInt8) (n : Nat) : Prop :=
  ∃ i j k l, hexVal a i ∧ hexVal b j ∧ hexVal c k ∧ hexVal d l ∧
    n = i * 16 ^ 3 + j * 16 ^ 2 + k * 16 + l

/-- The characters of a string literal.  RFC 8259 leaves it open what bytes that are not UTF-8 and codes
of surrogates without a pair mean; `encoding/json` puts U+FFFD instead of each of them. -/
inductive StrMeans : List Piece → Str → Prop where
  | nil : StrMeans [] []
  /-- A character in UTF-8. -/
  | plain {c ps s} : c ≠ '"' → c ≠ '\\' → 32 ≤ c.toNat → StrMeans ps s →
      StrMeans ((String.utf8EncodeChar c).map .plain ++ ps) (c :: s)
  | esc {b c ps s} : (b, c.toNat) ∈ escapes → StrMeans ps s → StrMeans (.esc b :: ps) (c :: s)
  | u {h i j k c ps s} : code h i j k c.toNat → StrMeans ps s → StrMeans (.u h i j k :: ps) (c :: s)
  /-- A character above U+FFFF as a pair. -/
  | pair {h i j k h' i' j' k' hi lo c ps s} : code h i j k hi → code h' i' j' k' lo →
      0xD800 ≤ hi → hi ≤ 0xDBFF → 0xDC00 ≤ lo → lo ≤ 0xDFFF →
      c.toNat = 0x10000 + (hi - 0xD800) * 0x400 + (lo - 0xDC00) → StrMeans ps s →
      StrMeans (.u h i j k :: .u h' i' j' k' :: ps) (c :: s)
  /-- A byte with which no character in UTF-8 begins. -/
  | byte {b ps s} : 128 ≤ b.toNat → (∀ c, ¬(String.utf8EncodeChar c).map Piece.plain <+: .plain b :: ps) →
      StrMeans ps s → StrMeans (.plain b :: ps) (Char.ofNat 0xFFFD :: s)
  /-- A surrogate without a pair. -/
  | lone {h i j k n ps s} : code h i j k n → 0xD800 ≤ n → n ≤ 0xDFFF →
      (∀ h' i' j' k' lo ps', ps = .u h' i' j' k' :: ps' → code h' i' j' k' lo → n ≤ 0xDBFF →
        ¬(0xDC00 ≤ lo ∧ lo ≤ 0xDFFF)) →
      StrMeans ps s → StrMeans (.u h i j k :: ps) (Char.ofNat 0xFFFD :: s)

/-- The value of decimal digits. -/
def decimal : List UInt8 → Nat
  | [] => 0
  | d :: ds => (d.toNat - 48) * 10 ^ ds.length + decimal ds

/-- A number; fractions and exponents are left as they are written. -/
def numValue (n : Num) : Json :=
  if n.frac = [] ∧ n.exp = none then
    .num (if n.neg then -(decimal n.int : Int) else decimal n.int)
  else .real (n.text.map fun b => Char.ofNat b.toNat)

mutual
/-- What a text says. -/
def Means : Text → Json → Prop
  | .null, v => v = .null
  | .bool b, v => v = .bool b
  | .num n, v => v = numValue n
  | .str ps, v => ∃ s, StrMeans ps s ∧ v = .str s
  | .arr ts, v => ∃ vs, ElemsMean ts vs ∧ v = .arr vs
  | .obj ms, v => ∃ vs, MembersMean ms vs ∧ v = .obj vs
/-- Elements of an array. -/
def ElemsMean : List Text → List Json → Prop
  | [], vs => vs = []
  | t :: ts, vs => ∃ w ws, Means t w ∧ ElemsMean ts ws ∧ vs = w :: ws
/-- Members of an object. -/
def MembersMean : List (List Piece × Text) → List (Str × Json) → Prop
  | [], vs => vs = []
  | (k, t) :: ms, vs => ∃ s w ws, StrMeans k s ∧ Means t w ∧ MembersMean ms ws ∧ vs = (s, w) :: ws
end

/-- Bytes are a text of a value; nesting depth of brackets is at most the given one. -/
def TextFor (d : Nat) (v : Json) (x : Bytes) : Prop :=
  ∃ t : Text, t.ok d = true ∧ Means t v ∧ t.Writes x

mutual
/-- Values whose nesting depth is at most the given one; numbers are those of the grammar. -/
def Plain : Nat → Json → Prop
  | _, .null => True
  | _, .bool _ => True
  | _, .num _ => True
  | _, .real t => ∃ n : Num, n.ok = true ∧ numValue n = .real t
  | _, .str _ => True
  | 0, .arr _ => False
  | 0, .obj _ => False
  | d + 1, .arr vs => AllPlain d vs
  | d + 1, .obj ms => MembersPlain d ms
/-- Elements of an array. -/
def AllPlain : Nat → List Json → Prop
  | _, [] => True
  | d, v :: vs => Plain d v ∧ AllPlain d vs
/-- Members of an object. -/
def MembersPlain : Nat → List (Str × Json) → Prop
  | _, [] => True
  | d, m :: ms => Plain d m.2 ∧ MembersPlain d ms
end

end Burl.JsonText.Spec
