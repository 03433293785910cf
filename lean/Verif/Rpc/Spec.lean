import Verif.Frame.Spec
/-! Specification vocabulary for RPC sessions. -/
namespace Burl.Rpc.Spec
open Burl.Frame.Spec

/-- What a call must put on the wire: one frame, or nothing if its reply has no encoding. -/
def replyWire : Option Bytes → Bytes
  | some m => frame m
  | none => []

def wireOf (msgs : Nat → Option Bytes) (i : Nat) : Bytes := replyWire (msgs i)

/-- The wire contents of several calls, one after another. -/
def wire (msgs : Nat → Option Bytes) (order : List Nat) : Bytes :=
  (order.map (wireOf msgs)).flatten

/-! ### JSON texts as sent by clients -/

/-- One element of a JSON string literal. -/
inductive Piece where
  | plain (b : UInt8)            -- a byte other than a quote, a backslash or a control byte
  | esc (b : UInt8)              -- `\b`: one of the one-letter escapes
  | u (a b c d : UInt8)          -- `\uXXXX`
  deriving Repr

/-- A JSON number, split into its lexical parts (digits as bytes). -/
structure Num where
  neg : Bool
  int : List UInt8
  frac : List UInt8                       -- empty: no fraction
  exp : Option (Option Bool × List UInt8) -- sign (`some true` is minus) and digits
  upper : Bool := false                   -- `E` before the exponent
  deriving Repr

/-- JSON values. -/
inductive Json where
  | null
  | bool (b : Bool)
  | num (n : Num)
  | str (s : List Piece)
  | arr (vs : List Json)
  | obj (kvs : List (List Piece × Json))

def bytesOf (s : String) : Bytes := s.toList.map (fun c => UInt8.ofNat c.toNat)

def Piece.text : Piece → Bytes
  | .plain b => [b]
  | .esc b => [92, b]
  | .u a b c d => [92, 117, a, b, c, d]

def strText (s : List Piece) : Bytes := 34 :: ((s.map Piece.text).flatten ++ [34])

def Num.text (n : Num) : Bytes :=
  (if n.neg then [45] else []) ++ n.int ++
  (if n.frac.isEmpty then [] else 46 :: n.frac) ++
  (match n.exp with
   | none => []
   | some (sgn, ds) => (if n.upper then 69 else 101) :: ((match sgn with | none => [] | some true => [45] | some false => [43]) ++ ds))

mutual
/-- The text of a JSON value without insignificant white space, as browsers produce it. -/
def Json.text : Json → Bytes
  | .null => bytesOf "null"
  | .bool true => bytesOf "true"
  | .bool false => bytesOf "false"
  | .num n => n.text
  | .str s => strText s
  | .arr vs => 91 :: (arrText vs ++ [93])
  | .obj kvs => 123 :: (objText kvs ++ [125])
/-- Elements separated by commas. -/
def arrText : List Json → Bytes
  | [] => []
  | [v] => v.text
  | v :: w :: vs => v.text ++ 44 :: arrText (w :: vs)
def objText : List (List Piece × Json) → Bytes
  | [] => []
  | [(k, v)] => strText k ++ 58 :: v.text
  | (k, v) :: kv :: kvs => strText k ++ 58 :: (v.text ++ 44 :: objText (kv :: kvs))
end

/-! ### White space between tokens -/

/-- White space of JSON texts. -/
def Blank (w : Bytes) : Prop := ∀ b ∈ w, b = 32 ∨ b = 9 ∨ b = 10 ∨ b = 13

/-- White space around a text. -/
def Padded (P : Bytes → Prop) (x : Bytes) : Prop :=
  ∃ w y w', Blank w ∧ P y ∧ Blank w' ∧ x = w ++ (y ++ w')

mutual
/-- A text of a JSON value: white space is allowed between its tokens. -/
def Json.Writes : Json → Bytes → Prop
  | .null, x => x = bytesOf "null"
  | .bool true, x => x = bytesOf "true"
  | .bool false, x => x = bytesOf "false"
  | .num n, x => x = n.text
  | .str s, x => x = strText s
  | .arr vs, x => ∃ y, arrWrites vs y ∧ x = 91 :: (y ++ [93])
  | .obj kvs, x => ∃ y, objWrites kvs y ∧ x = 123 :: (y ++ [125])
/-- Elements separated by commas. -/
def arrWrites : List Json → Bytes → Prop
  | [], x => Blank x
  | [v], x => Padded (fun y => v.Writes y) x
  | v :: w :: vs, x => ∃ y z, Padded (fun y => v.Writes y) y ∧ arrWrites (w :: vs) z ∧ x = y ++ 44 :: z
def objWrites : List (List Piece × Json) → Bytes → Prop
  | [], x => Blank x
  | [(k, v)], x => ∃ a y, Padded (· = strText k) a ∧ Padded (fun y => v.Writes y) y ∧ x = a ++ 58 :: y
  | (k, v) :: kv :: kvs, x => ∃ a y z, Padded (· = strText k) a ∧ Padded (fun y => v.Writes y) y ∧
      objWrites (kv :: kvs) z ∧ x = a ++ 58 :: (y ++ 44 :: z)
end

def digit (b : UInt8) : Bool := 48 ≤ b && b ≤ 57
def hexDigit (b : UInt8) : Bool := digit b || (97 ≤ b && b ≤ 102) || (65 ≤ b && b ≤ 70)

def Piece.ok : Piece → Bool
  | .plain b => b != 34 && b != 92 && 32 ≤ b
  | .esc b => [98, 102, 110, 114, 116, 92, 47, 34].contains b
  | .u a b c d => hexDigit a && hexDigit b && hexDigit c && hexDigit d

/-- Grammar of JSON numbers. -/
def Num.ok (n : Num) : Bool :=
  (match n.int with
   | [] => false
   | [d] => digit d
   | d :: ds => digit d && d != 48 && ds.all digit) &&
  n.frac.all digit &&
  (match n.exp with
   | none => true
   | some (_, ds) => !ds.isEmpty && ds.all digit)

mutual
/-- Well-formed parts and nesting depth at most `d`. -/
def Json.ok : Nat → Json → Bool
  | _, .null => true
  | _, .bool _ => true
  | _, .num n => n.ok
  | _, .str s => s.all Piece.ok
  | 0, .arr _ => false
  | 0, .obj _ => false
  | d + 1, .arr vs => arrOk d vs
  | d + 1, .obj kvs => objOk d kvs
def arrOk : Nat → List Json → Bool
  | _, [] => true
  | d, v :: vs => v.ok d && arrOk d vs
def objOk : Nat → List (List Piece × Json) → Bool
  | _, [] => true
  | d, (k, v) :: kvs => k.all Piece.ok && v.ok d && objOk d kvs
end

/-! ### Method names -/

/-- Methods a client may call. -/
inductive Call where
  | hello | capture | visit | urlMentions | linkSet
  deriving Repr, DecidableEq

/-- The name of a method without a namespace. -/
def Call.base : Call → String
  | .hello => "hello"
  | .capture => "capture"
  | .visit => "visit"
  | .urlMentions => "urlMentions"
  | .linkSet => "linkSet"

/-- Names under which a method may be called: with namespace `burl.` or `linkremark.`; `hello`
and `capture` also without namespace. -/
def Call.Name (c : Call) (name : Str) : Prop :=
  name = "burl.".toList ++ c.base.toList ∨ name = "linkremark.".toList ++ c.base.toList ∨
  ((c = .hello ∨ c = .capture) ∧ name = c.base.toList)

end Burl.Rpc.Spec
