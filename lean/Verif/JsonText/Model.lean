import Verif.Json.Spec
import Verif.Rpc.Decoder
/-! Model of the text of JSON: `encoding/json` as it is used by the backend for requests and
replies (cmd/burl_backend/burl_backend.go:338-340, pkg/webextensions/server.go:37-52) through
`net/rpc/jsonrpc`.

Standard library, package `encoding/json`: `Marshal` (`encodeState`, `compact`), `Unmarshal`
(`checkValid`, `decodeState`, `unquote`); package `unicode/utf8`: `EncodeRune`, `DecodeRune`;
`strconv.AppendInt`.  The scanner is that of `Verif.Rpc.Decoder`.

Simplifications.  Decoding makes a value of the type `Json`, which is then stored into variables
(`Verif.Backend.Decode`); the library does both at once.  An integer may be of any size here, limits
of `int` are checked there. -/
namespace Burl.JsonText
open Burl
open Burl.Json (Json)
open Burl.Rpc (JState Out isSpace isDigit)

/-! ### UTF-8 -/

/-- `utf8.RuneError`. -/
def runeError : Char := Char.ofNat 0xFFFD

/-- `utf8.EncodeRune`. -/
def putRune (c : Char) : Bytes :=
  let n := c.toNat
  if n < 0x80 then [UInt8.ofNat n]
  else if n < 0x800 then [UInt8.ofNat (0xC0 + n / 64), UInt8.ofNat (0x80 + n % 64)]
  else if n < 0x10000 then
    [UInt8.ofNat (0xE0 + n / 4096), UInt8.ofNat (0x80 + n / 64 % 64), UInt8.ofNat (0x80 + n % 64)]
  else [UInt8.ofNat (0xF0 + n / 262144), UInt8.ofNat (0x80 + n / 4096 % 64),
    UInt8.ofNat (0x80 + n / 64 % 64), UInt8.ofNat (0x80 + n % 64)]

/-- Bounds of `acceptRanges` of `utf8`. -/
def within (lo hi : Nat) (b : UInt8) : Bool := lo ≤ b.toNat && b.toNat ≤ hi

/-- `utf8.DecodeRune`: the character and the number of bytes. -/
def getRune (s : Bytes) : Char × Nat :=
  match s with
  | [] => (runeError, 0)
  | b0 :: rest =>
    let x := b0.toNat
    if x < 0x80 then (Char.ofNat x, 1)
    else if x < 0xC2 then (runeError, 1)
    else if x < 0xE0 then
      match rest with
      | b1 :: _ =>
        if within 0x80 0xBF b1 then (Char.ofNat ((x - 0xC0) * 64 + (b1.toNat - 0x80)), 2)
        else (runeError, 1)
      | _ => (runeError, 1)
    else if x < 0xF0 then
      match rest with
      | b1 :: b2 :: _ =>
        if within (if x = 0xE0 then 0xA0 else 0x80) (if x = 0xED then 0x9F else 0xBF) b1 &&
            within 0x80 0xBF b2 then
          (Char.ofNat ((x - 0xE0) * 4096 + (b1.toNat - 0x80) * 64 + (b2.toNat - 0x80)), 3)
        else (runeError, 1)
      | _ => (runeError, 1)
    else if x < 0xF5 then
      match rest with
      | b1 :: b2 :: b3 :: _ =>
        if within (if x = 0xF0 then 0x90 else 0x80) (if x = 0xF4 then 0x8F else 0xBF) b1 &&
            within 0x80 0xBF b2 && within 0x80 0xBF b3 then
          (Char.ofNat ((x - 0xF0) * 262144 + (b1.toNat - 0x80) * 4096 + (b2.toNat - 0x80) * 64 +
            (b3.toNat - 0x80)), 4)
        else (runeError, 1)
      | _ => (runeError, 1)
    else (runeError, 1)

/-! ### Encoding -/

/-- `hex` of `encoding/json`. -/
def hex (n : Nat) : UInt8 := if n < 10 then UInt8.ofNat (48 + n) else UInt8.ofNat (87 + n)

/-- The loop of `(*encodeState).string` with `escapeHTML`; `\b` and `\f` are written since Go 1.22
(`short`). -/
def encRune (short : Bool) (c : Char) : Bytes :=
  let n := c.toNat
  if c = '"' ∨ c = '\\' then [92, UInt8.ofNat n]
  else if c = '\n' then [92, 110]
  else if c = '\r' then [92, 114]
  else if c = '\t' then [92, 116]
  else if short = true ∧ n = 8 then [92, 98]
  else if short = true ∧ n = 12 then [92, 102]
  else if n < 32 ∨ c = '<' ∨ c = '>' ∨ c = '&' then [92, 117, 48, 48, hex (n / 16), hex (n % 16)]
  else if n = 0x2028 ∨ n = 0x2029 then [92, 117, 50, 48, 50, hex (n % 16)]
  else putRune c

/-- `(*encodeState).string`. -/
def encStr (short : Bool) (s : Str) : Bytes := 34 :: (s.flatMap (encRune short) ++ [34])

/-- `strconv.AppendInt` of a number that is not negative. -/
def encNat (n : Nat) : Bytes :=
  if n < 10 then [UInt8.ofNat (48 + n)] else encNat (n / 10) ++ [UInt8.ofNat (48 + n % 10)]

/-- `strconv.AppendInt`. -/
def encInt (n : Int) : Bytes := if n < 0 then 45 :: encNat n.natAbs else encNat n.natAbs

mutual
/-- `(*encodeState).reflectValue`; replies have no numbers that are not integers. -/
def enc (short : Bool) : Json → Bytes
  | .null => [110, 117, 108, 108]
  | .bool true => [116, 114, 117, 101]
  | .bool false => [102, 97, 108, 115, 101]
  | .real t => t.flatMap putRune
  | .str s => encStr short s
  | .num n => encInt n
  | .arr vs => 91 :: (encElems short vs ++ [93])
  | .obj ms => 123 :: (encMembers short ms ++ [125])
/-- `arrayEncoder.encode`. -/
def encElems (short : Bool) : List Json → Bytes
  | [] => []
  | [v] => enc short v
  | v :: w :: vs => enc short v ++ 44 :: encElems short (w :: vs)
/-- `structEncoder.encode`, `mapEncoder.encode`. -/
def encMembers (short : Bool) : List (Str × Json) → Bytes
  | [] => []
  | [(k, v)] => encStr short k ++ 58 :: enc short v
  | (k, v) :: m :: ms => encStr short k ++ 58 :: (enc short v ++ 44 :: encMembers short (m :: ms))
end

/-- U+2028 or U+2029 in `compact`. -/
def lineEnd (s : Bytes) : Bool := [0xE2, 0x80, 0xA8].isPrefixOf s || [0xE2, 0x80, 0xA9].isPrefixOf s

/-- `compact` with `escape`, used for `json.RawMessage`: outside of strings white space is dropped;
the state is whether it is in a string and after a backslash. -/
def compact : Bool → Bool → Bytes → Bytes
  | _, _, [] => []
  | false, _, b :: bs =>
    if isSpace b then compact false false bs
    else b :: compact (b == 34) false bs
  | true, true, b :: bs => b :: compact true false bs
  | true, false, b :: bs =>
    if lineEnd (b :: bs) then
      match bs with
      | _ :: d :: bs => [92, 117, 50, 48, 50, hex (d.toNat % 16)] ++ compact true false bs
      | _ => []
    else if b = 60 ∨ b = 62 ∨ b = 38 then
      [92, 117, 48, 48, hex (b.toNat / 16), hex (b.toNat % 16)] ++ compact true false bs
    else if b = 34 then b :: compact false false bs
    else b :: compact true (b == 92) bs

/-! ### Decoding -/

/-- `checkValid`. -/
def checkValid : JState → Bytes → Bool
  | s, [] => match Rpc.jsonStep s 32 with
    | .stop => true
    | _ => false
  | s, b :: bs => match Rpc.jsonStep s b with
    | .more s' => checkValid s' bs
    | .last => bs.all isSpace
    | .stop => isSpace b && bs.all isSpace
    | .bad => false

/-- A digit in `getu4`. -/
def unhex (b : UInt8) : Option Nat :=
  let x := b.toNat
  if 48 ≤ x ∧ x ≤ 57 then some (x - 48)
  else if 97 ≤ x ∧ x ≤ 102 then some (x - 87)
  else if 65 ≤ x ∧ x ≤ 70 then some (x - 55)
  else none

/-- `getu4`: the number in `\uXXXX` at the beginning of a text. -/
def getu4 : Bytes → Option Nat
  | b0 :: b1 :: a :: b :: c :: d :: _ =>
    if b0 = 92 ∧ b1 = 117 then
      (unhex a).bind fun a => (unhex b).bind fun b => (unhex c).bind fun c => (unhex d).bind fun d =>
        some (((a * 16 + b) * 16 + c) * 16 + d)
    else none
  | _ => none

/-- The switch on a letter after a backslash in `unquoteBytes`; `u` is not here. -/
def unescape (b : UInt8) : Option Char :=
  if b = 34 ∨ b = 92 ∨ b = 47 ∨ b = 39 then some (Char.ofNat b.toNat)
  else if b = 98 then some (Char.ofNat 8)
  else if b = 102 then some (Char.ofNat 12)
  else if b = 110 then some '\n'
  else if b = 114 then some '\r'
  else if b = 116 then some '\t'
  else none

/-- The result of `getu4` as a character: surrogates are replaced. -/
def runeOf (n : Nat) : Char := if 0xD800 ≤ n ∧ n < 0xE000 then runeError else Char.ofNat n

/-- `utf16.DecodeRune`, if it is not `RuneError`. -/
def surrogates (hi lo : Nat) : Option Char :=
  if 0xD800 ≤ hi ∧ hi < 0xDC00 ∧ 0xDC00 ≤ lo ∧ lo < 0xE000 then
    some (Char.ofNat ((hi - 0xD800) * 0x400 + (lo - 0xDC00) + 0x10000))
  else none

/-- The loop of `unquoteBytes`; the first argument is a bound for the number of rounds. -/
def unquote : Nat → Bytes → Option Str
  | 0, _ => none
  | _ + 1, [] => some []
  | f + 1, b :: bs =>
    if b = 92 then
      match bs with
      | [] => none
      | e :: rest =>
        if e = 117 then
          match getu4 (b :: bs) with
          | none => none
          | some n =>
            match (getu4 (bs.drop 5)).bind (surrogates n) with
            | some c => (unquote f (bs.drop 11)).map (c :: ·)
            | none => (unquote f (bs.drop 5)).map (runeOf n :: ·)
        else match unescape e with
          | none => none
          | some c => (unquote f rest).map (c :: ·)
    else if b = 34 ∨ b < 32 then none
    else
      let (c, n) := getRune (b :: bs)
      (unquote f ((b :: bs).drop n)).map (c :: ·)

/-- The end of a string (`rescanLiteral`): the text before the closing quote and what is after it. -/
def rawString : Bool → Bytes → Option (Bytes × Bytes)
  | _, [] => none
  | esc, b :: bs =>
    if esc = false ∧ b = 34 then some ([], bs)
    else (rawString (!esc && b == 92) bs).map fun (x, y) => (b :: x, y)

/-- The string at the beginning of a text after the opening quote. -/
def string (s : Bytes) : Option (Str × Bytes) :=
  (rawString false s).bind fun (raw, rest) => (unquote (raw.length + 1) raw).map fun x => (x, rest)

/-- Characters of numbers in `rescanLiteral`. -/
def inNumber (b : UInt8) : Bool :=
  isDigit b || b == 46 || b == 101 || b == 69 || b == 43 || b == 45

/-- A text of digits. -/
def natOf (s : Bytes) : Nat := s.foldl (fun n d => n * 10 + (d.toNat - 48)) 0

/-- `literalStore` for a number. -/
def number (s : Bytes) : Json :=
  if s.head? = some 45 ∧ s.tail.all isDigit = true then .num (-(natOf s.tail : Int))
  else if s.all isDigit then .num (natOf s)
  else .real (s.map fun b => Char.ofNat b.toNat)

/-- White space is skipped. -/
def skip (s : Bytes) : Bytes := s.dropWhile isSpace

mutual
/-- `(*decodeState).value`: the value at the beginning of a text and the rest of the text.  The first
argument is a bound for the depth of calls. -/
def value : Nat → Bytes → Option (Json × Bytes)
  | 0, _ => none
  | f + 1, s =>
    match skip s with
    | [] => none
    | b :: r =>
      if b = 91 then
        if (skip r).head? = some 93 then some (.arr [], (skip r).tail)
        else (elements f r).map fun (vs, r) => (.arr vs, r)
      else if b = 123 then
        if (skip r).head? = some 125 then some (.obj [], (skip r).tail)
        else (members f r).map fun (ms, r) => (.obj ms, r)
      else if b = 34 then (string r).map fun (x, r) => (.str x, r)
      else if b = 110 then some (.null, r.drop 3)
      else if b = 116 then some (.bool true, r.drop 3)
      else if b = 102 then some (.bool false, r.drop 4)
      else some (number ((b :: r).takeWhile inNumber), (b :: r).dropWhile inNumber)
/-- `(*decodeState).array` after the opening bracket. -/
def elements : Nat → Bytes → Option (List Json × Bytes)
  | 0, _ => none
  | f + 1, s =>
    (value f s).bind fun (v, r) =>
      match skip r with
      | [] => none
      | b :: r =>
        if b = 44 then (elements f r).map fun (vs, r) => (v :: vs, r)
        else if b = 93 then some ([v], r)
        else none
/-- `(*decodeState).object` after the opening bracket. -/
def members : Nat → Bytes → Option (List (Str × Json) × Bytes)
  | 0, _ => none
  | f + 1, s =>
    match skip s with
    | [] => none
    | b :: r =>
      if b ≠ 34 then none
      else (string r).bind fun (k, r) =>
        match skip r with
        | [] => none
        | b :: r =>
          if b ≠ 58 then none
          else (value f r).bind fun (v, r) =>
            match skip r with
            | [] => none
            | b :: r =>
              if b = 44 then (members f r).map fun (ms, r) => ((k, v) :: ms, r)
              else if b = 125 then some ([(k, v)], r)
              else none
end

/-- `(*decodeState).unmarshal` of a text that has been checked. -/
def parse (s : Bytes) : Option Json := (value (2 * s.length + 2) s).map (·.1)

/-- `Unmarshal`. -/
def unmarshal (s : Bytes) : Option Json :=
  if checkValid Rpc.json.start s then parse s else none

end Burl.JsonText
