import Verif.Frame.Spec
import Verif.Rpc.Spec
/-!
Model of the last part of a generated wrapper (install.go:127-137), which runs when the backend
can not be executed:

    err="{\"error\": \"$(printf '%s' "$BURL_BACKEND" | tr '\\"' "/'"): file not found or not executable\"}"
    /usr/bin/printf "\\x$(printf '%x' "${#err}")\\x00\\x00\\x00"
    printf '%s' "$err"

Strings of the shell are modelled by their bytes.  The programs are outside of the repository:
`tr` is bytewise (GNU), a command substitution drops line feeds at the end, `\xHH` of GNU `printf`
takes at most two digits, and `${#err}` is given by a parameter: `dash` counts bytes, `bash` counts
characters.
-/
namespace Burl.Args
open Burl Burl.Frame.Spec Burl.Rpc.Spec

/-- `tr '\\"' "/'"` (install.go:133). -/
def trByte (b : UInt8) : UInt8 := if b = 92 then 47 else if b = 34 then 39 else b

/-- What a command substitution gives: no line feeds at the end. -/
def stripNewlines (s : Bytes) : Bytes := (s.reverse.dropWhile (· == 10)).reverse

/-- `{"error": "` (install.go:133). -/
def errHead : Bytes := bytesOf "{\"error\": \""

/-- The end of the message (install.go:133). -/
def errTail : Bytes := bytesOf ": file not found or not executable\"}"

/-- `$err` (install.go:133) for the value `backend` of `$BURL_BACKEND`. -/
def errText (backend : Bytes) : Bytes :=
  errHead ++ stripNewlines (backend.map trByte) ++ errTail

/-- A hexadecimal digit. -/
def hexChar (n : Nat) : Char := Char.ofNat (if n < 10 then 48 + n else 87 + n)

/-- `printf '%x'`; the first argument bounds the number of digits. -/
def hexDigits : Nat → Nat → Str
  | 0, _ => []
  | f + 1, n => if n < 16 then [hexChar n] else hexDigits f (n / 16) ++ [hexChar (n % 16)]

/-- Value of a hexadecimal digit. -/
def hexVal (c : Char) : Option Nat :=
  if 48 ≤ c.toNat ∧ c.toNat ≤ 57 then some (c.toNat - 48)
  else if 97 ≤ c.toNat ∧ c.toNat ≤ 102 then some (c.toNat - 87)
  else if 65 ≤ c.toNat ∧ c.toNat ≤ 70 then some (c.toNat - 55)
  else none

/-- Output of `/usr/bin/printf` for a format with no escapes other than `\x` and no directives. -/
def printfX : Str → Bytes
  | '\\' :: 'x' :: a :: b :: rest =>
    match hexVal a, hexVal b with
    | none, _ => []
    | some x, some y => UInt8.ofNat (x * 16 + y) :: printfX rest
    | some x, none => UInt8.ofNat x :: printfX (b :: rest)
  | ['\\', 'x', a] =>
    match hexVal a with
    | none => []
    | some x => [UInt8.ofNat x]
  | c :: cs => UInt8.ofNat c.toNat :: printfX cs
  | [] => []

/-- `\x00\x00\x00` -/
def zeros : Str := "\\x00\\x00\\x00".toList

/-- What the wrapper prints when the backend is missing (install.go:133-136); `count` is the
meaning of `${#err}`. -/
def failureOutput (count : Bytes → Nat) (backend : Bytes) : Bytes :=
  let err := errText backend
  let n := count err
  printfX ('\\' :: 'x' :: (hexDigits (n + 1) n ++ zeros)) ++ err

/-- `${#err}` of `bash` in a locale with UTF-8 encoding: bytes that do not continue a
character. -/
def utf8Count (s : Bytes) : Nat := s.countP (fun b => !(128 ≤ b && b < 192))

end Burl.Args
