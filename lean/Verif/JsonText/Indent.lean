import Verif.JsonText.Model
/-! Model of `json.MarshalIndent(v, "", "  ")` and of an encoder after `SetIndent("", "  ")`, as they
are used for manifests (cmd/burl_backend/install.go:206-207), by `burl_tool`
(cmd/burl_tool/burl_tool.go:108-110) and by `burl_client` (tools/burl_client/burl_client.go:165-167).

Standard library, package `encoding/json`: `appendIndent`, `appendNewline`, `(*Encoder).Encode`.

Simplification.  `appendIndent` asks the scanner for the kind of each byte; here it is only known
whether a byte is in a string, other bytes are told apart by their values.  Texts made by `Marshal`
are never refused by the scanner. -/
namespace Burl.JsonText
open Burl
open Burl.Json (Json)
open Burl.Rpc (isSpace)

/-- `appendNewline`. -/
def newline (depth : Nat) : Bytes := 10 :: List.replicate (2 * depth) 32

/-- The loop of `appendIndent`: `need` is `needIndent`, `str` and `esc` tell whether the previous
byte is in a string and whether it is a backslash there. -/
def indentFrom (need str esc : Bool) (depth : Nat) : Bytes → Bytes
  | [] => []
  | b :: bs =>
    if str then b :: indentFrom need (esc || b != 34) (!esc && b == 92) depth bs
    else if isSpace b then indentFrom need false false depth bs
    else if b = 125 ∨ b = 93 then
      if need then b :: indentFrom false false false depth bs
      else newline (depth - 1) ++ b :: indentFrom false false false (depth - 1) bs
    else
      (if need then newline (depth + 1) else []) ++
      (let depth := if need then depth + 1 else depth
       if b = 123 ∨ b = 91 then b :: indentFrom true false false depth bs
       else if b = 44 then b :: (newline depth ++ indentFrom false false false depth bs)
       else if b = 58 then b :: 32 :: indentFrom false false false depth bs
       else b :: indentFrom false (b == 34) false depth bs)

/-- `MarshalIndent` with two spaces. -/
def marshalIndent (short : Bool) (v : Json) : Bytes := indentFrom false false false 0 (enc short v)

/-- Output of an encoder after `SetIndent`, also the text of a manifest. -/
def printed (short : Bool) (v : Json) : Bytes := marshalIndent short v ++ [10]

end Burl.JsonText
