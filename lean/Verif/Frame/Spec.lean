import Verif.Base
/-! Specification vocabulary for native messaging frames: independent of the model. -/
namespace Burl.Frame.Spec

/-- 32-bit little-endian representation of the low 32 bits of `n`. -/
def le32 (n : Nat) : Bytes :=
  [UInt8.ofNat (n % 256), UInt8.ofNat (n / 256 % 256), UInt8.ofNat (n / 65536 % 256),
   UInt8.ofNat (n / 16777216 % 256)]

/-- A message on the wire: its length in native (amd64: little-endian) byte order, then its
bytes. -/
def frame (m : Bytes) : Bytes := le32 m.length ++ m

/-- Several messages on the wire. -/
def stream (ms : List Bytes) : Bytes := (ms.map frame).flatten

/-- Why a receiver stopped. -/
inductive Stop where
  | eof            -- clean end of stream at a frame boundary
  | headerCut      -- the stream ended inside a header
  | bodyCut        -- the stream ended inside a body
  deriving Repr, DecidableEq

/-- What a receiver must deliver if only the first `k` bytes of `stream ms` arrive:
the messages that arrived completely, and how the stream ended. -/
def delivered : Nat → List Bytes → List Bytes × Stop
  | _, [] => ([], .eof)
  | k, m :: ms =>
    if k = 0 then ([], .eof)
    else if k < 4 then ([], .headerCut)
    else if k < 4 + m.length then ([], .bodyCut)
    else
      let r := delivered (k - (4 + m.length)) ms
      (m :: r.1, r.2)

/-- Observable outcome of one call on the reading side. -/
inductive Event where
  | header (size : Nat)   -- ReadHeader returned nil and announced `size`
  | unread                -- ReadHeader returned ErrReadBody
  | data (b : Bytes)      -- Read returned these bytes
  | nothing               -- Read returned no bytes (end of frame or of input)
  | fatal                 -- ReadHeader failed in another way
  deriving Repr, DecidableEq

/-- Bytes of the input stream that the calls consumed. -/
def consumed : List Event → Bytes
  | [] => []
  | .header s :: es => le32 s ++ consumed es
  | .data b :: es => b ++ consumed es
  | _ :: es => consumed es

/-- `Framed rem es`: starting with `rem` unread bytes of the current frame, the calls respect
frame boundaries: data is returned only within the current frame, a header is accepted only
after the frame was read completely and `unread` is reported only if it was not. -/
def Framed : Nat → List Event → Prop
  | _, [] => True
  | rem, .header s :: es => rem = 0 ∧ Framed s es
  | rem, .unread :: es => rem ≠ 0 ∧ Framed rem es
  | rem, .data b :: es => b ≠ [] ∧ b.length ≤ rem ∧ Framed (rem - b.length) es
  | rem, .nothing :: es => Framed rem es
  | _, .fatal :: _ => True

end Burl.Frame.Spec
