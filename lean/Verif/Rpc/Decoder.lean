import Verif.Frame.Model
/-! Model of the request side of the session: `serverCodec.ReadRequestHeader`
(pkg/webextensions/server.go:37-42), the `encoding/json` stream decoder it delegates to
(standard library: `Decoder.Decode`, `readValue`, `refill`; the JSON scanner) and the
`net/rpc` `ServeCodec` loop, which stops at the first header error. -/
namespace Burl.Rpc
open Burl.Frame

/-- Result of feeding one byte to an incremental scanner. -/
inductive Out (σ : Type) where
  | more (s : σ)   -- the value goes on
  | last           -- this byte completes the value (closing bracket at top level)
  | stop           -- the value was complete before this byte
  | bad            -- syntax error
  deriving Repr, DecidableEq

/-- An incremental scanner: `encoding/json`'s `scanner` with its `step` function. -/
structure Scanner (σ : Type) where
  start : σ
  step : σ → UInt8 → Out σ

/-- Result of scanning of the buffered bytes (`readValue` of `encoding/json`). -/
inductive ScanRes (σ : Type) where
  | more (s : σ)
  | done (n : Nat)   -- the value consists of the first `n` bytes
  | bad
  deriving Repr, DecidableEq

/-- The inner loop of `readValue`: look in the buffer for the end of the value. -/
def scanBuf {σ : Type} (sc : Scanner σ) : σ → Bytes → ScanRes σ
  | s, [] => .more s
  | s, b :: bs =>
    match sc.step s b with
    | .more s' =>
      match scanBuf sc s' bs with
      | .done n => .done (n + 1)
      | r => r
    | .last => .done 1
    | .stop => .done 0
    | .bad => .bad

/-- `json.Decoder`: unconsumed bytes of the buffer and its capacity.  The consumed part of the
buffer is slid away by `refill` before the capacity matters, so it is not kept. -/
structure Decoder where
  buf : Bytes
  cap : Nat
  deriving Repr, DecidableEq

/-- `json.NewDecoder`, called by `jsonrpc.NewServerCodec` (pkg/webextensions/server.go:46-68). -/
def Decoder.new : Decoder := ⟨[], 0⟩

/-- `(*Decoder).refill`: grow if fewer than 512 bytes are free, then one `Read`. -/
def Decoder.refill (d : Decoder) (r : Reader) : Decoder × Reader × Option SrcErr :=
  let cap := if d.cap - d.buf.length < 512 then 2 * d.cap + 512 else d.cap
  let (r, b, e) := r.read (cap - d.buf.length)
  (⟨d.buf ++ b, cap⟩, r, e)

/-- Errors of `Decode`. -/
inductive DErr where
  | src (e : SrcErr)
  | unexpectedEof
  | syntax
  | fuel             -- never reached: the model's fuel is exhausted
  deriving Repr, DecidableEq

/-- `isSpace` of `encoding/json`. -/
def isSpace (b : UInt8) : Bool := b == 32 || b == 9 || b == 13 || b == 10

/-- `(*Decoder).readValue`: `n` bytes of the buffer are already scanned. -/
def readValue {σ : Type} (sc : Scanner σ) : Nat → σ → Nat → Option SrcErr → Decoder → Reader →
    Decoder × Reader × Except DErr Bytes
  | 0, _, _, _, d, r => (d, r, .error .fuel)
  | fuel + 1, s, n, err, d, r =>
    match scanBuf sc s (d.buf.drop n) with
    | .bad => (d, r, .error .syntax)
    | .done k => ({ d with buf := d.buf.drop (n + k) }, r, .ok (d.buf.take (n + k)))
    | .more s' =>
      match err with
      | some .eof =>
        match sc.step s' 32 with
        | .stop => ({ d with buf := [] }, r, .ok d.buf)
        | _ => (d, r, .error (if d.buf.all isSpace then .src .eof else .unexpectedEof))
      | some e => (d, r, .error (.src e))
      | none =>
        let n' := d.buf.length
        let (d, r, e) := d.refill r
        readValue sc fuel s' n' e d r

/-- Why serving stopped. -/
inductive ServeStop where
  | header (e : RErr)
  | decode (e : DErr)
  | reject             -- `Unmarshal` into `serverRequest` failed
  | fuel
  deriving Repr, DecidableEq

/-- The `ServeCodec` loop as far as the input stream is concerned: read a frame header, decode
one request, go on; any error of `ReadRequestHeader` ends the session.  `accept` is whether
`Unmarshal` into the request structure succeeds. -/
def serve {σ : Type} (sc : Scanner σ) (accept : Bytes → Bool) : Nat → Decoder → Reader →
    List Bytes × ServeStop
  | 0, _, _ => ([], .fuel)
  | fuel + 1, d, r =>
    match r.readHeader with
    | (_, some e) => ([], .header e)
    | (r, none) =>
      match readValue sc (r.n + 3) sc.start 0 none d r with
      | (_, _, .error e) => ([], .decode e)
      | (d, r, .ok v) =>
        if accept v then
          let (vs, e) := serve sc accept fuel d r
          (v :: vs, e)
        else ([], .reject)

/-- A whole session on an input stream. -/
def session {σ : Type} (sc : Scanner σ) (accept : Bytes → Bool) (s : Src) :
    List Bytes × ServeStop :=
  serve sc accept (s.data.length + 1) Decoder.new (newReader s)

/-! ### The JSON scanner (standard library, `encoding/json/scanner.go`) -/

/-- `scanner.parseState` entries. -/
inductive Ctx where
  | key   -- parseObjectKey
  | val   -- parseObjectValue
  | arr   -- parseArrayValue
  deriving Repr, DecidableEq

/-- The `step` functions of the scanner. -/
inductive Fn where
  | beginValueOrEmpty | beginValue | beginStringOrEmpty | beginString
  | endValue | endTop | inString | esc | u0 | u1 | u2 | u3
  | neg | one | zero | dot | dot0 | e | eSign | e0
  | lit (rest : List Char)   -- rest of `true`, `false`, `null`
  deriving Repr, DecidableEq

/-- State of `scanner` of `encoding/json`: the step function and `parseState`. -/
structure JState where
  fn : Fn
  ctx : List Ctx
  deriving Repr, DecidableEq

/-- The code of an ASCII character. -/
def ch (c : Char) : UInt8 := UInt8.ofNat c.toNat

/-- `'0' <= c && c <= '9'` of `encoding/json`. -/
def isDigit (b : UInt8) : Bool := 48 ≤ b && b ≤ 57
/-- Hexadecimal digits of `stateInStringEscU` of `encoding/json`. -/
def isHex (b : UInt8) : Bool := isDigit b || (97 ≤ b && b ≤ 102) || (65 ≤ b && b ≤ 70)

/-- `pushParseState` with `maxNestingDepth`. -/
def push (c : Ctx) (ctx : List Ctx) (fn : Fn) : Out JState :=
  if ctx.length + 1 ≤ 10000 then .more ⟨fn, c :: ctx⟩ else .bad

/-- `popParseState` after a closing bracket; at the top level `readValue` stops at once. -/
def pop (ctx : List Ctx) : Out JState :=
  match ctx with
  | [] => .last
  | c :: cs => .more ⟨.endValue, c :: cs⟩

/-- `stateEndValue` of `encoding/json`. -/
def stepEndValue (ctx : List Ctx) (b : UInt8) : Out JState :=
  match ctx with
  | [] => .stop
  | c :: cs =>
    if isSpace b then .more ⟨.endValue, ctx⟩
    else match c with
      | .key => if b == ch ':' then .more ⟨.beginValue, .val :: cs⟩ else .bad
      | .val =>
        if b == ch ',' then .more ⟨.beginString, .key :: cs⟩
        else if b == ch '}' then pop cs
        else .bad
      | .arr =>
        if b == ch ',' then .more ⟨.beginValue, .arr :: cs⟩
        else if b == ch ']' then pop cs
        else .bad

/-- `stateBeginValue` of `encoding/json`. -/
def stepBeginValue (ctx : List Ctx) (b : UInt8) : Out JState :=
  if isSpace b then .more ⟨.beginValue, ctx⟩
  else if b == ch '{' then push .key ctx .beginStringOrEmpty
  else if b == ch '[' then push .arr ctx .beginValueOrEmpty
  else if b == ch '"' then .more ⟨.inString, ctx⟩
  else if b == ch '-' then .more ⟨.neg, ctx⟩
  else if b == ch '0' then .more ⟨.zero, ctx⟩
  else if b == ch 't' then .more ⟨.lit ['r', 'u', 'e'], ctx⟩
  else if b == ch 'f' then .more ⟨.lit ['a', 'l', 's', 'e'], ctx⟩
  else if b == ch 'n' then .more ⟨.lit ['u', 'l', 'l'], ctx⟩
  else if isDigit b then .more ⟨.one, ctx⟩
  else .bad

/-- `stateBeginString` of `encoding/json`. -/
def stepBeginString (ctx : List Ctx) (b : UInt8) : Out JState :=
  if isSpace b then .more ⟨.beginString, ctx⟩
  else if b == ch '"' then .more ⟨.inString, ctx⟩
  else .bad

/-- `state0` of `encoding/json`. -/
def stepZero (ctx : List Ctx) (b : UInt8) : Out JState :=
  if b == ch '.' then .more ⟨.dot, ctx⟩
  else if b == ch 'e' || b == ch 'E' then .more ⟨.e, ctx⟩
  else stepEndValue ctx b

/-- `stateESign` of `encoding/json`. -/
def stepESign (ctx : List Ctx) (b : UInt8) : Out JState :=
  if isDigit b then .more ⟨.e0, ctx⟩ else .bad

/-- Escaped characters of `stateInStringEsc` of `encoding/json`. -/
def isEsc (b : UInt8) : Bool :=
  b == ch 'b' || b == ch 'f' || b == ch 'n' || b == ch 'r' || b == ch 't' ||
  b == ch '\\' || b == ch '/' || b == ch '"'

/-- `scanner.step`. -/
def jsonStep (s : JState) (b : UInt8) : Out JState :=
  match s.fn with
  | .beginValueOrEmpty =>
    if isSpace b then .more s
    else if b == ch ']' then stepEndValue s.ctx b
    else stepBeginValue s.ctx b
  | .beginValue => stepBeginValue s.ctx b
  | .beginStringOrEmpty =>
    if isSpace b then .more s
    else if b == ch '}' then
      match s.ctx with
      | [] => .bad   -- not reachable: an object is open
      | _ :: cs => stepEndValue (.val :: cs) b
    else stepBeginString s.ctx b
  | .beginString => stepBeginString s.ctx b
  | .endValue => stepEndValue s.ctx b
  | .endTop => .stop
  | .inString =>
    if b == ch '"' then .more ⟨.endValue, s.ctx⟩
    else if b == ch '\\' then .more ⟨.esc, s.ctx⟩
    else if b < 32 then .bad
    else .more s
  | .esc =>
    if isEsc b then .more ⟨.inString, s.ctx⟩
    else if b == ch 'u' then .more ⟨.u0, s.ctx⟩
    else .bad
  | .u0 => if isHex b then .more ⟨.u1, s.ctx⟩ else .bad
  | .u1 => if isHex b then .more ⟨.u2, s.ctx⟩ else .bad
  | .u2 => if isHex b then .more ⟨.u3, s.ctx⟩ else .bad
  | .u3 => if isHex b then .more ⟨.inString, s.ctx⟩ else .bad
  | .neg =>
    if b == ch '0' then .more ⟨.zero, s.ctx⟩
    else if isDigit b then .more ⟨.one, s.ctx⟩
    else .bad
  | .one => if isDigit b then .more s else stepZero s.ctx b
  | .zero => stepZero s.ctx b
  | .dot => if isDigit b then .more ⟨.dot0, s.ctx⟩ else .bad
  | .dot0 =>
    if isDigit b then .more s
    else if b == ch 'e' || b == ch 'E' then .more ⟨.e, s.ctx⟩
    else stepEndValue s.ctx b
  | .e =>
    if b == ch '+' || b == ch '-' then .more ⟨.eSign, s.ctx⟩ else stepESign s.ctx b
  | .eSign => stepESign s.ctx b
  | .e0 => if isDigit b then .more s else stepEndValue s.ctx b
  | .lit [] => stepEndValue s.ctx b
  | .lit (c :: cs) =>
    if b == ch c then .more ⟨if cs.isEmpty then .endValue else .lit cs, s.ctx⟩ else .bad

/-- The scanner of `encoding/json`. -/
def json : Scanner JState := ⟨⟨.beginValue, []⟩, jsonStep⟩

end Burl.Rpc
