import Verif.Loop
import Verif.Scan.Spec
/-! Model of the reading of files line by line: `bufio.Scanner` with `bufio.ScanLines` as it is used
in pkg/burl_links/extract_org.go:133-137, 194-211 and extract_txt.go:47-53, 105-121. -/
namespace Burl.Scan

/-- `Scanner.Err` (pkg/burl_links/extract_org.go:170, extract_txt.go:77). -/
inductive ScanErr where
  | eof
  | tooLong   -- bufio.ErrTooLong
  | advance   -- bufio.ErrNegativeAdvance, ErrAdvanceTooFar
  | read      -- a failure of the file
  deriving Repr, DecidableEq

/-- `bufio.MaxScanTokenSize` -/
def maxTokenSize : Nat := 65536
/-- `startBufSize` of package bufio -/
def startBufSize : Nat := 4096

/-- `dropCR` of package bufio. -/
def dropCR (l : Bytes) : Bytes := if l.getLast? = some 13 then l.dropLast else l

/-- `bufio.ScanLines(data, atEOF)`: advance and token (nil or not). -/
def scanLines (data : Bytes) (atEOF : Bool) : Nat × Option Bytes :=
  if atEOF ∧ data = [] then (0, none)
  else match data.findIdx? (· == 10) with
    | some i => (i + 1, some (dropCR (data.take i)))
    | none => if atEOF then (data.length, some (dropCR data)) else (0, none)

/-- A file: bytes that follow and the failure after them, nil is the end of the file. -/
structure File where
  rest : Bytes
  fault : Option Unit
  reads : Nat

/-- `Read` of a file into a buffer that has room for `room` bytes, not 0: the operating system gives
some of the bytes that follow, at least one; `choice` tells how many more in each call.  At the end
there is an error and no bytes. -/
def read (choice : Nat → Nat) (f : File) (room : Nat) : Bytes × Option ScanErr × File :=
  if f.rest = [] then
    ([], some (match f.fault with | none => .eof | some _ => .read), { f with reads := f.reads + 1 })
  else
    let n := min room (1 + choice f.reads)
    (f.rest.take n, none, { f with rest := f.rest.drop n, reads := f.reads + 1 })

/-- State of the scanner and what the caller has got: `data` is `buf[start:end]`, `cap` is
`len(buf)`. -/
structure State where
  start : Nat
  data : Bytes
  cap : Nat
  err : Option ScanErr
  file : File
  tokens : List Bytes
  stopped : Bool

/-- `Scan` has returned false (pkg/burl_links/extract_org.go:136). -/
def done (s : State) : Bool := s.stopped

/-- `setErr`: `if s.err == nil || s.err == io.EOF`. -/
def setErr (s : State) (e : ScanErr) : State :=
  match s.err with
  | none => { s with err := some e }
  | some .eof => { s with err := some e }
  | some _ => s

/-- Moving data to the beginning of the buffer. -/
def shift (s : State) : State :=
  if s.start > 0 ∧ (s.start + s.data.length = s.cap ∨ s.start > s.cap / 2) then { s with start := 0 }
  else s

/-- There is no free space in the buffer. -/
def State.full (s : State) : Prop := s.start + s.data.length = s.cap

instance (s : State) : Decidable s.full := by unfold State.full; infer_instance

/-- A larger buffer. -/
def grow (s : State) : State :=
  if s.full then
    { s with
      start := 0
      cap := min (if s.cap * 2 = 0 then startBufSize else s.cap * 2) maxTokenSize }
  else s

/-- Reading into the free space. -/
def readMore (choice : Nat → Nat) (s : State) : State :=
  let (bytes, e, file) := read choice s.file (s.cap - (s.start + s.data.length))
  let s := { s with data := s.data ++ bytes, file := file }
  match e with
  | some e => setErr s e
  | none => s

/-- The second half of the loop of `Scan`: there is no token, read more. -/
def fill (choice : Nat → Nat) (s : State) : State :=
  match s.err with
  | some _ => { s with start := 0, data := [], stopped := true }
  | none =>
    let s := shift s
    if s.full ∧ s.cap ≥ maxTokenSize then { (setErr s .tooLong) with stopped := true }
    else readMore choice (grow s)

/-- An iteration of the loop in `Scan` with the function set by `Split`; a token goes to the caller,
which calls `Scan` again. -/
def bodyOf (split : Bytes → Bool → Nat × Option Bytes) (choice : Nat → Nat) (s : State) :
    Res Empty State :=
  if s.data ≠ [] ∨ s.err ≠ none then
    let (adv, token) := split s.data s.err.isSome
    if adv > s.data.length then .ok { (setErr s .advance) with stopped := true }
    else
      let s' := { s with start := s.start + adv, data := s.data.drop adv }
      match token with
      | some t => .ok { s' with tokens := s'.tokens ++ [t] }
      | none => .ok (fill choice s')
  else .ok (fill choice s)

/-- `scanner.Split(bufio.ScanLines)` (pkg/burl_links/extract_org.go:134, 195, extract_txt.go:48,
106). -/
def body (choice : Nat → Nat) (s : State) : Res Empty State := bodyOf scanLines choice s

/-- `bufio.NewScanner(file)` -/
def start (content : Bytes) (fault : Option Unit) : State :=
  ⟨0, [], 0, none, ⟨content, fault, 0⟩, [], false⟩

/-- `scanner.Err()` -/
def State.error (s : State) : Option ScanErr := if s.err = some .eof then none else s.err

end Burl.Scan
