import Verif.Scan.Model
import Verif.JsonText.Model
import Verif.Links.Model
/-! Model of the reading of files word by word, `bufio.Scanner` with `bufio.ScanWords`, and of
`ExtractUrls` (pkg/burl_links/extract_txt.go:80-101).  Only tests call `ExtractUrls`. -/
namespace Burl.Scan
open Burl.JsonText (getRune)
open Burl.Links (isSpaceWord matchIsUrl reUrl subs)
open Burl.Regex (findAll)

/-- The loop of `bufio.ScanWords` over leading white space: how many bytes it takes.  The first
argument is a bound for the number of rounds. -/
def skipSpace : Nat → Bytes → Nat
  | 0, _ => 0
  | f + 1, data =>
    if data = [] then 0
    else
      let (c, n) := getRune data
      if isSpaceWord c then n + skipSpace f (data.drop n) else 0

/-- The loop of `bufio.ScanWords` up to white space after a word: where it is and how many bytes it
takes. -/
def findSpace : Nat → Bytes → Option (Nat × Nat)
  | 0, _ => none
  | f + 1, data =>
    if data = [] then none
    else
      let (c, n) := getRune data
      if isSpaceWord c then some (0, n)
      else (findSpace f (data.drop n)).map fun (i, w) => (n + i, w)

/-- `bufio.ScanWords(data, atEOF)`: advance and token (nil or not). -/
def scanWords (data : Bytes) (atEOF : Bool) : Nat × Option Bytes :=
  let start := skipSpace data.length data
  match findSpace data.length (data.drop start) with
  | some (i, w) => (start + i + w, some ((data.drop start).take i))
  | none =>
    if atEOF ∧ data.length > start then (data.length, some (data.drop start)) else (start, none)

/-- `scanner.Split(bufio.ScanWords)` (pkg/burl_links/extract_txt.go:84). -/
def wordBody (choice : Nat → Nat) (s : State) : Res Empty State := bodyOf scanWords choice s

/-- `[]rune(string)` and the reading of a string by a regular expression: characters of bytes.  The
first argument is a bound for the number of rounds. -/
def runes : Nat → Bytes → Str
  | 0, _ => []
  | f + 1, data =>
    if data = [] then []
    else
      let (c, n) := getRune data
      c :: runes f (data.drop n)

/-- `scanner.Text()` (pkg/burl_links/extract_txt.go:89) as it is seen by a regular expression.  (In
Go parts of the text found have bytes that are not UTF-8 as they are; here they are U+FFFD.) -/
def text (token : Bytes) : Str := runes token.length token

/-- The loop over matches in a word (pkg/burl_links/extract_txt.go:91-97): arguments of calls of `cb`
so far.  `more` tells what `cb` returns, knowing all its calls. -/
def callMatches (more : List (List Str) → Bool) : List (List Str) → List (List Str) → List (List Str)
  | [], calls => calls
  | m :: ms, calls =>
    if matchIsUrl m then
      let calls := calls ++ [m]
      if more calls then callMatches more ms calls else calls
    else callMatches more ms calls

/-- The loop over words (pkg/burl_links/extract_txt.go:88-99) on those the scanner delivers: calls of
`cb`. -/
def extractUrls (letter : Char → Bool) (more : List (List Str) → Bool) (words : List Str) :
    List (List Str) :=
  words.foldl (fun calls word => callMatches more ((findAll letter reUrl word).map (subs reUrl)) calls)
    []

end Burl.Scan
