import Verif.Regex.Model
import Verif.Extract.Model
/-! Model of the search for links in lines: patterns and their use
(pkg/burl_links/extract_org.go, extract_txt.go, urlmatch_txt.go, link_source.go) and of the
`linkSet` method (cmd/burl_backend/burl_backend.go:252-275).

`letter` is the set `\p{L}`.  Messages sent to the log are not modelled. -/
namespace Burl.Links
open Burl.Regex Burl.Tree.Spec

/-! ### Patterns -/

/-- pkg/burl_links/extract_org.go:28 -/
def reHeadingStr : Str := "^(\\*+)\\s+(\\S(?:.*\\S)?)?$".toList

/-- pkg/burl_links/extract_org.go:33 -/
def schemeVariants : List Str := ["doi".toList, "https?".toList, "mid".toList]

/-- pkg/burl_links/extract_org.go:36 -/
def reBracketStr : Str :=
  "\\[\\[((?:[^\\]\\[]|\\\\(?:\\\\\\\\)*[\\]\\[]|\\\\+[^\\]\\[])+)](?:\\[((?:.|\n)+?)\\])?\\]".toList

/-- pkg/burl_links/extract_org.go:37 -/
def reAngleSuffixStr : Str := "[^>\n]*(?:\n[ \t]*[^> \t\n][^> \n]*)*".toList

/-- pkg/burl_links/extract_org.go:38 -/
def rePlainSuffixStr : Str :=
  "(?:[^][ \t\n(\\)<>]|\\((?:[^][ \t\n(\\)<>]|\\([^][ \t\n(\\)<>]*\\))*\\))+(?:[^[:punct:] \t\n]|/|\\((?:[^][ \t\n(\\)<>]|\\([^][ \t\n(\\)<>]*\\))*\\))".toList

/-- `strings.Join(items, "|")` -/
def joinBar : List Str → Str
  | [] => []
  | [s] => s
  | s :: ss => s ++ '|' :: joinBar ss

/-- `if strings.HasSuffix(scheme, ":") { scheme = scheme[:len(scheme)-1] }`
(pkg/burl_links/extract_org.go:45-47). -/
def trimColon (s : Str) : Str := if s.getLast? = some ':' then s.dropLast else s

/-- The loop of `MakeSchemeReStr` (pkg/burl_links/extract_org.go:44-52); the keys of `set` are the
elements of `unique`. -/
def uniqueSchemes : List Str → List Str → List Str
  | [], unique => unique
  | v :: vs, unique =>
    let scheme := trimColon v
    if scheme ≠ [] ∧ scheme ∉ unique then uniqueSchemes vs (unique ++ [scheme])
    else uniqueSchemes vs unique

/-- `MakeSchemeReStr` (pkg/burl_links/extract_org.go:41-54). -/
def makeSchemeReStr (variants : List Str) : Str := joinBar (uniqueSchemes variants [])

/-- `MakeLinkReStr` (pkg/burl_links/extract_org.go:56-60). -/
def makeLinkReStr (schemeStr : Str) : Str :=
  let angle := "<(".toList ++ schemeStr ++ "):(".toList ++ reAngleSuffixStr ++ ")>".toList
  let plain := "\\b(".toList ++ schemeStr ++ "):(".toList ++ rePlainSuffixStr ++ ")".toList
  reBracketStr ++ "|".toList ++ angle ++ "|".toList ++ plain

/-- The variables `reSchemeStr`, `reScheme` and `reLink` (pkg/burl_links/extract_org.go:34-39). -/
structure OrgRe where
  schemeStr : Str
  scheme : Re
  link : Re
  deriving DecidableEq

/-- Errors of `UpdateRe` (pkg/burl_links/extract_org.go:64-74). -/
inductive UpdateErr where
  | noVariants | syntax_
  deriving Repr, DecidableEq

/-- `UpdateRe` (pkg/burl_links/extract_org.go:62-79): the new values of the variables. -/
def updateRe (p : OrgRe) (variants : List Str) : OrgRe × Option UpdateErr :=
  let schemeStr := makeSchemeReStr variants
  if schemeStr = [] then (p, some .noVariants)
  else match compile ("^".toList ++ schemeStr ++ ":".toList) with
    | none => (p, some .syntax_)
    | some scheme => match compile (makeLinkReStr schemeStr) with
      | none => (p, some .syntax_)
      | some link => (⟨schemeStr, scheme, link⟩, none)

/-- Initial values of the variables (pkg/burl_links/extract_org.go:33-39); `MustCompile` of a bad
pattern would stop the program. -/
def orgReDefault : OrgRe :=
  let schemeStr := makeSchemeReStr schemeVariants
  ⟨schemeStr, (compile ("^".toList ++ schemeStr ++ ":".toList)).getD .never,
    (compile (makeLinkReStr schemeStr)).getD .never⟩

/-! ### Links of a line -/

/-- The number of capturing groups. -/
def groups : Re → Nat
  | .group _ r => groups r + 1
  | .cat a b => groups a + groups b
  | .alt a b => groups a + groups b
  | .star _ r => groups r
  | .plus _ r => groups r
  | .opt _ r => groups r
  | .rep _ _ r => groups r
  | _ => 0

/-- The slice of submatches. -/
def subs (r : Re) (m : Match) : List Str := (List.range (groups r + 1)).map m.sub

/-- `match[i]` -/
def idx (m : List Str) (i : Nat) : Res Empty Str :=
  match m[i]? with
  | some s => .ok s
  | none => .panic

/-- `OrgLinkMatchIsUrl` (pkg/burl_links/extract_org.go:112-126). -/
def orgLinkMatchIsUrl (letter : Char → Bool) (p : OrgRe) (m : List Str) :
    Res Empty (Option Link) :=
  (idx m 1).bind fun bracket =>
  if bracket ≠ [] then
    if matchString letter p.scheme bracket then
      (idx m 2).bind fun descr => .ok (some ⟨bracket, descr, 0⟩)
    else .ok none
  else (idx m 3).bind fun angle =>
  if angle ≠ [] then
    (idx m 4).bind fun suffix => .ok (some ⟨angle ++ ':' :: suffix, [], 0⟩)
  else (idx m 5).bind fun plain =>
  if plain ≠ [] then
    (idx m 6).bind fun suffix => .ok (some ⟨plain ++ ':' :: suffix, [], 0⟩)
  else .ok none

/-- Non-nil results of a function applied to matches. -/
def collect {α β : Type} (f : α → Res Empty (Option β)) : List α → Res Empty (List β)
  | [] => .ok []
  | a :: as => (f a).bind fun
    | some b => (collect f as).bind fun bs => .ok (b :: bs)
    | none => collect f as

/-- Links of a line of an Org file (pkg/burl_links/extract_org.go:153-155). -/
def orgLinks (letter : Char → Bool) (p : OrgRe) (line : Str) : Res Empty (List Link) :=
  collect (fun m => orgLinkMatchIsUrl letter p (subs p.link m)) (findAll letter p.link line)

/-! ### Text files -/

/-- pkg/burl_links/urlmatch_txt.go:20 -/
def urlPatternSchemaSlashes : Str := "(?:([[:alpha:]]+:(\\/\\/)?))".toList
/-- pkg/burl_links/urlmatch_txt.go:22 -/
def patDomainComponent : Str := "(?:[\\p{L}0-9][\\p{L}0-9_-]{0,62})?[\\p{L}0-9]".toList
/-- pkg/burl_links/urlmatch_txt.go:23 -/
def patTopLevelDomain : Str := "(?:\\p{L}){2,64}\\.?".toList
/-- pkg/burl_links/urlmatch_txt.go:24 -/
def urlPatternDomainTLD : Str :=
  "((?:".toList ++ patDomainComponent ++ "\\.){0,16}(".toList ++ patTopLevelDomain ++ "))".toList
/-- pkg/burl_links/urlmatch_txt.go:25 -/
def patPathComponent : Str := "(?:[\\p{L}0-9.@,~_-]|(?:%[0-9a-fA-F]{2}))*".toList
/-- pkg/burl_links/urlmatch_txt.go:26 -/
def patPath : Str := "((?:/".toList ++ patPathComponent ++ ")*)".toList
/-- pkg/burl_links/urlmatch_txt.go:27 -/
def urlPatternFull : Str :=
  urlPatternSchemaSlashes ++ "?".toList ++ urlPatternDomainTLD ++ "?".toList ++ patPath ++
    "?".toList

/-- `re` (pkg/burl_links/extract_txt.go:51). -/
def reUrl : Re := (compile urlPatternFull).getD .never

/-- `MatchIsUrl` (pkg/burl_links/urlmatch_txt.go:39-64). -/
def matchIsUrl (m : List Str) : Bool :=
  match m[0]? with
  | none => false
  | some text =>
    if text = [] then false
    else if m[1]? = some text then false
    else if m[4]? = some text then false
    else if m.length > 4 ∧ m[3]? = m[4]? ∧ m[1]? = some [] then false
    else if m[5]? = some text then false
    else true

/-- `isSpace` of package bufio: Unicode white space. -/
def isSpaceWord (c : Char) : Bool :=
  let n := c.toNat
  (9 ≤ n && n ≤ 13) || n = 0x20 || n = 0x85 || n = 0xA0 || n = 0x1680 ||
    (0x2000 ≤ n && n ≤ 0x200a) || n = 0x2028 || n = 0x2029 || n = 0x202f || n = 0x205f || n = 0x3000

/-- `bufio.ScanWords(line, true)`: the token and the rest of the line after `advance` bytes.  It
never returns an error. -/
def scanWord (line : Str) : Str × Str :=
  let data := line.dropWhile isSpaceWord
  (data.takeWhile (!isSpaceWord ·), (data.dropWhile (!isSpaceWord ·)).drop 1)

/-- Links of a token (pkg/burl_links/extract_txt.go:60-67). -/
def wordLinks (letter : Char → Bool) (token : Str) : List Link :=
  ((findAll letter reUrl token).filter fun m => matchIsUrl (subs reUrl m)).map
    fun m => ⟨m.text, [], 0⟩

/-- State of the loop over words: the rest of the line and the links found. -/
abbrev WordState := Str × List Link

/-- `len(line) != 0` (pkg/burl_links/extract_txt.go:55). -/
def wordsDone (s : WordState) : Bool := s.1.isEmpty

/-- Body of the loop over words (pkg/burl_links/extract_txt.go:56-74). -/
def wordsBody (letter : Char → Bool) (s : WordState) : Res Empty WordState :=
  let (token, rest) := scanWord s.1
  .ok (rest, s.2 ++ wordLinks letter token)

/-! ### Sets of links -/

/-- pkg/burl_links/extract_org.go:82 -/
def reSetPrefixStr : Str := "^(?:(?i)[a-z][a-z0-9]*(?:[-+][a-z0-9]+)*)(:[^\n]*)?$".toList

/-- pkg/burl_links/extract_org.go:82 -/
def reSetPrefix : Re := (compile reSetPrefixStr).getD .never

/-- Errors of `LinkSet` (pkg/burl_links/extract_org.go:174-182, link_source.go:90-100,
cmd/burl_backend/burl_backend.go:267-273). -/
inductive SetErr where
  | emptyList | invalidPrefix | syntax_ | file (e : Extract.FileErr) | disabled | tooMany
  deriving Repr, DecidableEq

/-- The loop of `MakeLinkSetBase` (pkg/burl_links/extract_org.go:178-188). -/
def setBases (letter : Char → Bool) : List Str → Option (List Str)
  | [] => some []
  | p :: ps => match findSub letter reSetPrefix p with
    | none => none
    | some m =>
      let withColon := quoteMeta p
      let withColon := if m.sub 1 = [] then withColon ++ [':'] else withColon
      (setBases letter ps).map (withColon :: ·)

/-- `MakeLinkSetBase` (pkg/burl_links/extract_org.go:173-190). -/
def makeLinkSetBase (letter : Char → Bool) (filters : List Str) : Except SetErr Str :=
  if filters = [] then .error .emptyList
  else match setBases letter filters with
    | none => .error .invalidPrefix
    | some base => .ok ("(?:".toList ++ joinBar base ++ ")".toList)

/-- `(*result)[key] = true`: the keys of the map. -/
def addKey (result : List Str) (key : Str) : List Str :=
  if key ∈ result then result else result ++ [key]

/-- The loop over matches of a line (pkg/burl_links/extract_org.go:218-229 and
extract_txt.go:127-138: the code is the same). -/
def setMatches (letter : Char → Bool) (rePrefix : Re) :
    List (List Str) → List Str → Res Empty (List Str)
  | [], result => .ok result
  | m :: ms, result =>
    (idx m 1).bind fun bracket =>
    if bracket ≠ [] then
      setMatches letter rePrefix ms
        (if matchString letter rePrefix bracket then addKey result bracket else result)
    else (idx m 3).bind fun angle =>
    if angle ≠ [] then setMatches letter rePrefix ms (addKey result angle)
    else (idx m 4).bind fun plain =>
    if plain ≠ [] then setMatches letter rePrefix ms (addKey result plain)
    else setMatches letter rePrefix ms result

/-- The loop over lines. -/
def setLines (letter : Char → Bool) (reSetLink rePrefix : Re) :
    List Str → List Str → Res Empty (List Str)
  | [], result => .ok result
  | l :: ls, result =>
    (setMatches letter rePrefix ((findAll letter reSetLink l).map (subs reSetLink)) result).bind
      fun result => setLines letter reSetLink rePrefix ls result

/-- The pattern of links of a kind of source (pkg/burl_links/extract_org.go:200-202,
extract_txt.go:111). -/
def setPattern (k : Extract.Kind) (base : Str) : Str :=
  let plain := "\\b(".toList ++ base ++ rePlainSuffixStr ++ ")".toList
  match k with
  | .org =>
    let angle := "<(".toList ++ base ++ reAngleSuffixStr ++ ")>".toList
    reBracketStr ++ "|".toList ++ angle ++ "|".toList ++ plain
  | .txt => plain

/-- `OrgLinkSource.ExtractSet` (pkg/burl_links/extract_org.go:193-231) and
`TxtLinkSource.ExtractSet` (extract_txt.go:104-141) on the lines delivered by the scanner: the keys
of the map and the error. -/
def extractSet (letter : Char → Bool) (k : Extract.Kind) (filters : List Str)
    (lines : List Str) (err : Option Extract.FileErr) (result : List Str) :
    Res Empty (List Str × Option SetErr) :=
  match makeLinkSetBase letter filters with
  | .error e => .ok (result, some e)
  | .ok base =>
    match compile (setPattern k base) with
    | none => .ok (result, some .syntax_)
    | some reSetLink => match compile ("^".toList ++ base) with
      | none => .ok (result, some .syntax_)
      | some rePrefix =>
        (setLines letter reSetLink rePrefix lines result).bind fun result =>
          .ok (result, err.map .file)

/-- The loop of `ExtractLinkSetFromFileGroup` (pkg/burl_links/link_source.go:80-104); the last
component lists the files opened. -/
def setGroup (letter : Char → Bool) (files : Extract.Files) (filters : List Str) :
    List Extract.Source → List Str → Res Empty (List Str × Option SetErr × List Str)
  | [], result => .ok (result, none, [])
  | src :: rest, result => match files src.name with
    | none => .ok (result, some (.file .open_), [])
    | some (lines, err) =>
      (extractSet letter src.kind filters lines err result).bind fun (result, err) =>
        match err with
        | some e => .ok (result, some e, [src.name])
        | none => (setGroup letter files filters rest result).bind fun (result, e, opened) =>
            .ok (result, e, src.name :: opened)

/-- `LinkSetPrefixCountLimit` (pkg/burl_rpc/burl_rpc.go:80). -/
def prefixLimit : Nat := 16

/-- Possible outcomes of `BurlBackend.LinkSet` and `LinkSetReal`
(cmd/burl_backend/burl_backend.go:252-275): URLs or an error, and the files opened.  Keys of a map
are visited in any order. -/
inductive LinkSet (letter : Char → Bool) (enabled : Bool) (files : Extract.Files)
    (sources : List Extract.Source) (prefixes : List Str) :
    Res SetErr (List Str) → List Str → Prop where
  | disabled : enabled = false → LinkSet letter enabled files sources prefixes (.err .disabled) []
  | tooMany : enabled = true → prefixes.length > prefixLimit →
      LinkSet letter enabled files sources prefixes (.err .tooMany) []
  | err {result e opened} : enabled = true → prefixes.length ≤ prefixLimit →
      setGroup letter files prefixes sources [] = .ok (result, some e, opened) →
      LinkSet letter enabled files sources prefixes (.err e) opened
  | ok {result opened urls} : enabled = true → prefixes.length ≤ prefixLimit →
      setGroup letter files prefixes sources [] = .ok (result, none, opened) → urls.Perm result →
      LinkSet letter enabled files sources prefixes (.ok urls) opened
  | panic : enabled = true → prefixes.length ≤ prefixLimit →
      setGroup letter files prefixes sources [] = .panic →
      LinkSet letter enabled files sources prefixes .panic []

end Burl.Links
