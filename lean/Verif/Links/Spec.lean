import Verif.Tree.Spec
/-! Specification vocabulary for links in lines of text, without regular expressions. -/
namespace Burl.Links.Spec

/-- Schemes that the default configuration allows. -/
def defaultSchemes : List Str := ["doi".toList, "http".toList, "https".toList, "mid".toList]

/-- The address begins with one of the schemes followed by a colon. -/
def HasScheme (schemes : List Str) (url : Str) : Prop :=
  ∃ s ∈ schemes, s ++ [':'] <+: url

/-- A part of a text. -/
def Within (part text : Str) : Prop := ∃ a b, text = a ++ part ++ b

/-- What a link in double brackets is checked for: a single scheme has to be at the beginning and to
be followed by a colon; when there are several schemes, the first has to be at the beginning, the
last one to be followed by a colon, and any other to be anywhere in the target. -/
def Accepted : List Str → Str → Prop
  | [], _ => False
  | [s], url => s ++ [':'] <+: url
  | a :: b :: rest, url => a <+: url ∨ (∃ m ∈ (b :: rest).dropLast, Within m url) ∨
      Within ((b :: rest).getLast (by simp) ++ [':']) url

/-! ### Prefixes of linkSet -/

/-- Letters of scheme names: ASCII letters, and two characters that become ASCII letters when the
case is changed (long s, Kelvin sign). -/
def SchemeLetter (c : Char) : Prop :=
  ('a' ≤ c ∧ c ≤ 'z') ∨ ('A' ≤ c ∧ c ≤ 'Z') ∨ c = '\u017f' ∨ c = '\u212a'

def SchemeChar (c : Char) : Prop := SchemeLetter c ∨ ('0' ≤ c ∧ c ≤ '9')

/-- Parts of a scheme name after the first one. -/
inductive Parts : Str → Prop where
  | nil : Parts []
  | cons {sep part rest} : sep = '-' ∨ sep = '+' → part ≠ [] → (∀ c ∈ part, SchemeChar c) →
      Parts rest → Parts (sep :: part ++ rest)

def SchemeName (s : Str) : Prop :=
  ∃ c first rest, s = c :: first ++ rest ∧ SchemeLetter c ∧ (∀ d ∈ first, SchemeChar d) ∧ Parts rest

/-- A scheme name, optionally followed by a colon and any text without newlines. -/
def ValidPrefix (p : Str) : Prop :=
  ∃ name tail, p = name ++ tail ∧ SchemeName name ∧ (tail = [] ∨ ∃ t, tail = ':' :: t ∧ '\n' ∉ t)

/-- What links must begin with: a colon is added to a bare scheme. -/
def wanted (p : Str) : Str := if ':' ∈ p then p else p ++ [':']

/-! ### Schemes given by the user -/

/-- An item without one trailing colon. -/
inductive Trimmed : Str → Str → Prop where
  | colon {s} : Trimmed (s ++ [':']) s
  | none {s} : (∀ t, s ≠ t ++ [':']) → Trimmed s s

/-- Schemes in the order in which they are given, without empty ones and repetitions. -/
inductive SchemesOf : List Str → List Str → Prop where
  | nil : SchemesOf [] []
  | new {vs ss v s} : SchemesOf vs ss → Trimmed v s → s ≠ [] → s ∉ ss →
      SchemesOf (vs ++ [v]) (ss ++ [s])
  | old {vs ss v s} : SchemesOf vs ss → Trimmed v s → s = [] ∨ s ∈ ss → SchemesOf (vs ++ [v]) ss

/-! ### Words and addresses in plain text -/

/-- White space: code points with the property `White_Space` in the Unicode character database. -/
def white (c : Char) : Bool :=
  [0x09, 0x0A, 0x0B, 0x0C, 0x0D, 0x20, 0x85, 0xA0, 0x1680, 0x2000, 0x2001, 0x2002, 0x2003, 0x2004,
    0x2005, 0x2006, 0x2007, 0x2008, 0x2009, 0x200A, 0x2028, 0x2029, 0x202F, 0x205F,
    0x3000].contains c.toNat

/-- A maximal run of characters that are not white space. -/
def IsWord (space : Char → Bool) (line word : Str) : Prop :=
  word ≠ [] ∧ (∀ c ∈ word, space c = false) ∧ ∃ a b, line = a ++ word ++ b ∧
    (∀ c, a.getLast? = some c → space c = true) ∧ (∀ c, b.head? = some c → space c = true)

/-- Parts of a domain name with a dot after each. -/
inductive Dotted (letter : Char → Bool) : Str → Prop where
  | nil : Dotted letter []
  | cons {part rest} : part ≠ [] →
      (∀ c ∈ part, letter c = true ∨ ('0' ≤ c ∧ c ≤ '9') ∨ c = '_' ∨ c = '-') →
      Dotted letter rest → Dotted letter (part ++ '.' :: rest)

/-- At least two letters, may be followed by a dot. -/
def TopLevel (letter : Char → Bool) (s : Str) : Prop :=
  ∃ w, 2 ≤ w.length ∧ (∀ c ∈ w, letter c = true) ∧ (s = w ∨ s = w ++ ['.'])

/-- Nothing or a slash followed by characters of paths. -/
def Path (letter : Char → Bool) (s : Str) : Prop :=
  s = [] ∨ ∃ t, s = '/' :: t ∧ ∀ c ∈ t, letter c = true ∨ ('0' ≤ c ∧ c ≤ '9') ∨
    ('a' ≤ c ∧ c ≤ 'f') ∨ ('A' ≤ c ∧ c ≤ 'F') ∨ c ∈ "./@,~_-%".toList

/-- Scheme with a colon and may be two slashes. -/
def SchemePart (s : Str) : Prop :=
  ∃ w, w ≠ [] ∧ (∀ c ∈ w, ('A' ≤ c ∧ c ≤ 'Z') ∨ ('a' ≤ c ∧ c ≤ 'z')) ∧
    (s = w ++ [':'] ∨ s = w ++ "://".toList)

/-- Shape of addresses recognised in plain text: a scheme followed by something, or a domain name
of several parts; then a path. -/
inductive UrlShape (letter : Char → Bool) : Str → Prop where
  | scheme {sch dots top path} : SchemePart sch → Dotted letter dots →
      (TopLevel letter top ∨ (dots = [] ∧ top = [])) → Path letter path →
      dots ++ top ++ path ≠ [] → UrlShape letter (sch ++ (dots ++ top ++ path))
  | domain {dots top path} : Dotted letter dots → dots ≠ [] → TopLevel letter top →
      Path letter path → UrlShape letter (dots ++ top ++ path)

/-! ### Lines with links -/

/-- Characters of addresses that are written as is, except parentheses. -/
def PlainChar (c : Char) : Prop := c ∉ "[] \t\n()<>".toList

/-- Parentheses at most one inside of another. -/
inductive Paren1 : Str → Prop where
  | nil : Paren1 []
  | char {c w} : PlainChar c → Paren1 w → Paren1 (c :: w)
  | paren {v w} : (∀ c ∈ v, PlainChar c) → Paren1 w → Paren1 ('(' :: v ++ ')' :: w)

/-- A part in parentheses. -/
def Group (u : Str) : Prop := ∃ v, Paren1 v ∧ u = '(' :: v ++ [')']

/-- Characters of addresses and parts in parentheses. -/
inductive Paren2 : Str → Prop where
  | nil : Paren2 []
  | char {c w} : PlainChar c → Paren2 w → Paren2 (c :: w)
  | group {u w} : Group u → Paren2 w → Paren2 (u ++ w)

/-- Punctuation. -/
def Punct (c : Char) : Prop := c ∈ "!\"#$%&'()*+,-./:;<=>?@[\\]^_`{|}~".toList

/-- What follows a scheme and a colon in an address written as is: it does not end with
punctuation. -/
def PlainBody (b : Str) : Prop :=
  ∃ w last, b = w ++ last ∧ w ≠ [] ∧ Paren2 w ∧
    ((∃ c, last = [c] ∧ PlainChar c ∧ (¬Punct c ∨ c = '/')) ∨ Group last)

/-- The end of an address written as is. -/
def Stops (rest : Str) : Prop := ∀ c, rest.head? = some c → c ∈ "[] \t\n)<>".toList

/-- Letters, digits and underscores. -/
def Alnum (c : Char) : Prop :=
  ('0' ≤ c ∧ c ≤ '9') ∨ ('A' ≤ c ∧ c ≤ 'Z') ∨ ('a' ≤ c ∧ c ≤ 'z') ∨ c = '_'

/-- Text in which no link begins. -/
def Quiet (schemes : List Str) (t : Str) : Prop :=
  ¬Within "[[".toList t ∧ ∀ s ∈ schemes, ¬Within (s ++ [':']) t

/-- The target of a link in brackets. -/
def Target (url : Str) : Prop := url ≠ [] ∧ ∀ c ∈ url, c ∉ "[]\\".toList

/-- What follows the target: nothing or a description in brackets. -/
def Described (part descr : Str) : Prop :=
  (part = [] ∧ descr = []) ∨
    (part = '[' :: descr ++ [']'] ∧ descr ≠ [] ∧ ¬Within "]]".toList (descr ++ [']']))

/-- Lines made of text and links: the links in the order of the line.  Links in brackets are
`yes` or `no`: those to be reported and those to be passed over. -/
inductive Laid (schemes : List Str) (yes no : Str → Prop) : Str → List Burl.Tree.Spec.Link → Prop where
  | text {t} : Quiet schemes t → Laid schemes yes no t []
  | bracket {t url part descr rest links} : Quiet schemes t → Target url → Described part descr →
      yes url → Laid schemes yes no rest links →
      Laid schemes yes no (t ++ ("[[".toList ++ url ++ "]".toList ++ part ++ "]".toList ++ rest))
        (⟨url, descr, 0⟩ :: links)
  | other {t url part descr rest links} : Quiet schemes t → Target url → Described part descr →
      no url → Laid schemes yes no rest links →
      Laid schemes yes no (t ++ ("[[".toList ++ url ++ "]".toList ++ part ++ "]".toList ++ rest)) links
  | angle {t s suffix rest links} : Quiet schemes t → s ∈ schemes →
      (∀ c ∈ suffix, c ≠ '>' ∧ c ≠ '\n') → Laid schemes yes no rest links →
      Laid schemes yes no (t ++ ("<".toList ++ s ++ ":".toList ++ suffix ++ ">".toList ++ rest))
        (⟨s ++ ":".toList ++ suffix, [], 0⟩ :: links)
  | plain {t s body rest links} : Quiet schemes t →
      (∀ c, t.getLast? = some c → ¬Alnum c ∧ c ≠ '<' ∧ ∀ s ∈ schemes, c ∉ s) → s ∈ schemes →
      PlainBody body → Stops rest → Laid schemes yes no rest links →
      Laid schemes yes no (t ++ (s ++ ":".toList ++ body ++ rest))
        (⟨s ++ ":".toList ++ body, [], 0⟩ :: links)

/-! ### Lines with links that begin with given prefixes -/

/-- No link begins inside of `t` when `rest` follows it: no double bracket (in an Org file), and none
of the prefixes, unless it is a continuation of a word; prefixes after an angle bracket are not
allowed in an Org file at all. -/
def NoLink (org : Prop) (ws : List Str) (t rest : Str) : Prop :=
  ∀ a b, t = a ++ b → b ≠ [] →
    (org → ∀ c, c ∉ "[]".toList → ¬"[[".toList ++ [c] <+: b ++ rest) ∧
    ∀ w ∈ ws, (w <+: b ++ rest → ∃ c, a.getLast? = some c ∧ Alnum c) ∧
      (org → ¬'<' :: w <+: b ++ rest)

/-- Lines made of text and links: addresses with one of the prefixes, in the order of the line.
Links in double and in angle brackets are recognised in Org files only. -/
inductive SetLaid (org : Prop) (ws : List Str) : Str → List Str → Prop where
  | text {t} : NoLink org ws t [] → SetLaid org ws t []
  | bracket {t url part descr rest urls} : org →
      NoLink org ws t ("[[".toList ++ url ++ "]".toList ++ part ++ "]".toList ++ rest) →
      Target url → Described part descr → (∃ w ∈ ws, w <+: url) → SetLaid org ws rest urls →
      SetLaid org ws (t ++ ("[[".toList ++ url ++ "]".toList ++ part ++ "]".toList ++ rest))
        (url :: urls)
  | other {t url part descr rest urls} : org →
      NoLink org ws t ("[[".toList ++ url ++ "]".toList ++ part ++ "]".toList ++ rest) →
      Target url → Described part descr → (∀ w ∈ ws, ¬w <+: url) → SetLaid org ws rest urls →
      SetLaid org ws (t ++ ("[[".toList ++ url ++ "]".toList ++ part ++ "]".toList ++ rest)) urls
  | angle {t url rest urls} : org → NoLink org ws t ("<".toList ++ url ++ ">".toList ++ rest) →
      (∀ c ∈ url, c ≠ '>' ∧ c ≠ '\n') → (∃ w ∈ ws, w <+: url) →
      (∀ w ∈ ws, w <+: url ++ ">".toList ++ rest → w <+: url) → SetLaid org ws rest urls →
      SetLaid org ws (t ++ ("<".toList ++ url ++ ">".toList ++ rest)) (url :: urls)
  | plain {t url rest urls} : NoLink org ws t (url ++ rest) →
      (∀ c, t.getLast? = some c → ¬Alnum c) → (∃ w ∈ ws, ∃ b, url = w ++ b ∧ PlainBody b) →
      (∀ w ∈ ws, w <+: url ++ rest → ∃ b, url = w ++ b ∧
        (PlainBody b ∨ b = [] ∨ ∃ c, b = [c] ∧ PlainChar c)) →
      Stops rest → SetLaid org ws rest urls → SetLaid org ws (t ++ (url ++ rest)) (url :: urls)

/-! ### Addresses that are found in text files -/

/-- First and last characters of parts of domain names. -/
def DomainChar (letter : Char → Bool) (c : Char) : Prop := letter c = true ∨ ('0' ≤ c ∧ c ≤ '9')

/-- A part of a domain name. -/
def DomainPart (letter : Char → Bool) (p : Str) : Prop :=
  p.length ≤ 64 ∧ (∃ c, p.head? = some c ∧ DomainChar letter c) ∧
    (∃ c, p.getLast? = some c ∧ DomainChar letter c) ∧
    ∀ c ∈ p, DomainChar letter c ∨ c = '_' ∨ c = '-'

/-- A domain name: up to 16 parts, each followed by a dot, and a name of at least two letters. -/
def Domain (letter : Char → Bool) (parts : List Str) (top : Str) : Prop :=
  parts.length ≤ 16 ∧ (∀ p ∈ parts, DomainPart letter p) ∧ 2 ≤ top.length ∧ top.length ≤ 64 ∧
    ∀ c ∈ top, letter c = true

def domainText (parts : List Str) (top : Str) : Str := parts.flatMap (· ++ ['.']) ++ top

def HexDigit (c : Char) : Prop :=
  ('0' ≤ c ∧ c ≤ '9') ∨ ('a' ≤ c ∧ c ≤ 'f') ∨ ('A' ≤ c ∧ c ≤ 'F')

/-- A part of a path between slashes. -/
inductive Segment (letter : Char → Bool) : Str → Prop where
  | nil : Segment letter []
  | char {c s} : letter c = true ∨ ('0' ≤ c ∧ c ≤ '9') ∨ c ∈ ".@,~_-".toList → Segment letter s →
      Segment letter (c :: s)
  | hex {a b s} : HexDigit a → HexDigit b → Segment letter s → Segment letter ('%' :: a :: b :: s)

/-- A path: parts with a slash before each. -/
inductive FullPath (letter : Char → Bool) : Str → Prop where
  | nil : FullPath letter []
  | cons {s p} : Segment letter s → FullPath letter p → FullPath letter ('/' :: s ++ p)

/-- Addresses: a scheme, a domain name and a path; a domain name with a dot and a path; a scheme and
a path. -/
inductive TextUrl (letter : Char → Bool) : Str → Prop where
  | full {sch parts top path} : SchemePart sch → Domain letter parts top → FullPath letter path →
      TextUrl letter (sch ++ (domainText parts top ++ path))
  | domain {parts top path} : parts ≠ [] → Domain letter parts top → FullPath letter path →
      TextUrl letter (domainText parts top ++ path)
  | path {w slashes path} : w ≠ [] → (∀ c ∈ w, ('A' ≤ c ∧ c ≤ 'Z') ∨ ('a' ≤ c ∧ c ≤ 'z')) →
      slashes = "//".toList ∨ (slashes = [] ∧ ¬"//".toList <+: path) →
      FullPath letter path → path ≠ [] → TextUrl letter (w ++ ':' :: (slashes ++ path))

/-- Characters around an address: neither letters nor digits nor slashes. -/
def Dull (letter : Char → Bool) (c : Char) : Prop :=
  letter c = false ∧ ¬('0' ≤ c ∧ c ≤ '9') ∧ ¬(('A' ≤ c ∧ c ≤ 'Z') ∨ ('a' ≤ c ∧ c ≤ 'z')) ∧ c ≠ '/'

/-- What may follow an address. -/
def UrlEnds (letter : Char → Bool) (tail : Str) : Prop :=
  ∀ c, tail.head? = some c → Dull letter c ∧ c ∉ ".@,~_-%".toList

/-- Text without addresses: no colons, and no letters right after dots. -/
def PlainWord (letter : Char → Bool) (t : Str) : Prop :=
  ':' ∉ t ∧ ∀ a c b, t = a ++ '.' :: c :: b → letter c = false

/-- Characters that are not parts of addresses. -/
def Barrier (letter : Char → Bool) (c : Char) : Prop :=
  Dull letter c ∧ c ∉ ".:@,~_-%".toList

/-- A word with addresses in it. -/
inductive WordLaid (letter : Char → Bool) : Str → List Str → Prop where
  | nil : WordLaid letter [] []
  | plain {t} : PlainWord letter t → WordLaid letter t []
  | dull {c rest urls} : Dull letter c → WordLaid letter rest urls → WordLaid letter (c :: rest) urls
  | skip {t c rest urls} : PlainWord letter t → Barrier letter c → WordLaid letter rest urls →
      WordLaid letter (t ++ c :: rest) urls
  | url {url rest urls} : TextUrl letter url → UrlEnds letter rest → WordLaid letter rest urls →
      WordLaid letter (url ++ rest) (url :: urls)

/-- A line of words with addresses in them. -/
inductive LineLaid (letter space : Char → Bool) : Str → List Str → Prop where
  | done {t} : (∀ c ∈ t, space c = true) → LineLaid letter space t []
  | word {t word rest us vs} : (∀ c ∈ t, space c = true) → (∀ c ∈ word, space c = false) →
      (∀ c, rest.head? = some c → space c = true) → WordLaid letter word us →
      LineLaid letter space rest vs → LineLaid letter space (t ++ (word ++ rest)) (us ++ vs)

end Burl.Links.Spec
