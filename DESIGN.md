# A Lean 4 model of maxnikulin/burl and proofs of its properties

Source: `/repo` (Go, plus one JavaScript example client).  Properties:
`properties.jsonl` (C01...).  Status per property: `MANIFEST.json`.
Mutation log: `seeded/LOG.jsonl`.

## Layout

`lean/Verif/Base.lean` holds the three-valued result type (`ok`, `err`, `panic`: a Go
runtime panic is a value of the model, never an undefined case).  Each area has

* `Model.lean` - executable definitions; each cites the file and lines it models and says
  where it simplifies;
* `Spec.lean`  - the independent vocabulary used by the theorem statements (inductive
  relations, one-line list functions); it does not use the model's helpers;
* `Lemmas*.lean` - proofs;
* `Props.lean` - the property theorems only, each with a non-vacuity `example`.

Areas: `Frame` (native messaging frames and codecs), `Rpc` (JSON decoder of the session,
dispatch, sending of replies, sessions of the server), `Json` (values of replies), `Url`, `Fuzzy`,
`Tree` (link tree, counting, limiting, JSON flattening, concurrent calls), `Scan`
(`bufio.Scanner`), `Regex` (Go regexp syntax and leftmost-first matching), `Links` (patterns of
links in Org and text files, link sets), `Extract` (headings, trees of files and groups), `Emacs`,
`Backend` (initialisation, `Hello`), `File` (WriteFile, paths, manifest), `Args` (flags, shell
command, wrapper, install), `Js` (client of the add-on), `Addon` (the client with backends),
`JsonText` (JSON on bytes), `Tool`.

## Plan per property

| id | what is modelled | how it is proved |
|----|------------------|------------------|
| C01 | `ReadHeader`, `LimitedReader.Read`, `io.ReadFull`, `WriteFrame`, little-endian header; the pipe is a list of chunks | induction over messages; reads are shown independent of the chunking |
| C02 | same, stream cut at any byte | induction over messages, prefix reasoning |
| C03 | reader as a state machine over arbitrary `Read n`/`ReadHeader` calls | invariant over call histories |
| C04 | `ReadHeader` | direct case analysis for all 2^32 sizes |
| C05 | `WriteFrame` over a sink that fails after any number of bytes | case analysis over the failure point |
| C06 | `Close` over arbitrary closers | exhaustive over outcomes, all buffers |
| C07 | threads taking the sending mutex, filling the shared buffer, writing header and body in steps | invariant over all schedules |
| C08 | a buffering decoder that reads chunks until its value is complete | positive theorem for bodies without trailing bytes; counterexample with trailing newline (the code violates the property for the bundled Go client); relation `Served` on sizes of the buffer for the exact answer without short reads |
| C09 | `MappedServerCodec`, the method map, `net/rpc` service lookup by last dot | all strings, lookup lemmas |
| C10, C11 | `RedundantTailVariants`, `UrlVariants` on runes, both map orders | loop invariants; membership characterised by a regular tail predicate |
| C12, C13 | the two-row loop with the `prevDistance` pair | loop refines a recursive table; table equals the optimum over an inductive edit-script relation |
| C14 | `container/heap` push/fix, `Add`, `sort`, reversal in `Search` | heap invariant; top-k refinement over insert histories |
| C15 | `QueryDistance`, `GetSubqueryDistance` | false in the code (case sensitivity at zero tolerance, byte lengths): counterexamples and a partial theorem; the exact condition is the relation `Spec.Offered` (`c15_exact`, `c15_search`) |
| C16 | `Search` guards, panics of indexing | totality |
| C17 | the two-phase stack machine | machine refines recursive flattening |
| C18 | `CountDescendants` as stack machine | refinement to a recursive filter, counts by induction |
| C19-C21 | both `LimitChildrenCount`, `FilterChildrenCount` | arithmetic invariant of the proportional split, induction on trees |
| C22 | the same with 64-bit wrapping integers and slice-bound panics | false in the code (negative and overflowing limits): counterexamples; partial for the safe range; `OverflowProps.lean` decides all limits when the links asked for are in one body, `Backend/TextEndProps.lean` says it for a text file |
| C23 | pointer-level model (heap of nodes) or purely functional argument on `Clone` | frame property |
| C24 | `Extract` with the 10-slot backing array of `headings` | false with skipped levels (stale heading): counterexample; partial for documents without skipped levels; labels above links described exactly for all documents, with headings as the regular expression reads them (`Starred`) |
| C25 | the same | invariant relating `headings` and `treeNodes`, for all documents |
| C26 | `reflectFlatten` on nil heading props | false in the code: counterexample; partial |
| C27 | file group loop | induction |
| C28 | regexps parsed by a model of Go's parser | false for bracket links (precedence of `^a\|b:`): counterexample; partial for angle and plain links; counterexample for schemes with a plus; what is reported instead, exactly (`Reported`) |
| C29-C31 | `MakeLinkSetBase`, `ExtractSet`, regexp matching | parser lemma on quoted text, matcher soundness |
| C32, C33 | `bufio.Scanner` lines/words, `MatchIsUrl` | induction on text |
| C34-C36 | emacs calls as a trace against an arbitrary oracle | trace predicates for all oracles |
| C37 | shared backing array, interleaved appends | false in the code: counterexample schedule; partial when the capacity forces reallocation |
| C38 | `sync.Once` as a state machine with threads | invariant over schedules |
| C39 | `Hello`, `LinkSet` | direct |
| C40-C43 | file system with temp file, chmod, write, rename, crash after any step, failures | step-by-step case analysis; the state after success exactly (`c42_exact`); C42, C43 false in the code at one length / one permission pattern: counterexamples and partial theorems |
| C44, C45 | `filepath` functions on `/`-paths, `AsAbsFileName`, `Init` | string lemmas |
| C46 | `MultiStringFlag` | invariant over histories |
| C47 | `AsShellCommand`, Go `flag` parsing, shell word splitting | round trip |
| C48 | shell `printf` of the length byte | exact set of paths with a well-formed message (`c48_exact`), counterexamples outside it |
| C49 | `processInstallFlags` with an effect trace | case analysis |
| C50 | client table as state machine | invariant over event histories; falsy results are rejected (counterexample) |
| C51 | `burl_tool` filter construction | false in the code: counterexample |
| C52, C53 | source arguments, scheme list | induction |
| C54 | `processInstallFlags`, `writeManifest` over a file system with arbitrary answers | case analysis over the trace of effects |
| C55 | the same as C19-C21 | the split uses up the limit: induction on trees, arithmetic of floors |
| C56 | `MakeLinkReStr` compiled by the model of Go's parser, `FindAllStringSubmatch` | the first match in the preference order is computed for every line of a grammar of lines (`Laid`) |
| C57 | `MakeLinkSetBase`, both `ExtractSet`, `LinkSet` | the same for the generated pattern and every list of prefixes |
| C58 | `UrlPatternFull`, `ScanWords`, `MatchIsUrl`, `TxtLinkSource.Extract` | the same, words of a grammar (`WordLaid`) |
| C59 | `ServeCodec` with its goroutines, table of identifiers and mutex as a transition system | invariant over all schedules, progress, a measure that bounds the number of steps |
| C60 | `rpc.Client` over the codec of `client.go`: callers, reader, `Close`, table of pending calls, two mutexes, as a transition system | invariants over all schedules and all input; composition with C59 |
| C61 | `json.Unmarshal` of `params` into the types of `burl_rpc.go`: decoders of strings, integers, slices, pointers, structures | structural induction; an independent relation `Spec.Params` between JSON and arguments; for all parameters, with members that are repeated: relation `Spec.Given` made of `Spec.Latest` (`RepeatedProps`, `c61_exact`); a slice has the elements that are left in its array |
| C62 | the whole way of a request: `params` → argument (C61) → method → `MarshalJSON` → response (C59) | composition of C18–C20, C26, C27, C29, C31, C34, C59, C61; a small reader of reply JSON (`Spec.inside`, `Spec.seen`) as the specification; what parameters mean is the relation `Given` of C61 |
| C63 | `tools/burl_client`: separation of the command line, options of `visit` with `strconv.ParseInt`, JSON of queries, the order of steps of a run | relation `Line` for command lines, `Query` for their meaning, `Visits` and `Integer` for options of `visit` and numbers in them; composition with C60, C62 and C72 |
| C64 | `burl_tool` from its command line, with `-set` | relation `Written` for command lines; composition with C29, C51 and C57 |
| C65 | all flags of `burl_backend`, the parser of the package `flag`, positional arguments | relation `Written` for command lines, structure `Means` for settings, both directions |
| C66 | `mainWithGracefulShutdown` up to `ServeCodec` | composition of C65, C49, C47, C39, C56, C58, C27 |
| C67 | a client, two pipes and a backend process | transition system, invariant and a decreasing measure |
| C68 | `encoding/json` on bytes: `checkValid`, decoder, `unquote`, encoder, `compact`, UTF-8 | relation `Means` between trees of tokens and values; mutual induction on texts and on values; for the converse (`c68_exact`) states of the scanner are read back as trees, and every tree has a meaning |
| C69 | `net/rpc/jsonrpc` header on bytes, `RawMessage`, text of the reply, frames | composition of C01, C08, C59, C62 and C68 |
| C70 | the JavaScript client with arguments of calls, backends of its ports | composition of C50 and C69 over histories of events |
| C71 | `json.MarshalIndent`/`Encoder.SetIndent` as a scanner of bytes, text of manifests, standard output of `burl_tool` | the scanner follows the tree of the text; lines of the output from parts of lines of files; crashes said by lines of files (`Tool/GapProps.lean`); strings of any bytes through `Replaced` (`JsonText/RawProps.lean`) |
| C72 | `net/rpc/jsonrpc` client codec on bytes joined with the backend by two streams | beginnings of streams are read as beginnings of lists of messages; composition of C08, C59, C60 and C69 |
| C73 | values of the type `interface{}` (`encoding/json`): sorted maps, numbers; the encoder with indents; the argument of `hello` | relation `Rearranged` (the order of members), `Distinct`, `Small`, exact relation `Untyped`; composition of C63, C71 and C72 |
| C74 | a reader of shell scripts: lines, quotes, variables, assignments, comments, `[ -x … ]`, `&&`, `exec` | the reader agrees with that of C47 on lines of words; composition with C47, C54, C66; counterexample for control characters |
| C75 | constants of `pkg/version` | instance of the exact description of generated files (`c54_exact`) and of paths (`c44_exact`: walking through the parts of a path as a relation) |
| C76 | scanner of words on bytes with `utf8.DecodeRune` (`Scan/Words.lean`), calls of the callback as a list | what is in the buffer is cut into whole characters and single bytes of the last one, none of which is white space; words of lines are words of the file since a line feed is never inside a character |
| C77 | the example backend: `Sqrt` and `Sleep` with the server of C59 | the server, its texts and sessions are generic in the methods registered; relation `Says` for answers; counterexample for long times |
| C78 | the example client: flags, `NewClientCommand`, two calls, the exit status | composition of C60, C67, C72 (generic in the backend) and C77; counterexample for the exit status |
| C79 | `background.js`: the menu, clicks, reports | composition of C50, C70 (generic in the backend) and C77 over histories of events; counterexamples |
| C80 | the reader of frames, the decoder and the header of requests on arbitrary bytes, with the server and methods | relation `Payload` for bytes without headers of frames; what the scanner completes is a JSON text (C68); composition with C59 and C69; relation `Deadly` for queries that may end the process, `c62_harmless` by cases of initialisation, of no matches and of C26 |
| C81 | the JavaScript client with messages of any contents | relations `Last`, `Tells`, `First` for members, messages and histories; refinement to C50; invariant: numbers that wait have been posted |
| C82 | clients in Go with any bytes from a backend | relations `Reports`, `Told`, `FirstFor` for members, streams of replies and the reply for a number; `serve_any` of C80, C60 for outcomes; `Untyped` of C73 for output |

No property is considered inexpressible.  Where the truth lies partly in the runtime (Go
scheduler, kernel pipes, power loss) the logical part is modelled and the rest is listed below.

## Trusted base

1. The kernel of Lean 4.33.0.  `vcheck` replays every module.
2. The axioms `propext`, `Classical.choice` and `Quot.sound` of the standard library, and no other.
   `AXIOMS.md` (written by `tools/mkaxioms.py` from `#print axioms`) lists them per theorem of
   `MANIFEST.json`.  There is no `sorry`, no axiom of our own, no `native_decide`, no `bv_decide`.
   `decide +kernel` is used only in concrete examples and counterexamples and for facts about fixed
   texts of the code (a pattern compiles to this tree, a name is in this table).
3. The correspondence between the model and /repo, by reading.  Every definition of a model file
   cites the lines it models.  Nothing was built or run.
4. The model of the Go standard library: `io`, `bufio`, `bytes`, `encoding/binary`,
   `encoding/json` (scanner, decoder, encoder of the types used), `net/rpc`, `net/rpc/jsonrpc`,
   `regexp`, `sort`, `container/heap`, `sync`, `flag`, `path/filepath`, `strings`, `os`.  Modelled
   from their documentation and sources of the Go 1.16-1.22 line as known to us.
5. The statements: `Spec.lean` of each area and the definitions in `Props` files marked as
   specification.

## What is modelled

| file | modelled | not modelled |
|------|----------|--------------|
| `cmd/burl_backend/burl_backend.go` | `NewBurlBackendPtr`, `Hello`, `Capture`, `UrlMentions`, `Visit`, `Search`, `LinkSetReal`, `LinkSet`, `methodMap`, serving of a session, the start of the program | usage and version texts, contents of the log |
| `cmd/burl_backend/args.go` | all | - |
| `cmd/burl_backend/install.go` | flags, `processInstallFlags`, `writeManifest`, wrapper text | wording of messages |
| `cmd/burl_tool/burl_tool.go` | all | wording of messages |
| `pkg/burl_emacs/emacs.go` | all, with the memory of slices | time limits (there are none), contents of the log |
| `pkg/burl_fileutil/fileutil.go` | all | Windows paths, `fsync` (there is none), a crash of the machine |
| `pkg/burl_fileutil/escape_printf.go` | all | - |
| `pkg/burl_fuzzy/*.go` | all | wrap-around of distances |
| `pkg/burl_links/extract_org.go` | all | - |
| `pkg/burl_links/extract_txt.go`, `urlmatch_txt.go` | all; `ExtractUrls`, which only tests call, with its scanner of words on bytes | bytes that are not UTF-8 in the text of a link are U+FFFD, as in replies of the backend (scanners and words are on bytes) |
| `pkg/burl_links/flag.go`, `link_source.go` | all | `file.Close` |
| `pkg/burl_links/link_tree.go`, `node_count.go` | all, on a heap with pointers | wrap-around of sums (only the multiplication may overflow) |
| `pkg/burl_rpc/burl_rpc.go` | types of requests and replies | - |
| `pkg/burl_url/url.go`, `pkg/burl_util/multistring_flag.go` | all | - |
| `pkg/version/version.go` | names used in manifests (`Args/Version.lean`) | replacement of the version while building |
| JSON on the wire | decoder and encoder of values on bytes, header of requests and replies in both codecs (`Verif.JsonText`) | stores into variables while decoding (two stages here) |
| `pkg/webextensions/frame.go`, `server.go`, `manifest.go`, `native_amd64.go` | all | - |
| `pkg/webextensions/client.go` | the codec, the client on top of it, `ClientCommand` | contents of messages together with ends of processes (C60 and C67 are separate models) |
| `examples/webextensions_addon/rpc_client.js` | all | reactions to promises |
| `tools/burl_client` | all, with bytes in pipes and the text printed | ends of the process of the backend (see C67), texts of errors, `float64` (a parameter that keeps integers within 2^53) |
| `examples/webextensions_addon/background.js` | all | titles of items, `reportError` |
| `examples/webextensions_backend`, `examples/webextensions_client` | all | `float64` (a parameter: reading, writing, comparison, square root), texts of lines printed |

Common simplifications: strings are lists of Unicode scalar values (`Str`) where the code works
with runes and lists of bytes where it works with bytes; `int` is unbounded except where noted;
memory never runs out; the log is left out.  JSON is a value in most areas; `Verif.JsonText` connects values with bytes.

## Disagreements between the code and the properties

Each is a theorem with a concrete witness (`..._violation...`) unless marked (note).

* C08: a request of 512 bytes followed by a newline, as the bundled Go client sends it, leaves a
  byte of the frame unread; the next header fails with `ErrReadBody` and the session ends.  Without
  short reads this happens exactly for requests of 512, 1536, 3584, … bytes (`c08_violation_sizes`).
* C15: tolerance zero makes the comparison sensitive to letter case; lengths are in bytes; the
  order of words changes the outcome.  Limits per word are computed and ignored (note).
* C20, C21, C55: `count * target` overflows for huge limits.
* C22: a negative limit crashes the process for every query that has a match.
* C24: stale headings after a skipped level; headings followed by blanks are not headings; levels
  above ten are attached wrongly.
* C26: a skipped level leaves a nil `*Heading`, and serialisation of the reply crashes, exactly when
  a link below a gap in levels is in the reply (`c26_crash_exact`).
* C28, C66: `-scheme svn+ssh` is put into a pattern as it is, so links with this scheme are not found and those
  with the scheme `svnssh` are (`c28_violation_plus`).
* C28, C53: in `^doi|https?|mid:` the anchor binds the first alternative only and the colon the
  last only, so that links in brackets are accepted by accident.
* C37: `append(UserArgs, Args...)` writes into the spare capacity of a shared array: two
  concurrent captures may both report success while one URI is lost.
* C42: contents of exactly 4096 bytes are compared as a prefix; an existing empty file is an error
  even with `-force`.
* C43: an identical wrapper with mode 0644 is not made executable.
* C44: the manifest file `.json` gets an empty name that `Init` refuses.
* C47: `printf %q` of GNU writes `$'...'` for control characters, which dash does not read.
* C74: for the same reason a wrapper does not start a backend in a directory with a control character
  in its name.
* C48: the header of the error message is wrong from 256 bytes on, for characters of several bytes
  when the shell counts characters, and for control characters.
* C49: a symbolic link in the directory of the wrapper with `-force` replaces the backend by a
  script that executes itself.
* C50: results `0`, `false`, `""` and `null` are rejected as invalid and their entries stay in the
  table.  A disconnect of an old port drops the new port (note).
* C51: `burl_tool` drops the result of `UrlVariants` and prints links to everything.
* C12, C16: empty words and empty links crash (`c12_empty_word_panics`, `c16_empty_link_panics`).
* C59 (note): a result that can not be written as JSON gets no reply at all; an error with an
  empty text is sent as success.
* C60 (note): a message without an identifier, as that of the wrapper (C48), is taken for number 0:
  it reaches the first call, and is lost if it arrives before this call (`c60_early_message`).  A
  result that does not fit the variable for the reply, or `null` as a result, ends the reader and
  fails all other calls.  Pending calls are not failed while a request is being written.
* C61 (note): names of members are compared ignoring letter case (`encoding/json`), so `FILE` is read as
  `file`; `params` that are an empty array or `[null]` call a method with an empty query.
* C62: `MarshalJSON` shows a group of one file as the file itself, with the numbers of that file.
  When the limit leaves only one file of several, matches in other files are not counted in the
  reply: two files with one link each and `countLimit` 1 give `"total": 1`
  (`c62_violation_total`), so the user does not see that anything is left out.
* C62 (note): a backend without files answers `hello` with `"capabilities": null`, not with an empty
  array: nothing is appended to a nil slice (burl_backend.go:139-144, `Spec.Greeting.capabilities`).
* C63: `burl_client -- -- hello` panics (`c63_violation_crash`).  `visit --line 010` asks for the line
  8 (`c63_violation_line`): the package `flag` reads a number with a zero before it as octal.  Notes:
  words after the options of `visit` are ignored, so `visit a.org` asks for a file without a name;
  the backend is started before the query is looked at, and is not waited for after an error; an
  error of writing the answer to the standard output is ignored.
* C64 (note): `burl_tool -org a.org -set http:` is refused with the message that there is no URL, so
  with `-set` the standard input is never read by default and a file of an option is not enough
  (`c64_no_arguments`).
* C66: `burl_backend -manifest-firefox DIR`, a way of installation from `README.org`, makes a manifest
  that names the backend itself.  Browsers start programs from manifests with arguments (Firefox:
  the path of the manifest and the identifier of the extension; Chrome: the origin of the extension),
  and the backend takes them for source files.  So it advertises `visit`, `urlMentions` and
  `linkSet` though no file was configured, and `urlMentions` always fails
  (`c66_violation_browser`).  Wrappers do not pass their arguments on, so they are not affected
  (`c66_wrapper`).  What browsers pass is taken from their documentation.
* C67 (note): `Close` closes the pipe for responses before the one for requests, so a backend that
  is still answering is ended by SIGPIPE and requests that had been written may be lost (`c67_lost`).
  A client has to wait for its calls before `Close`, as burl_client does.
* C71: `burl_tool` crashes when a link it is to print is below a gap in levels of headings; bytes of
  paths that are not UTF-8 are replaced in manifests, so that the program is not found.
* C72: the client reads replies with the same decoder as the backend reads requests, and every reply
  ends with a newline.  After a reply of 512 bytes the newline is left in the frame, and no later
  reply is read (`c72_violation`).  `burl_client` makes one call, so it is not affected
  (`c72_single`).
* C77: `time.Duration(query) * time.Millisecond` overflows for times above 292 years; some of such calls
  return at once (`c77_violation`).
* C78: the example client ends with status 0 though its calls have failed (`c78_violation`).
* C79: the listener of clicks is added when `runtime.onInstalled` fires, which does not happen when the
  browser is restarted, so the menu does nothing then (`c79_violation_restart`; when browsers fire the
  event is taken from their documentation).  The result 0 of `sqrt(0)` and `sleep(0)` is reported as an
  invalid response (`c79_violation_zero`, see C50).
* C58 (note): text-file addresses are cut at `?`, `#`, `=`, at a port and at a digit after the
  top-level domain; they are not of the described shape.
* C57 (note): prefixes that begin with `ſ` or `K` (Kelvin), accepted because of case folding, need
  a word character before them.
* (note) `AddSourceFlags` ignores its `flagSet` argument.  `AsAbsFileName` accepts names with a
  slash.  `WriteFile` would dereference a nil `FileInfo` if `Stat` failed
  with an error other than `ErrNotExist` and `Open` then succeeded; it ignores the
  error of `Close` and does not `fsync`.  `BURL_BACKEND=/a:~root` undergoes tilde expansion.
