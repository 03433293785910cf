#!/usr/bin/env python3
"""Writes properties.jsonl. Edit the list below and re-run."""
import json, os
P = []
def p(title, statement, quantifier, why, anchors):
    P.append(dict(id="C%02d" % (len(P)+1), title=title, statement=statement,
                  quantifier=quantifier, why_tests_cant=why, anchors=anchors))

W="pkg/webextensions/"; L="pkg/burl_links/"; F="pkg/burl_fuzzy/"; B="cmd/burl_backend/"
p("Framed messages round-trip through any pipe",
  "A sequence of messages, each written through the framing writer and flushed with WriteFrame, and delivered to the framing reader by a pipe that splits the bytes at arbitrary places, is read back as exactly the same messages in the same order, followed by io.EOF from the next ReadHeader.",
  "every finite sequence of byte messages no longer than MaxInSize, every chunking of the byte stream by the pipe",
  "The number, the lengths and the contents of messages and the places where a pipe splits them are unbounded; tests fix a handful.",
  [W+"frame.go: FrameLimitedReader.ReadHeader, FrameBufferedWriter.WriteFrame", W+"native_amd64.go: NativeEndian"])
p("A truncated stream never yields a fabricated message",
  "If the peer dies and the stream stops at any byte, the reader delivers exactly the messages whose last byte was written before the cut and then reports an error (io.EOF exactly at a frame boundary, an unexpected-EOF inside a header, a short body inside a body); no partial or invented message is delivered as complete.",
  "every message sequence and every cut position of the encoded stream",
  "Crash points are as many as there are bytes on the wire.",
  [W+"frame.go: FrameLimitedReader.ReadHeader"])
p("Reading a message never runs into the next one",
  "Between two successful ReadHeader calls the reader returns only bytes of the current frame, at most as many as its header announced, whatever read sizes the consumer uses; if a part of the body was left unread the next ReadHeader fails with ErrReadBody and consumes nothing, so body bytes are never interpreted as a header.",
  "every stream, every sequence of Read/ReadHeader calls with arbitrary buffer sizes and arbitrary short reads of the pipe",
  "It is an invariant over unbounded call histories and short-read schedules.",
  [W+"frame.go: FrameLimitedReader"])
p("Oversized frames are refused before their body is read",
  "ReadHeader succeeds only if the announced size is at most MaxInSize; a larger announced size gives TooLargeError having consumed exactly the four header bytes and leaves no readable body.",
  "every 32-bit size value and every stream",
  "The domain is all 2^32 sizes times all streams.",
  [W+"frame.go: ReadHeader, MaxInSize, TooLargeError"])
p("WriteFrame emits the whole frame or an error, and never leaks bytes into the next frame",
  "WriteFrame returns nil only if the sink received the 4-byte length followed by exactly the buffered payload; whatever happens (write error at any byte, short write, payload of 4 GiB or more) the buffer is empty afterwards, so a failed message never contaminates a later frame; a payload of 2^32 bytes or more never returns success.",
  "every payload, every failure point of the underlying writer",
  "Failure points and payload sizes are unbounded.",
  [W+"frame.go: FrameBufferedWriter.WriteFrame, Discard, Empty"])
p("Close closes both streams and reports the right error",
  "Close always closes both the reader and the writer, each exactly once, even if the first fails; it reports the reader error first, then the writer error, then ErrOutBufferNotEmpty if unsent bytes were pending, otherwise nil, and pending bytes are discarded.",
  "every combination of reader/writer close results and buffer contents",
  "Error combinations are easily missed by example tests and the buffer contents are unbounded.",
  [W+"frame.go: SplitFrameReadWriteCloser.Close"])
p("Concurrent replies never interleave on the wire",
  "Under every goroutine schedule the bytes sent to the browser are a concatenation of complete frames, one per finished call in the order in which the calls obtained the sending lock, plus at most one incomplete frame of the call that currently holds the lock.",
  "every number of concurrent calls, every payload, every interleaving",
  "Schedules are not under the control of a test.",
  [W+"server.go: serverCodec.WriteResponse", W+"frame.go: WriteFrame", "net/rpc Server.sendResponse (sending mutex)"])
p("A served request leaves the connection ready for the next request",
  "After a frame that holds one JSON request has been decoded by the buffering JSON decoder, the next ReadHeader starts at the next frame, whatever chunk sizes the decoder and the pipe used, so the session goes on.",
  "every request body (with or without the trailing newline that the bundled Go client appends), every read chunking",
  "The failure needs an exact coincidence of message length and decoder buffer boundary.",
  [W+"server.go: serverCodec.ReadRequestHeader", W+"client.go: clientCodec.WriteRequest", W+"frame.go: ReadHeader"])
p("Only mapped RPC method names reach the backend",
  "A request reaches an exported backend method only if its name is a key of the method map, and then it reaches exactly the mapped method; every other name (including Go-style names such as Burl.Search) is answered with an error and runs no backend code.",
  "every method-name string sent by the client",
  "The set of strings is infinite.",
  [W+"server.go: MappedServerCodec.ReadRequestHeader", B+"burl_backend.go: methodMap"])
p("Equivalent-URL variants are exactly the redundant-tail truncations",
  "UrlVariants(u) consists of exactly those strings obtained from u, or from u with http: and https: exchanged, by dropping some number of trailing characters within its longest redundant tail of the form /…/?&…&# (each part optional); no other string is ever considered equivalent.",
  "every URL string",
  "All strings; tests sample a few tails.",
  ["pkg/burl_url/url.go: UrlVariants, RedundantTailVariants"])
p("URL variants contain the query, treat http and https alike and do not depend on map order",
  "For a non-empty valid UTF-8 URL the variants contain the URL itself; querying the http and the https form of the same URL yields the same set of variants; the result does not depend on Go's random map iteration order; nothing panics.",
  "every URL string and every map iteration order",
  "Map iteration order is random per run and strings are unbounded.",
  ["pkg/burl_url/url.go: UrlVariants"])
p("Fuzzy distance is the best approximate substring match",
  "For non-empty pattern and word the distance equals the minimal number of insertions, deletions, substitutions and adjacent transpositions (each symbol edited at most once) that turn the pattern into some contiguous substring of the word, saturated at 32767.",
  "every pair of non-empty rune sequences",
  "It is an optimality claim over all edit scripts and all substrings.",
  [F+"approsearch.go: EditorDistanceRunes, MinDistance, SameRuneDistance"])
p("Zero fuzzy distance means substring",
  "The distance is 0 exactly when the pattern occurs in the word as a contiguous substring; it never exceeds the pattern length; appending or prepending text to the word never increases it.",
  "every pair of non-empty rune sequences, every context text",
  "Unbounded inputs.",
  [F+"approsearch.go: EditorDistanceRunes"])
p("Fuzzy search returns the best matches in order",
  "Search results are exactly the best min(limit, n) of the n accepted links under the order (distance, byte length, text), best first, whatever order the links are visited in.",
  "every multiset and order of candidate links, every limit from 1",
  "Heap bookkeeping must hold for all histories of insertions and evictions.",
  [F+"rank.go: WeightedStringHeap.Add, Less, ProcessUrlSource", B+"burl_backend.go: Search"])
p("Search tolerance bounds the total distance",
  "A link is offered by Search iff the sum over the query words of their fuzzy distances to the link does not exceed the tolerance, independently of the order of query words.",
  "every query word list, link and tolerance",
  "Universal over words and links; the early-exit shortcuts are where it breaks.",
  [F+"rank.go: QueryDistance, GetSubqueryDistance"])
p("Search argument checks keep it from crashing",
  "Search rejects limits outside 1..99 and negative tolerance with an error and never panics for any query text over non-empty links.",
  "every query, limit, tolerance and link collection",
  "Panics hide in corner values (empty pattern, empty heap).",
  [B+"burl_backend.go: Search", F+"rank.go: Add", F+"approsearch.go: EditorDistanceRunes"])
p("Tree traversal visits every link once in document order",
  "ForEachLink calls the callback on the links of the tree in document order (depth first, body links before deeper ones as stored), each exactly once, until the callback returns false, and always terminates.",
  "every tree, every callback behaviour",
  "Trees are unbounded; the traversal is an explicit two-phase stack machine.",
  [L+"link_tree.go: ForEachLink", L+"node_count.go: DepthFirstQueue"])
p("Mention counts are exact",
  "For every node kept in a urlMentions reply, total is the number of links below that node in the source files that match the query; nodes without matching links are absent (except the root); matching links and headings keep their order and nesting.",
  "every source tree and every filter",
  "Unbounded trees and an explicit stack algorithm.",
  [L+"node_count.go: CountDescendants", L+"link_tree.go: Clone"])
p("The number of links in a reply never exceeds the limit",
  "For a non-negative countLimit the urlMentions reply contains at most countLimit links, every node's filtered field equals the number of links present below it in the reply, and a branch that is kept has at least one link.",
  "every source tree, query and non-negative limit (without integer overflow)",
  "Proportional integer rounding over arbitrary trees; off-by-one errors show only at particular ratios.",
  [L+"link_tree.go: TreeChildrenNode.LimitChildrenCount, TreeLeafNode.LimitChildrenCount", L+"node_count.go: FilterChildrenCount"])
p("Nothing is dropped when everything fits",
  "If the number of matching links does not exceed countLimit, the reply contains every matching link except repetitions of the same URL inside the same body.",
  "every source tree, query and sufficient limit",
  "Same: needs the arithmetic of the proportional split for all counts.",
  [L+"link_tree.go: LimitChildrenCount", L+"node_count.go: FilterChildrenCount"])
p("The limit is shared in favour of the branches with more matches",
  "When a node has more matching children than its share of the limit, the kept children are those with the largest match counts (earlier ones on ties), in their original order, and the shares given to kept children are positive and add up to exactly the node's share.",
  "every list of child counts and every positive share",
  "Universal over counts, sorting stability and rounding.",
  [L+"link_tree.go: TreeChildrenNode.LimitChildrenCount"])
p("No countLimit value crashes the backend",
  "urlMentions answers with a result or an error for every integer countLimit a client may send.",
  "every 64-bit integer countLimit and every source tree",
  "Needs all 2^64 limits, including negative ones and products that overflow.",
  [B+"burl_backend.go: UrlMentions", L+"link_tree.go: LimitChildrenCount"])
p("Queries never change the index",
  "Answering urlMentions or Search leaves the in-memory link tree unchanged, so the answer to a query depends only on the files and the query and not on which queries were served before or concurrently.",
  "every history of queries",
  "Histories are unbounded; sharing of slices and pointers makes accidental mutation possible.",
  [L+"link_tree.go: Clone", L+"node_count.go: CountDescendants, FilterChildrenCount"])
p("Org extraction attributes each link to its enclosing headings",
  "In the extracted tree the chain of headings above a link is the chain of headings that enclose the link in the Org outline.",
  "every Org file as a sequence of headings and links",
  "Documents are unbounded; stale slice contents appear only after particular sequences of levels.",
  [L+"extract_org.go: OrgLinkSource.Extract"])
p("Org extraction loses, invents and duplicates nothing and never panics",
  "For every Org file and filter the extracted tree contains exactly the accepted links, each once, in document order with its 1-based line number, and extraction does not panic whatever heading levels occur.",
  "every sequence of heading levels and links, every filter",
  "Slice re-slicing and a type assertion on the first child could panic on some unbounded history.",
  [L+"extract_org.go: OrgLinkSource.Extract", L+"link_tree.go: AddLink"])
p("A mentions reply can always be serialised",
  "Every successful urlMentions reply is serialised to JSON; the backend process does not crash on any Org file.",
  "every Org file and every query",
  "The crash depends on the document structure.",
  [L+"node_count.go: reflectFlatten, MarshalJSON", L+"extract_org.go: Extract"])
p("A file group keeps files apart, in order, and stops at the first error",
  "The tree for a list of files has one child per readable file with links, labelled by its path, in the order of the list; the first file that fails is the last one read and its error is reported.",
  "every list of files and every pattern of read failures",
  "Unbounded lists and failure positions.",
  [L+"link_source.go: ExtractLinksFromFile, ExtractLinksFromFileGroup"])
p("Only configured schemes are extracted from Org files",
  "Every link extracted from an Org file has one of the configured schemes followed by a colon.",
  "every Org file, the default scheme list and every other list of schemes",
  "All strings; operator precedence of a composed regexp is invisible to positive tests.",
  [L+"extract_org.go: reScheme, OrgLinkMatchIsUrl, UpdateRe"])
p("linkSet returns only links with a requested prefix",
  "Every URL returned by linkSet starts with one of the requested prefixes (with a colon appended to a bare scheme) and is written in a line of a source file, for Org and text sources alike; each URL is returned once.",
  "every file content and every valid prefix list",
  "Universal over texts and prefixes.",
  [L+"extract_org.go: MakeLinkSetBase, ExtractSet", L+"extract_txt.go: ExtractSet"])
p("linkSet prefixes cannot inject regular expression syntax",
  "For every valid prefix list the composed regular expression compiles and treats the prefixes as literal text; a prefix that is not a scheme name optionally followed by a colon and a single-line rest is refused with an error, as is an empty list (when at least one source file is configured).",
  "every list of strings sent by the client",
  "All strings, including every metacharacter combination.",
  [L+"extract_org.go: reSetPrefix, MakeLinkSetBase"])
p("linkSet refusals",
  "linkSet returns an error and reads no file when the method is disabled or more than 16 prefixes are given; with at most 16 valid prefixes its result is the union of the per-file sets in which each URL occurs once.",
  "every prefix list and file list",
  "Universal over request sizes and files.",
  [B+"burl_backend.go: LinkSet, LinkSetReal", L+"link_source.go: ExtractLinkSetFromFileGroup"])
p("Lines are split faithfully up to the scanner limit",
  "Line numbers reported with links count newline-terminated lines from 1 for every file whose lines are shorter than 65536 bytes; a longer line makes extraction report an error after delivering the links of the preceding lines rather than silently skipping text.",
  "every file content",
  "Needs inputs around an exact buffer boundary and unbounded line counts.",
  [L+"extract_org.go: Extract (bufio.Scanner)", L+"extract_txt.go: Extract"])
p("Plain-text extraction terminates and reports only URL-shaped words",
  "Text extraction terminates on every file; every reported link is a non-empty substring of a white-space separated word on the reported line that has a scheme, or a dotted domain, and is not only a scheme, only a top-level word or only a path.",
  "every text file",
  "Loop termination and a negative decision over all strings.",
  [L+"extract_txt.go: Extract", L+"urlmatch_txt.go: MatchIsUrl"])
p("visit opens only configured files",
  "A visit request runs the editor only if the requested path equals the path of one of the files given on the command line; otherwise it returns an error and starts no process.",
  "every requested path and line and every configuration",
  "All strings an extension could send.",
  [B+"burl_backend.go: Visit", "pkg/burl_emacs/emacs.go: VisitFile"])
p("No client data is passed to the editor except a checked URI, a configured path or a line number",
  "Every process started while serving a request is the configured editor client with the configured arguments followed by: one of two fixed Lisp expressions, an argument starting with org-protocol:, or --no-wait, an optional +N with N positive and a configured path. In particular no request can pass an option or Lisp code of its choice.",
  "every request and every behaviour of the editor process",
  "Universal over attacker-controlled strings.",
  ["pkg/burl_emacs/emacs.go: execEmacs, VisitFile, OrgProtocol", B+"burl_backend.go: Capture, Visit"])
p("capture reports success only if the editor accepted the URI",
  "capture answers success only when the org-protocol check, the frame preparation and the final call with the requested URI all succeeded, in this order; any failure stops the sequence and is reported as an error, with a distinguished error when the editor server is not running; a query carrying an error value asks for a preview and starts no process.",
  "every request and every sequence of editor outcomes",
  "Outcome sequences and request contents are unbounded.",
  [B+"burl_backend.go: Capture", "pkg/burl_emacs/emacs.go: OrgProtocol, CheckOrgProtocol, execEmacs"])
p("Concurrent requests do not mix editor arguments",
  "When several requests are served concurrently each editor process is started with the arguments of its own request.",
  "every number of concurrent requests and every interleaving",
  "A race on the shared backing array of a package-level slice; the schedule is not controllable in tests.",
  ["pkg/burl_emacs/emacs.go: execEmacs, UserArgs"])
p("Files are read once and every caller sees the completed result",
  "Under every schedule the source files are scanned at most once, no urlMentions or Search call is answered before the scan finished, and all calls see the same tree or the same error.",
  "every number of concurrent calls and every interleaving",
  "Schedules.",
  [B+"burl_backend.go: BurlBackend.once, initializer, UrlMentions, Search"])
p("hello advertises exactly what is configured",
  "hello succeeds iff the first org-protocol format offered by the extension has a non-empty version, echoes that version, and advertises visit and urlMentions iff source files are configured and linkSet iff moreover it is not disabled; an advertised linkSet is never refused as disabled.",
  "every list of offered formats and every configuration",
  "Unbounded lists of formats.",
  [B+"burl_backend.go: Hello, NewBurlBackendPtr, LinkSet"])
p("Generated files are replaced atomically",
  "At every crash point and after every I/O error the target path holds either its previous content or the complete new content, never a mixture or a prefix.",
  "every crash point, failure point, previous state and content",
  "Crash points.",
  ["pkg/burl_fileutil/fileutil.go: WriteFile"])
p("Without -force an existing different file is never touched",
  "Without force WriteFile never changes the content of an existing file; on an existing file it reports success only if the file already has exactly the requested content and an error if the content differs; it creates only missing files.",
  "every existing content and mode, every new content",
  "All contents, sizes at the internal buffer boundary.",
  ["pkg/burl_fileutil/fileutil.go: WriteFile"])
p("Success of WriteFile means the file has the requested content",
  "If WriteFile returns nil the file at path holds exactly the given bytes; if the file already has the content the call succeeds and changes nothing.",
  "every existing content, every new content, both force settings",
  "Only one exact length misbehaves.",
  ["pkg/burl_fileutil/fileutil.go: WriteFile"])
p("A generated wrapper is executable",
  "If WriteFile succeeds with an executable mode then the owner can read and execute the file at path.",
  "every existing permission and content",
  "512 permission values times all contents.",
  ["pkg/burl_fileutil/fileutil.go: WriteFile"])
p("Manifest path and name always agree",
  "If AsAbsFileName succeeds with extension .json then the file name of the returned absolute path is the returned name followed by the extension up to letter case, and with an explicit plain name option the returned name is that name; a manifest built from them is accepted by Init.",
  "every path, option and file system state",
  "All path strings.",
  ["pkg/burl_fileutil/fileutil.go: AsAbsFileName", W+"manifest.go: Init", B+"install.go: processInstallFlags"])
p("Manifest validation is exact",
  "Init succeeds iff exactly one of allowed_origins and allowed_extensions is non-empty, the name is non-empty, the executable path is absolute and the manifest path is - or a .json file named after the manifest; on success the type is stdio and on failure the manifest is unchanged.",
  "every manifest value",
  "All strings and lists.",
  [W+"manifest.go: Manifest.Init"])
p("Multi-value flags survive the trip through the generated command line",
  "Replaying ModifiedValues on a fresh flag with the same defaults gives the same Values without an error; Values is what the user asked for: the defaults followed by all values, or the values after the last reset.",
  "every sequence of flag occurrences and defaults",
  "Unbounded histories of a small state machine with aliased slices.",
  ["pkg/burl_util/multistring_flag.go: MultiStringFlag", B+"args.go: AsShellCommand"])
p("The wrapper starts the backend with the configuration it was generated from",
  "Parsing the command line produced by AsShellCommand (after shell unquoting) reproduces log file, linkSet switch, editor command and arguments, schemes and the ordered list of typed source files.",
  "every backend configuration reachable from a command line",
  "All strings including quotes, blanks and leading dashes.",
  [B+"args.go: AsShellCommand, AddBackendFlags", "pkg/burl_fileutil/escape_printf.go: EscapeShellArg", B+"install.go: processInstallFlags"])
p("The wrapper's error message is a well-formed frame",
  "If the backend executable is missing, the wrapper prints one frame whose header equals the byte length of the JSON error that follows.",
  "every backend path",
  "All path lengths and characters.",
  [B+"install.go: wrapper template"])
p("Install requests are refused before anything is written when they are inconsistent",
  "If more than one output is stdout, a manifest is requested together with a wrapper on stdout, or custom options are given without a wrapper path, nothing is written; without any install flag nothing is written and the backend starts; a wrapper is never written over the backend executable itself.",
  "every combination of install and backend options",
  "Combinatorial option space and arbitrary paths.",
  [B+"install.go: processInstallFlags"])
p("Add-on client settles each call once with its own answer",
  "In the example add-on each sendMessage promise is settled at most once, only by a response with its id or by a disconnect; responses with unknown or missing ids settle nothing; a successful backend result resolves the promise and removes it from the table.",
  "every sequence of calls, responses and disconnects",
  "Unbounded event histories.",
  ["examples/webextensions_addon/rpc_client.js: JsonRpcClient"])
p("burl_tool prints only links to the requested URL",
  "burl_tool URL FILE... reports only links equal to a variant of URL.",
  "every URL and file list",
  "All inputs.",
  ["cmd/burl_tool/burl_tool.go: mainWithGracefulShutdown"])
p("Positional and typed source arguments are kept in order with the right parser",
  "Each positional argument becomes one source, parsed as Org iff it ends with .org and as text otherwise, appended in order after the sources given by flags; Clone keeps the type and takes the new name.",
  "every argument list",
  "Unbounded lists.",
  [L+"flag.go: AddSourceArgs, MixedSrcTypeProxy.Set", L+"extract_org.go: Clone", L+"extract_txt.go: Clone"])
p("Scheme list is normalised without losing or reordering schemes",
  "MakeSchemeReStr removes one trailing colon per item, drops empty and repeated items and keeps first occurrences in order; UpdateRe rejects an empty result and on any error leaves the previous patterns in force.",
  "every list of scheme strings",
  "Unbounded lists.",
  [L+"extract_org.go: MakeSchemeReStr, UpdateRe"])
p("Generated manifests name a program that starts the backend with the requested options",
  "Every manifest written by the install options is valid, allows exactly the requested extensions, and names either the backend itself when no backend option was given or a wrapper with these options that was written successfully before; success is reported only if every requested file was written, and nothing is written after a failure.",
  "every combination of options, every state of the file system and every pattern of failures",
  "Combinatorial option space, arbitrary paths and failures.",
  [B+"install.go: processInstallFlags, writeManifest", B+"args.go: FixPaths, AsShellCommand, Customized"])
p("The limit is used up",
  "When no text body holds two matching links with the same URL, a urlMentions reply has exactly min(countLimit, number of matching links) links: dividing the limit among branches wastes none of it.",
  "every tree, every query and every limit that is not negative",
  "Depends on the rounding of every division down a tree of arbitrary depth.",
  [L+"link_tree.go: LimitChildrenCount", L+"node_count.go: FilterChildrenCount", B+"burl_backend.go: UrlMentions"])
p("Links of a line are found",
  "A line of an Org file made of text without links, links in double brackets with or without a description, links in angle brackets and plain links yields exactly these links, in order, each with its whole target and its description, except links in brackets whose target has no configured scheme; so do the lines of a file, with their line numbers.",
  "every line and file of that shape, of any length, and every list of schemes without special characters",
  "Depends on leftmost-first matching of a pattern with nested repetitions over lines of any length.",
  [L+"extract_org.go: MakeLinkReStr, OrgLinkMatchIsUrl, OrgLinkSource.Extract"])
p('linkSet finds every link with a requested prefix',
  'When linkSet succeeds, the addresses returned are exactly the addresses of the links of the source files that begin with a requested prefix: links in double brackets and in angle brackets in Org files, and addresses written as is in files of both kinds. No such link is missed, also when several links are on the same line, when prefixes overlap, and when links without a requested prefix stand in between.',
  'all lists of up to 16 accepted prefixes that begin with an ASCII letter, all sets of readable files whose lines are made of text without the beginnings of links and of links of the three forms',
  'The lines, the prefixes and the way prefixes overlap are arbitrary text; whether a backtracking pattern takes the whole link depends on all of them.',
  [L+"extract_org.go: MakeLinkSetBase, ExtractSet", L+"extract_txt.go: ExtractSet", L+"link_source.go: ExtractLinkSetFromFileGroup", B+"burl_backend.go: LinkSetReal, LinkSet"])
p('Addresses in text files are found whole',
  'In a text file an address that has a scheme, a domain name and a path, or a domain name with at least one dot and a path, or a scheme and a path, is found whole (not truncated and not split) wherever it stands among other text, e.g. in quotes, in parentheses or after an equals sign, and ordinary words produce no links. For a file that consists of such lines the tree has exactly the accepted addresses, in order and with the numbers of their lines.',
  'all lines of words, all addresses of the described shape with any number of segments of the path, all text around them without colons and without letters right after dots, all sets of letters, all filters',
  'Whether a greedy pattern with optional parts takes the whole address depends on every way to match and on the text after it; tests try a few strings.',
  [L+'extract_txt.go: Extract', L+'urlmatch_txt.go: MatchIsUrl, UrlPatternFull'])
p('Every request gets one reply, with its own identifier',
  'Every reply of the backend has the identifier of one of the requests and is an answer to that request: the result or the error of the called method, or an error if there is no such method or its parameters are wrong. No request gets two replies. When the input has ended and the backend has closed the connection, every request has got its reply, whatever the order in which methods have returned; a method that takes long does not hold replies to other requests.',
  'all sequences of requests with any identifiers, also repeated ones, all interleavings of goroutines, all results and durations of methods, all moments when the client stops reading',
  'Methods run in goroutines that finish in any order and compete for the output; tests exercise a few schedules.',
  ['pkg/webextensions/server.go: ReadRequestHeader, WriteResponse, NewServerCodecSplit, MappedServerCodecFactory', B+'burl_backend.go: main'])
p('Every call of the Go client ends once, with the answer to its own request',
  'A call made with the bundled Go client ends at most once, with what the first message with the number of the call tells, or with a failure of the connection when there was no such message. Different calls have different numbers, every request written is that of a call, at most one for a call, and is written unless writing fails. When the connection has ended all calls have ended after a bounded number of steps. After Close no new request is written. Connected to the backend, the result of a call is a result of the called method for the given parameter and its error is that of this request.',
  'all numbers of calls made concurrently, all interleavings of callers, the reader and Close, all messages from the other side, also wrong ones, all failures of reading and writing',
  'Callers, the reader and Close compete for a table of pending calls; tests exercise a few schedules.',
  ['pkg/webextensions/client.go: NewClientCodecSplit, WriteRequest, ReadResponseHeader, NewClientCommand', 'tools/burl_client/burl_client.go: mainWithGracefulShutdown'])
p('Methods get exactly what the parameters of a request say',
  'Parameters of a request are an array whose first element is the query. Every member of the query, whatever its place among other members, is what the method gets: addresses and the limit of urlMentions, the file and the line of visit, formats of hello, the address and the error of capture, prefixes of linkSet, words, limit and tolerance of search. Members that are absent or null are taken for empty, unknown members are ignored. A query with a member of a wrong type, e.g. a line number that is a string, a fraction or does not fit into 64 bits, is refused as a whole and the method is not called.',
  'all methods, all JSON values of any size and nesting without repeated names in one object, all orders of members, all unknown members',
  'Any JSON text may come from the browser; tests send a few well-formed queries.',
  ['pkg/burl_rpc/burl_rpc.go: SearchQuery, UrlMentionsQuery, UrlMentionsOptions, Location, HelloFormat, HelloQuery, CaptureData, CaptureQuery, LinkSetQuery', B+'burl_backend.go: Hello, Capture, UrlMentions, Visit, Search, LinkSet'])
p('What a session shows is written in the files',
  'From a JSON request to a JSON reply: every link object in a reply to urlMentions stands in the object of a source file whose line with the given number has a link to this address, and the address is a variant of one asked for in the request with the same identifier; there are at most as many of them as the request allows; if it allows as many as there are, then every file is shown with every address asked for that it has. The member total tells how many links asked for there are in all files. A result of visit means that the file is one of the sources, addresses in a result of linkSet begin with requested prefixes, are written in the files and occur once, a result of hello answers the first offered version of the protocol and tells what is configured, a result of capture tells whether a preview is needed or the link has been passed to the editor. Requests with limits that are not negative do not end the process and all are answered.',
  'all sequences of requests with any JSON parameters, all source files, all schedules of goroutines',
  'Combines decoding of any JSON, trees of any shape, any number of matches and concurrent execution.',
  [B+'burl_backend.go: UrlMentions, Visit, LinkSet, Hello, Capture, main', L+'node_count.go: MarshalJSON, CountDescendants, FilterChildrenCount', 'pkg/webextensions/server.go: ReadRequestHeader, WriteResponse'])
p('The command-line client sends the query it is given and prints the answer to it',
  'A command line of burl_client consists of the command of a backend with its arguments, two dashes and a query; exactly such a command is started, other command lines start nothing. A query mentions, visit, set, capture or hello is sent as a call of its method, and the method gets exactly the addresses, the file and the line, the prefixes or the captured address of the command line; later options of visit override earlier ones. Nothing is sent for other queries. What is printed is an answer of the backend to this query, so links printed by mentions are written in source files and are asked for, at most eight of them and all of them if there are not more, and what is printed by set has requested prefixes. Success is reported exactly if an answer has been printed and the backend has ended without an error. The program does not panic.',
  'all command lines, all words and numbers of arguments, all backends and source files',
  'Words of a command line are arbitrary and may look like options or separators; the answer depends on files of any size.',
  ['tools/burl_client/burl_client.go: callUrlMentions, callVisit, callCapture, callSet, callHello, mainWithGracefulShutdown'])
p('burl_tool prints what its command line asks for',
  'A command line of burl_tool consists of options -org FILE, -txt FILE and -set PREFIX, each in one or two words with one or two dashes, and of arguments; other command lines get the usage text. With prefixes all arguments are files, otherwise the first one is a URL; a file given as an argument is of Org if its name ends with .org, a file of an option is of the kind of the option; without any files the standard input is read. With prefixes the links of the files that have one of the prefixes are printed, each one once, or an error is reported and nothing is printed, exactly if a file can not be read or a prefix is wrong. A command line without arguments is refused. Without prefixes at most eight links of the files are printed as a tree, all of them if there are no more. The program ends without a crash.',
  'all command lines, all contents of files and failures to read them, all prefixes',
  'Words of a command line are arbitrary and may look like options; files are of any size.',
  ['cmd/burl_tool/burl_tool.go: MultiStringFlag, mainWithGracefulShutdown', L+'flag.go: AddSourceFlags, AddSourceArgs', L+'link_source.go: ExtractLinkSetFromFileGroup'])
p('The command line of the backend means what its options say',
  'A command line of burl_backend consists of options, each known by one of its names, written with one or two dashes, with its value in the same word after an equals sign or, unless it is a switch, in the next word, and of arguments; two dashes end options. It is accepted exactly if values of switches are truth values and no empty value, which drops defaults, is given to an option after another value unless the first one is empty; otherwise the program exits with the usage text. Of an option given several times the last value counts; for -scheme, -emacsarg and identifiers of extensions values are added to the defaults or replace them after an empty value. Sources are those of options -org and -txt in order, then arguments in order.',
  'all command lines: any words, any number and order of options, any values',
  'Words of a command line are arbitrary and may look like options; tests try a few.',
  [B+'args.go: AddBackendFlags', B+'install.go: createInstallFlags', B+'burl_backend.go: createGeneralFlags, mainWithGracefulShutdown', L+'flag.go: AddSourceFlags, AddSourceArgs', 'pkg/burl_util/multistring_flag.go: Set'])
p('A started backend serves what its command line says',
  'A backend serves requests exactly if its command line is accepted, neither help nor version nor generation of files is requested, the log can be opened and schemes are valid; then nothing has been written. It serves the files of the command line, advertises methods that need files exactly if there are some and linkSet unless it is disabled, finds in Org files links with the schemes of the command line or the default ones, calls the given editor with the given arguments. Help and version are printed whatever else is requested. Success with generation of files means that all requested ones have been written; a failure to write is reported and ends the program. A generated wrapper serves the same as the command line it was made from, whatever a browser passes to it, and so does a backend named in a manifest directly.',
  'all command lines, all file systems, all arguments passed by browsers, all contents of files',
  'Settings pass through flags, global variables, generated scripts and the browser; tests check pieces.',
  [B+'burl_backend.go: processGeneralFlags, NewBurlBackendPtr, mainWithGracefulShutdown', B+'install.go: processInstallFlags', L+'extract_org.go: UpdateRe'])

p('Closing the client ends the backend it has started',
  'A client started for a command runs the first word of the command with the other words as its arguments, or reports an error if there are no words or it can not be started. Close returns after a bounded number of steps of the client and the backend, and the backend has ended by then. Close reports no error only if the backend has ended with success and all requests that had been written have been carried out; the error of the process is reported only if it has ended so. If all calls have been answered when Close is called then it reports no error. Until Close is called the backend does not end unless a method ends it.',
  'all numbers of calls made concurrently, all interleavings of callers, the reader, Close and the backend, all capacities of pipes, all moments of Close',
  'Two processes and several goroutines compete; pipes may be full or closed at any moment.',
  ['pkg/webextensions/client.go: ClientCommand, Close, NewClientCommand', 'pkg/webextensions/frame.go: SplitFrameReadWriteCloser, Close'])

p('JSON texts say what was meant',
  'A text of a request or a reply is decoded to the value it says according to RFC 8259, whatever escapes its strings have: characters in UTF-8, two-character escapes, codes, pairs of surrogates. The text written for a value says this value, so what is written can be read again whatever version of the library the peer has, and different values have different texts. A text copied into another one, as an identifier of a request into the reply, still says the same. Bytes are decoded if and only if they are such a text; where the RFC leaves the meaning of a string open, bytes that are not UTF-8 and unpaired surrogates are replaced by U+FFFD one by one.',
  'all bytes; texts with any white space between tokens, nested at most 10000 deep; all values, with all strings and all numbers',
  'Escapes combine in unlimited ways, and the encoder and the decoder are different code.',
  [B+'burl_backend.go: mainWithGracefulShutdown', 'pkg/webextensions/server.go: NewServerCodec', 'pkg/webextensions/client.go: NewClientCodec'])
p('Sessions from bytes to bytes',
  'If texts of requests arrive in frames, in whatever portions, then all that the backend writes is frames with texts of replies. Each text is a reply to a request of its own, with the identifier of this request; a result tells about files, links and lines that are really there and that are asked for by the text of the request. When the input ends and the output is read, every request gets its reply. The peer gets these texts in whatever portions bytes arrive. Wherever the input is cut and whatever white space follows requests, nothing but replies to a beginning of the requests is written. For outlines that go deeper step by step no texts of requests end the backend.',
  'all sequences of texts of requests, with any escapes, other members, any case of letters in names of members, any identifiers; all splits of the stream; all interleavings of methods; all contents of files',
  'The way from bytes to bytes goes through frames, the scanner, the decoder, goroutines, methods and the encoder; tests see a few sessions.',
  [B+'burl_backend.go: mainWithGracefulShutdown, UrlMentions, Visit, LinkSet', 'pkg/webextensions/server.go: NewServerCodec, Read, Write', 'pkg/webextensions/frame.go: all'])

p('The add-on and the backend together',
  'Whatever calls an extension makes through the JavaScript client, over however many connections, the promise of a call is settled only by what is meant for it: it is resolved with the result of the called method for the argument of the call, which is right for the files of the user, or rejected with the error of this method, or rejected because a connection has been lost after the call. When the backend has answered all requests and its messages have been delivered, the promise has been settled.',
  'all histories of calls, messages and disconnects; all arguments; all splits of the streams and interleavings of methods in the backends; all contents of files',
  'It joins two programs in different languages with frames, JSON and concurrency between them; tests can not run through all histories.',
  ['examples/webextensions_addon/rpc_client.js: JsonRpcClient', B+'burl_backend.go: mainWithGracefulShutdown', 'pkg/webextensions/server.go: NewServerCodec'])

p('Files and output for people say what was meant',
  'A manifest that is written is an indented JSON text; a browser that reads it gets an object with the name, the description, the absolute path of the program, the type "stdio" and the extensions or origins requested on the command line, and nothing else. burl_tool prints an indented JSON text that says what links of the files are in the tree shown, or nothing if there are no links; with prefixes it prints the links of the files that have one of them, each one on a line of its own. Manifests for different programs are different.',
  'all command lines, all environments, all contents of files, all names; all versions of the JSON library with and without short escapes',
  'The texts are made by reindenting the output of an encoder; any name and any link may have quotes, control characters or bytes that are not UTF-8.',
  [B+'install.go: writeManifest', 'pkg/webextensions/manifest.go: Manifest', 'cmd/burl_tool/burl_tool.go: mainWithGracefulShutdown'])

p('The Go client and the backend together',
  'Whatever calls a program makes through the Go client, a call returns a result only if it is what its own method returns for its own argument, and an error of a method only if it is an error of its own method, even if the pipes have been cut at any byte. When the backend has carried out all requests and the pipes have been read, every call whose request has been written has got its answer.',
  'all numbers of calls made concurrently, all arguments, all splits of both streams into portions, all points where the streams are cut, all interleavings, all contents of files',
  'Both programs read frames with a decoder that may leave bytes in them; whether it does depends on sizes of messages and portions.',
  ['pkg/webextensions/client.go: NewClientCodec, WriteRequest, ReadResponseHeader', 'pkg/webextensions/server.go: NewServerCodec', B+'burl_backend.go: mainWithGracefulShutdown', 'tools/burl_client/burl_client.go: main'])

p('The text printed by the command-line client',
  'If a query of burl_client is answered then its standard output is an indented JSON text that says what the method called has returned for the query, up to the order of members; nothing is printed otherwise. Whoever reads the text printed for mentions sees links that are written in the files of the backend at these lines, with variants of the addresses on the command line, at most 8 of them, and all of them if there are no more. For set these are addresses from the files that begin with a prefix on the command line; for visit it is "true". The argument of hello may be any JSON text, what it says is sent: the last of members with the same name, sorted by names. The text printed does not depend on the order of members in the reply.',
  'all command lines, all contents of files, all splits and cuts of the streams between the client and the backend, all JSON texts of the argument; numbers within 2^53',
  'The reply goes through an untyped value that changes the order of members and the type of numbers; the way from the command line to the text crosses two processes.',
  ['tools/burl_client/burl_client.go: mainWithGracefulShutdown, callHello', 'pkg/webextensions/client.go: NewClientCodecSplit', B+'burl_backend.go: UrlMentions, Visit, LinkSet'])

p('A generated wrapper starts the backend',
  'A file generated for --wrapper is a script of /bin/sh in UTF-8. When it is run, it is replaced by the backend that generated it, with arguments that the backend reads as the settings given when the script was generated, with paths made absolute. If the backend can not be executed then nothing is executed and an error is reported. After a run that made a manifest a browser that follows the manifest starts the backend with these settings, directly or by the script.',
  'all command lines that generate files, all file systems, all paths of the backend, all settings',
  'The script is assembled from strings and quoted by another program; what it does is decided by the shell, so a test of the text says little.',
  [B+'install.go: processInstallFlags', B+'args.go: AsShellCommand', 'pkg/burl_fileutil/escape_printf.go: EscapeShellArg'])

p('The installation described in the manual',
  'burl_backend -manifest-firefox DIR, where DIR is a directory, writes exactly one file, DIR/io.github.maxnikulin.burl.json, with a manifest that names the program itself and the add-on LinkRemark, and reports success. With -manifest-chrome the manifest allows the origin of the extension for Chrome instead.',
  'all directories, given by absolute or relative paths with any dots and slashes; all paths of the program; all systems where the directory can be written',
  'The path is assembled from a working directory, an argument and constants; a test uses one directory.',
  [B+'install.go: processInstallFlags, writeManifest', 'pkg/burl_fileutil/fileutil.go: AsAbsFileName', 'pkg/version/version.go: all', 'README.org: Install'])

p('Addresses of a text file offered to a callback',
  'ExtractUrls reads a file word by word, where words are maximal runs of characters that are not white space of Unicode. The words read do not depend on how the file is cut into pieces by the system, also inside of characters, nor on whether the file is UTF-8; reading fails exactly if the file fails or a word and the white space after it take more than 65536 bytes. The callback is called for addresses in words in order. If it accepts all of them, they are those found by Extract in the same file. A refusal skips the rest of addresses of the same word only.',
  'all files of any bytes, all ways of cutting them into pieces, all callbacks, all sets of letters',
  'Only some of the boundaries of pieces fall into characters of several bytes; the callback may behave in any way.',
  ['pkg/burl_links/extract_txt.go: ExtractUrls, TxtLinkSource.Extract'])

p('The example backend',
  'Requests to the example backend are answered each once with the identifier of the request, in whatever order calls end: example.Sqrt with the square root of its parameter or, for negative numbers, with the error "square root of negative number"; example.Sleep with its parameter; requests for other methods and requests with other parameters with an error. The program does not end before its input ends, whatever bytes it gets. A call that sleeps does not delay others. example.Sleep sleeps for the number of milliseconds it is asked to.',
  'all sequences of requests, all parameters, all interleavings of calls, all splits of the input; any implementation of floating-point numbers',
  'The order of replies depends on the scheduler; the product of the time and a millisecond overflows for some numbers only.',
  ['examples/webextensions_backend/webextensions_example_backend.go: Sqrt, Sleep, mainWithGracefulShutdown', 'pkg/webextensions/server.go: NewServerCodec'])

p('The example client and the example backend',
  'The example client starts the command on its command line and prints two lines: the square root of 2 and that there is no square root of -2, whatever happens to the connection; a line tells that the call has failed if there is no answer. Whatever another program writes in place of the backend, a number that is printed is in its reply to this call. Without a command the usage is printed. The exit status is zero only if everything has been answered and the backend has ended successfully.',
  'all command lines, all systems, all interleavings, all splits and cuts of both streams',
  'Two processes and two pipes; a test sees one interleaving.',
  ['examples/webextensions_client/webextensions_example_client.go: mainWithGracefulShutdown, main', 'pkg/webextensions/client.go: NewClientCommand, Close'])

p('The menu of the example add-on',
  'Every click on an item of the menu of the example add-on is reported at most once, with the result or the error that its item stands for: the square root of 2, the error for -2, the time of the sleep, an error for an unknown item; or with an error of the connection. Reports do not depend on other clicks and on the order of replies. When the backend has answered, the click has been reported. Clicks are heard whenever the add-on runs.',
  'all sequences of clicks, messages and disconnects, all interleavings of calls in the backend',
  'Replies overtake each other; the handler is registered by an event that does not happen every time the add-on is started.',
  ['examples/webextensions_addon/background.js: all', 'examples/webextensions_addon/rpc_client.js: JsonRpcClient', 'examples/webextensions_backend/webextensions_example_backend.go: Sqrt, Sleep'])

p('Any bytes on the standard input',
  'Whatever bytes the backend reads, requests it serves are JSON texts of requests that stand in the input one after another, interrupted by headers of frames only. Its output is frames with JSON texts, each of them a reply to one of these requests, with its identifier and with what its method returns. When the session is over, each of these requests has got its reply unless the output is closed. A frame that does not begin with a JSON text of a request ends the session, whatever follows; requests before it are served. No bytes crash the backend.',
  'all sequences of bytes on the input, all splits of the input into portions and ways it ends, all interleavings of calls, all contents of files',
  'The decoder may leave a part of a frame to the next one and may find a text across a header; there is no end to malformed inputs.',
  ['pkg/webextensions/server.go: ReadRequestHeader, NewServerCodec', 'pkg/webextensions/frame.go: FrameReader', B+'burl_backend.go: mainWithGracefulShutdown'])

p('Any messages to the client of the example add-on',
  'Whatever values come as messages from a backend, the promise of a call is settled by the first message whose member id, the last one of several, is the number of the request, or by a disconnect before it; until then it is pending. It is resolved with the member result if this is not null, false, zero or an empty string; otherwise it is rejected with the member error, with the same exception; otherwise it is rejected as an invalid response. A message without the number of a posted request changes nothing.',
  'all JSON values as messages, also with repeated and missing members; all histories of calls, messages and disconnects',
  'A broken or hostile backend may send anything; a test sends a few responses.',
  ['examples/webextensions_addon/rpc_client.js: messageReceived, disconnected, sendMessage'])

p('Any bytes from a backend to a client in Go',
  'Whatever bytes come from a program in place of a backend and in whatever portions, replies that a client reads are JSON texts written there one after another, interrupted by headers of frames only, in this order and once each; their members count as encoding/json says. The result or the error of a call is that of the first of these replies with the number of the call that came after the number had been given. The command-line client prints nothing or a text of the result of the first reply with the number of its call, with no error in this reply.',
  'all byte streams and splittings into reads, all interleavings of calls and of the reading goroutine, all command lines',
  'A broken or hostile program may write anything, and replies may come before their calls; tests connect the client to the backend.',
  ['pkg/webextensions/client.go: clientCodec, ReadResponseHeader, NewClientCodecSplit', 'pkg/webextensions/frame.go: FrameReader', 'tools/burl_client/burl_client.go: mainWithGracefulShutdown'])

with open(os.path.join(os.path.dirname(__file__),"..","properties.jsonl"),"w") as f:
    for x in P: f.write(json.dumps(x,ensure_ascii=False)+"\n")
print(len(P)); [print(x["id"],x["title"]) for x in P]
