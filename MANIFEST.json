{
 "claims": [
  {
   "property": "C01",
   "status": "proved",
   "theorems": [
    "Burl.Frame.c01_roundtrip",
    "Burl.Frame.c01_wire",
    "Burl.Frame.c01_pieces"
   ],
   "note": "All message lists within the size limit, all chunkings of the pipe, all read buffer sizes."
  },
  {
   "property": "C02",
   "status": "proved",
   "theorems": [
    "Burl.Frame.c02_truncation",
    "Burl.Frame.c02_only_sent"
   ],
   "note": "Every cut point, every chunking."
  },
  {
   "property": "C03",
   "status": "proved",
   "theorems": [
    "Burl.Frame.c03_boundaries",
    "Burl.Frame.c03_unread_refused"
   ],
   "note": "Every history of ReadHeader/Read calls on every input; nothing is claimed after a fatal header error."
  },
  {
   "property": "C04",
   "status": "proved",
   "theorems": [
    "Burl.Frame.c04_limit"
   ],
   "note": "All 32-bit sizes."
  },
  {
   "property": "C05",
   "status": "proved",
   "theorems": [
    "Burl.Frame.c05_prefix_and_reset",
    "Burl.Frame.c05_success_complete",
    "Burl.Frame.c05_accepting_sink",
    "Burl.Frame.c05_session",
    "Burl.Frame.c05_pieces"
   ],
   "note": "Any failure point of the underlying writer, under the io.Writer contract."
  },
  {
   "property": "C06",
   "status": "proved",
   "theorems": [
    "Burl.Frame.c06_close"
   ],
   "note": "All outcomes of closing the two streams, all pending outputs."
  },
  {
   "property": "C07",
   "status": "proved",
   "theorems": [
    "Burl.Rpc.c07_no_interleaving",
    "Burl.Rpc.c07_broken_pipe",
    "Burl.Rpc.c07_browser_sees"
   ],
   "note": "Any number of goroutines, any schedule, any partial kernel writes, a pipe breaking at any moment."
  },
  {
   "property": "C08",
   "status": "partial",
   "theorems": [
    "Burl.Rpc.c08_session_partial",
    "Burl.Rpc.c08_json_session_partial",
    "Burl.Rpc.c08_last_partial",
    "Burl.Rpc.c08_newline_small_partial",
    "Burl.Rpc.c08_exact",
    "Burl.Rpc.c08_exact_unique",
    "Burl.Rpc.c08_clear_partial",
    "Burl.Rpc.c08_beginning",
    "Burl.Rpc.c08_reject",
    "Burl.Rpc.c08_violation",
    "Burl.Rpc.c08_violation_sizes"
   ],
   "note": "The code violates the property: c08_violation (512-byte request followed by the newline of the Go client ends the session). Proved when nothing follows the JSON value in its frame (browsers; white space between tokens is allowed), for every chunking; when only the last frame has something after its value, for every chunking; for small frames with trailing white space and no short reads. For frames of any sizes with trailing white space and no short reads c08_exact tells exactly which requests are served: all of them unless a frame and its value are on different sides of a size of the buffer (0, 512, 1536, 3584, ...), and c08_violation_sizes shows the violation for each of these sizes. For all frames with trailing white space, all chunkings and all truncated inputs: requests that are served are a beginning of those sent (c08_beginning)."
  },
  {
   "property": "C09",
   "status": "proved",
   "theorems": [
    "Burl.Rpc.c09_exact",
    "Burl.Rpc.c09_unmapped",
    "Burl.Rpc.c09_search_unreachable",
    "Burl.Rpc.Server.c09_message"
   ],
   "note": "All method name strings."
  },
  {
   "property": "C10",
   "status": "proved",
   "theorems": [
    "Burl.Url.c10_urlVariants_mem",
    "Burl.Url.c10_tail_order"
   ],
   "note": "All strings of runes."
  },
  {
   "property": "C11",
   "status": "proved",
   "theorems": [
    "Burl.Url.c11_self_mem",
    "Burl.Url.c11_http_https",
    "Burl.Url.c11_order_irrelevant"
   ],
   "note": "All strings of runes, every map order."
  },
  {
   "property": "C12",
   "status": "proved",
   "theorems": [
    "Burl.Fuzzy.c12_optimal",
    "Burl.Fuzzy.c12_optimum_exists",
    "Burl.Fuzzy.c12_result_is_optimal"
   ],
   "note": "All pairs of non-empty sequences over any symbol type. Empty inputs crash (c12_empty_word_panics, c12_empty_pattern_panics)."
  },
  {
   "property": "C13",
   "status": "proved",
   "theorems": [
    "Burl.Fuzzy.c13_zero_iff_substring",
    "Burl.Fuzzy.c13_bounded",
    "Burl.Fuzzy.c13_context"
   ],
   "note": "All pairs, all contexts."
  },
  {
   "property": "C14",
   "status": "proved",
   "theorems": [
    "Burl.Fuzzy.c14_top",
    "Burl.Fuzzy.c14_order_irrelevant",
    "Burl.Fuzzy.c14_words"
   ],
   "note": "All collections of non-empty links, all limits 1..99, any correct sort.Sort."
  },
  {
   "property": "C15",
   "status": "partial",
   "theorems": [
    "Burl.Fuzzy.c15_offered_within_tolerance",
    "Burl.Fuzzy.c15_search_partial",
    "Burl.Fuzzy.c15_exact_partial",
    "Burl.Fuzzy.c15_order_partial",
    "Burl.Fuzzy.c15_violation_case",
    "Burl.Fuzzy.c15_violation_order",
    "Burl.Fuzzy.c15_violation_bytes",
    "Burl.Fuzzy.c15_exact",
    "Burl.Fuzzy.c15_search"
   ],
   "note": "The code violates the equivalence (letter case, word order, byte lengths). Proved: what is offered, exactly, for all queries, links and tolerances (c15_exact, c15_search, relation Offered); offered links are within tolerance for all inputs; the equivalence for ASCII lower-case queries and links without upper-case letters."
  },
  {
   "property": "C16",
   "status": "proved",
   "theorems": [
    "Burl.Fuzzy.c16_no_panic"
   ],
   "note": "All queries, limits, tolerances and collections of non-empty links; an empty link crashes (c16_empty_link_panics)."
  },
  {
   "property": "C17",
   "status": "proved",
   "theorems": [
    "Burl.Tree.c17_forEachLink",
    "Burl.Tree.c17_all_links"
   ],
   "note": "All trees, all callbacks with state; termination included."
  },
  {
   "property": "C18",
   "status": "proved",
   "theorems": [
    "Burl.Tree.c18_counts",
    "Burl.Tree.c18_counted_part"
   ],
   "note": "All trees, queries and limits, every reply that is not a crash."
  },
  {
   "property": "C19",
   "status": "proved",
   "theorems": [
    "Burl.Tree.c19_limit"
   ],
   "note": "All trees with fewer than 2^31 matching links, all non-negative limits, every reply that is not a crash."
  },
  {
   "property": "C20",
   "status": "partial",
   "theorems": [
    "Burl.Tree.c20_all_kept_partial",
    "Burl.Tree.c20_firstByUrl_complete",
    "Burl.Tree.c20_firstByUrl_nodup",
    "Burl.Tree.c20_violation_overflow",
    "Burl.Tree.c20_one_body"
   ],
   "note": "The code violates the property for very large limits (multiplication overflow, c20_violation_overflow). Proved whenever matches times limit fits in 63 bits; c20_one_body gives the links of a reply for all limits when they are below one heading."
  },
  {
   "property": "C21",
   "status": "partial",
   "theorems": [
    "Burl.Tree.c21_shared_partial",
    "Burl.Tree.c20_violation_overflow"
   ],
   "note": "Proved for every tree and limit whenever matches times limit fits in 63 bits; the overflow breaks it beyond."
  },
  {
   "property": "C22",
   "status": "partial",
   "theorems": [
    "Burl.Tree.c22_answered_partial",
    "Burl.Tree.c22_ends",
    "Burl.Tree.c22_violation_negative",
    "Burl.Tree.c22_violation_overflow",
    "Burl.Tree.c22_exact",
    "Burl.Tree.c22_one_body",
    "Burl.Backend.c62_text",
    "Burl.Tree.c22_violation_large",
    "Burl.Backend.c62_negative"
   ],
   "note": "The code violates the property: every negative limit crashes the backend for every query with a match, and very large ones may. Proved for the other limits; c22_exact is the condition of a crash (iff) wherever the product of matches and limit does not overflow, c22_one_body is this condition for all limits when the links are below the same heading."
  },
  {
   "property": "C23",
   "status": "proved",
   "theorems": [
    "Burl.Tree.c23_index_unchanged",
    "Burl.Tree.c23_same_answer",
    "Burl.Tree.c23_reply_unique",
    "Burl.Tree.c23_concurrent_index",
    "Burl.Tree.c23_concurrent_answer",
    "Burl.Tree.c23_concurrent_crash"
   ],
   "note": "All histories of queries and all interleavings of loop iterations of any number of calls."
  },
  {
   "property": "C24",
   "status": "partial",
   "theorems": [
    "Burl.Extract.c24_sections_partial",
    "Burl.Extract.c24_regular_partial",
    "Burl.Extract.c24_above",
    "Burl.Extract.c24_index",
    "Burl.Extract.c24_above_partial",
    "Burl.Extract.c24_index_partial",
    "Burl.Extract.c24_enclosing",
    "Burl.Extract.c24_innermost",
    "Burl.Extract.c24_no_gap",
    "Burl.Extract.c24_labels",
    "Burl.Links.c24_heading_regexp",
    "Burl.Extract.c24_violation_stale",
    "Burl.Extract.c24_violation_trailing_blank",
    "Burl.Extract.c24_violation_deep"
   ],
   "note": "The code violates the property (stale headings after a skipped level, headings followed by blanks, more than ten levels). Proved for outlines without gaps and tidy lines; for all lines and any levels the labels above every link are described exactly with headings as the code reads them (Starred: stars, white space, title without white space around it), and all the enclosing headings are among them."
  },
  {
   "property": "C25",
   "status": "proved",
   "theorems": [
    "Burl.Extract.c25_links",
    "Burl.Extract.c25_lineNo"
   ],
   "note": "All sequences of lines, every function finding links in a line, every filter."
  },
  {
   "property": "C26",
   "status": "partial",
   "theorems": [
    "Burl.Extract.c26_serialised_partial",
    "Burl.Extract.c26_serialised_or_crash",
    "Burl.Extract.c26_violation_skipped_level",
    "Burl.Backend.c26_crash_partial",
    "Burl.Backend.c26_crash_gap",
    "Burl.Backend.c26_crash_exact",
    "Burl.Backend.c62_harmless"
   ],
   "note": "The code violates the property: a skipped heading level crashes serialisation. Proved for all files with outlines going deeper step by step. c26_crash_exact gives the queries that crash exactly (iff), for all lines and limits that allow all links: those that ask for a link below a gap in levels."
  },
  {
   "property": "C27",
   "status": "proved",
   "theorems": [
    "Burl.Extract.c27_group",
    "Burl.Extract.c27_untilFailure",
    "Burl.Extract.c27_init",
    "Burl.Extract.c27_init_error"
   ],
   "note": "All lists of files and failures."
  },
  {
   "property": "C28",
   "status": "partial",
   "theorems": [
    "Burl.Links.c28_scheme_partial",
    "Burl.Links.c28_file_partial",
    "Burl.Links.c28_without_brackets",
    "Burl.Links.c28_configured_partial",
    "Burl.Links.c28_configured_one",
    "Burl.Links.c28_exact",
    "Burl.Links.c28_bracket",
    "Burl.Links.c28_violation",
    "Burl.Links.c28_violation_plus"
   ],
   "note": "The code violates the property for links in double brackets (c28_violation: the anchor of ^doi|https?|mid: binds only the first alternative) and for schemes with a plus, such as svn+ssh (c28_violation_plus). Proved for angle and plain links of every line, for lines without double brackets, and in full when a single literal scheme is configured. c28_exact, c28_bracket: what is reported for links in double brackets with the default schemes, exactly."
  },
  {
   "property": "C29",
   "status": "proved",
   "theorems": [
    "Burl.Links.c29_prefix",
    "Burl.Links.c29_written"
   ],
   "note": "All file contents, kinds of sources and prefix lists; also: the method never crashes."
  },
  {
   "property": "C30",
   "status": "proved",
   "theorems": [
    "Burl.Links.c30_literal",
    "Burl.Links.c30_refused",
    "Burl.Links.c30_no_sources"
   ],
   "note": "All lists of strings; the accepted prefixes are characterised exactly. Refusal needs at least one source file (c30_no_sources: without sources the prefixes are not looked at)."
  },
  {
   "property": "C31",
   "status": "proved",
   "theorems": [
    "Burl.Links.c31_refused",
    "Burl.Links.c31_union",
    "Burl.Links.c31_opened",
    "Burl.Links.c31_exact"
   ],
   "note": "All prefix lists, lists of files and orders of map keys."
  },
  {
   "property": "C32",
   "status": "proved",
   "theorems": [
    "Burl.Scan.c32_lines",
    "Burl.Scan.c32_long",
    "Burl.Scan.c32_lines_exist",
    "Burl.Scan.c32_pieces_irrelevant",
    "Burl.Scan.c32_org",
    "Burl.Scan.c32_txt"
   ],
   "note": "All file contents and all ways the operating system cuts them into pieces; the buffer of bufio.Scanner is modelled."
  },
  {
   "property": "C33",
   "status": "proved",
   "theorems": [
    "Burl.Links.c33_terminates",
    "Burl.Links.c33_words",
    "Burl.Links.c33_not_shape",
    "Burl.Scan.c33_bytes"
   ],
   "note": "All sequences of lines, every set of letters that has no colon (and no slash for the last part). c33_bytes: words of lines that are not UTF-8."
  },
  {
   "property": "C53",
   "status": "proved",
   "theorems": [
    "Burl.Links.c53_normalised",
    "Burl.Links.c53_members",
    "Burl.Links.c53_update"
   ],
   "note": "All lists of strings."
  },
  {
   "property": "C34",
   "status": "proved",
   "theorems": [
    "Burl.Emacs.c34_refused",
    "Burl.Emacs.c34_visit",
    "Burl.Emacs.c34_success",
    "Burl.Emacs.c34_exact",
    "Burl.Emacs.c34_failure"
   ],
   "note": "Every path, line, configuration and behaviour of the editor."
  },
  {
   "property": "C35",
   "status": "proved",
   "theorems": [
    "Burl.Emacs.c35_processes",
    "Burl.Emacs.c35_no_options",
    "Burl.Emacs.c35_lisp"
   ],
   "note": "Any sequence of requests served one at a time and any editor; for requests served at the same time see C37."
  },
  {
   "property": "C36",
   "status": "proved",
   "theorems": [
    "Burl.Emacs.c36_success",
    "Burl.Emacs.c36_failure",
    "Burl.Emacs.c36_preview",
    "Burl.Emacs.c36_answers",
    "Burl.Emacs.c36_in_turn"
   ],
   "note": "Requests served one at a time (see C37 for concurrent ones)."
  },
  {
   "property": "C37",
   "status": "partial",
   "theorems": [
    "Burl.Emacs.c37_partial",
    "Burl.Emacs.c37_violation",
    "Burl.Emacs.c37_sequential"
   ],
   "note": "The code violates the property with the default configuration: append writes into the spare capacity of the shared slice of user arguments. Proved for all interleavings when the capacity leaves no room behind the fixed arguments; when there is room a schedule of two captures is exhibited in which both succeed and one URI is lost."
  },
  {
   "property": "C38",
   "status": "proved",
   "theorems": [
    "Burl.Backend.c38_once",
    "Burl.Backend.c38_complete",
    "Burl.Backend.c38_result",
    "Burl.Backend.c38_same",
    "Burl.Backend.c38_stable",
    "Burl.Backend.c38_refused",
    "Burl.Backend.c38_no_deadlock"
   ],
   "note": "sync.Once is modelled by its steps; every number of calls and every interleaving, any result of the scan."
  },
  {
   "property": "C39",
   "status": "proved",
   "theorems": [
    "Burl.Backend.c39_succeeds",
    "Burl.Backend.c39_refused",
    "Burl.Backend.c39_reply",
    "Burl.Backend.c39_linkSet",
    "Burl.Backend.c39_disabled"
   ],
   "note": ""
  },
  {
   "property": "C40",
   "status": "proved",
   "theorems": [
    "Burl.File.c40_atomic",
    "Burl.File.c40_entry",
    "Burl.File.c40_error",
    "Burl.File.c40_others",
    "Burl.File.c40_no_litter",
    "Burl.File.c40_no_panic"
   ],
   "note": "Every system call may fail, a write may stop after any prefix, the process may be killed between any two effects. A crash of the machine (no fsync) and other writers are not modelled."
  },
  {
   "property": "C41",
   "status": "proved",
   "theorems": [
    "Burl.File.c41_unchanged",
    "Burl.File.c41_differs",
    "Burl.File.c41_keeps_files"
   ],
   "note": "Every failure pattern and crash point. The error for an identical file of exactly 4096 bytes is under C42."
  },
  {
   "property": "C42",
   "status": "partial",
   "theorems": [
    "Burl.File.c42_written_partial",
    "Burl.File.c42_same_partial",
    "Burl.File.c42_stdout",
    "Burl.File.c42_violation_prefix",
    "Burl.File.c42_violation_exact",
    "Burl.File.c42_violation_empty",
    "Burl.File.c42_outcome",
    "Burl.File.c42_ends",
    "Burl.File.c42_goes_on",
    "Burl.File.c42_succeeds",
    "Burl.File.c42_exact",
    "Burl.File.c42_content"
   ],
   "note": "The code violates the property when exactly 4096 bytes are requested: with force a longer file with this prefix is taken for an identical one, without force an identical file is refused; an existing empty file is always an error. Proved for all other contents. c42_exact gives the state after every successful call, c42_content the condition under which the content is the requested one (iff)."
  },
  {
   "property": "C43",
   "status": "partial",
   "theorems": [
    "Burl.File.c43_written",
    "Burl.File.c43_executable_partial",
    "Burl.File.c43_violation",
    "Burl.File.c43_exact"
   ],
   "note": "The code violates the property: an identical file with mode 0644 is left as it is and the call succeeds. Proved for files that are created or replaced and for identical ones with neither or both of the two permissions. c43_exact: the owner may read and execute the file if and only if it was not one of these."
  },
  {
   "property": "C44",
   "status": "partial",
   "theorems": [
    "Burl.File.c44_agree",
    "Burl.File.c44_name",
    "Burl.File.c44_accepted_partial",
    "Burl.File.c44_accepted_named",
    "Burl.File.c44_plain",
    "Burl.File.c44_exact",
    "Burl.File.c44_violation"
   ],
   "note": "Agreement of path and name is proved in full; acceptance by Init fails for a file called .json, whose name is empty, and is proved for all others."
  },
  {
   "property": "C45",
   "status": "proved",
   "theorems": [
    "Burl.File.c45_iff",
    "Burl.File.c45_effect"
   ],
   "note": "All manifests; case of letters is that of ASCII."
  },
  {
   "property": "C46",
   "status": "proved",
   "theorems": [
    "Burl.Args.c46_values",
    "Burl.Args.c46_refused",
    "Burl.Args.c46_replay",
    "Burl.Args.c46_modified"
   ],
   "note": "All defaults and all sequences of occurrences."
  },
  {
   "property": "C47",
   "status": "partial",
   "theorems": [
    "Burl.Args.c47_round_trip",
    "Burl.Args.c47_paths",
    "Burl.Args.c47_printable_partial",
    "Burl.Args.c47_violation"
   ],
   "note": "Every command line and every result of FixPaths, for any quoting the shell reads back; instantiated with the quoting of GNU printf for printable characters. The property fails with dash for control characters: printf writes $'\\n', which is not a quoting of that shell."
  },
  {
   "property": "C48",
   "status": "partial",
   "theorems": [
    "Burl.Args.c48_frame_partial",
    "Burl.Args.c48_ascii_partial",
    "Burl.Args.c48_violation_long",
    "Burl.Args.c48_violation_utf8",
    "Burl.Args.c48_violation_control",
    "Burl.Args.c48_exact",
    "Burl.Args.c48_exact_chars"
   ],
   "note": "The code violates the property for paths longer than 208 bytes (proved for all of them up to the limit on paths), for characters of several bytes when the shell counts characters, and for control characters. Proved for the other paths. c48_exact and c48_exact_chars give the paths with a well-formed message exactly (iff), for shells that count bytes and characters."
  },
  {
   "property": "C49",
   "status": "partial",
   "theorems": [
    "Burl.Args.c49_none",
    "Burl.Args.c49_refused",
    "Burl.Args.c49_exe_partial",
    "Burl.Args.c54_exact",
    "Burl.Args.c49_violation"
   ],
   "note": "Refusals are proved in full. The wrapper never has the path of the backend, but the path of the wrapper is not resolved: with a symbolic link in its directory part and -force the backend is replaced by a script that executes itself."
  },
  {
   "property": "C52",
   "status": "proved",
   "theorems": [
    "Burl.Args.c52_positional",
    "Burl.Args.c52_flags",
    "Burl.Args.c52_command_line",
    "Burl.Args.c52_dashes",
    "Burl.Args.c52_clone"
   ],
   "note": "All argument lists."
  },
  {
   "property": "C54",
   "status": "proved",
   "theorems": [
    "Burl.Args.c54_program",
    "Burl.Args.c54_settings",
    "Burl.Args.c54_manifest",
    "Burl.Args.c54_complete",
    "Burl.Args.c54_stops",
    "Burl.Args.c54_paths",
    "Burl.Args.c54_exact",
    "Burl.Args.c54_wrapper_alone"
   ],
   "note": "All options; the file system may answer anything and change between the calls, any call of WriteFile may fail."
  },
  {
   "property": "C50",
   "status": "partial",
   "theorems": [
    "Burl.Js.c50_settled",
    "Burl.Js.c50_ids",
    "Burl.Js.c50_once",
    "Burl.Js.c50_unsent",
    "Burl.Js.c50_sent",
    "Burl.Js.c50_unknown",
    "Burl.Js.c50_resolved",
    "Burl.Js.c50_live",
    "Burl.Js.c50_meaning_partial",
    "Burl.Js.c50_violation"
   ],
   "note": "Each promise is settled once, by the first response with its identifier or the first disconnect, for every history of events. Fails for results 0, false, an empty string and null (c50_violation): the promise is rejected and stays in the table."
  },
  {
   "property": "C51",
   "status": "partial",
   "theorems": [
    "Burl.Tool.c51_printed_partial",
    "Burl.Tool.c51_total",
    "Burl.Tool.c51_usage",
    "Burl.Tool.c51_violation",
    "Burl.Tool.c51_violation_any"
   ],
   "note": "The tool prints a part of the tree of the files with at most eight links and reports the first failure. The property fails: variants of the URL are computed and dropped, so links are not restricted to the URL."
  },
  {
   "property": "C55",
   "status": "partial",
   "theorems": [
    "Burl.Tree.c55_used_partial",
    "Burl.Tree.c55_no_repetitions",
    "Burl.Tree.c20_violation_overflow",
    "Burl.Tree.c20_one_body"
   ],
   "note": "Proved for every tree whenever matches times limit fits in 63 bits; beyond that the multiplication overflows (c20_violation_overflow)."
  },
  {
   "property": "C56",
   "status": "proved",
   "theorems": [
    "Burl.Links.c56_line",
    "Burl.Links.c56_configured",
    "Burl.Links.c56_file"
   ],
   "note": "All lines of the shape given by the grammar Laid; the default schemes and any schemes without special characters."
  },
  {
   "property": "C57",
   "status": "proved",
   "theorems": [
    "Burl.Links.c57_lines",
    "Burl.Links.c57_request"
   ],
   "note": "All lines of the shape given by the grammar SetLaid; valid prefixes that begin with an ASCII letter."
  },
  {
   "property": "C58",
   "status": "proved",
   "theorems": [
    "Burl.Links.c58_word",
    "Burl.Links.c58_line",
    "Burl.Links.c58_file"
   ],
   "note": "The shapes of addresses and the lines are described in Links/Spec.lean (TextUrl, WordLaid, LineLaid). Domain names with a dot at the end are not among the described addresses."
  },
  {
   "property": "C59",
   "status": "proved",
   "theorems": [
    "Burl.Rpc.Server.c59_replies",
    "Burl.Rpc.Server.c59_complete",
    "Burl.Rpc.Server.c59_distinct",
    "Burl.Rpc.Server.c59_progress",
    "Burl.Rpc.Server.c59_ends"
   ],
   "note": "All schedules. A result that can not be written as JSON gets no reply; methods that panic end the process (modelled as a crash)."
  },
  {
   "property": "C60",
   "status": "proved",
   "theorems": [
    "Burl.Rpc.Client.c60_once",
    "Burl.Rpc.Client.c60_outcome",
    "Burl.Rpc.Client.c60_numbers",
    "Burl.Rpc.Client.c60_requests",
    "Burl.Rpc.Client.c60_heard",
    "Burl.Rpc.Client.c60_progress",
    "Burl.Rpc.Client.c60_ends",
    "Burl.Rpc.Client.c60_closed",
    "Burl.Rpc.Client.c60_answers"
   ],
   "note": "All schedules. A message without an identifier is taken for that of the first call and is lost if it arrives before this call (c60_early_message); a result that does not fit the variable for the reply ends the connection for all calls."
  },
  {
   "property": "C61",
   "status": "proved",
   "theorems": [
    "Burl.Backend.c61_exact",
    "Burl.Backend.c61_given_unique",
    "Burl.Backend.c61_given_plain",
    "Burl.Backend.c61_argument",
    "Burl.Backend.c61_unique",
    "Burl.Backend.c61_mentions",
    "Burl.Backend.c61_mentions_default",
    "Burl.Backend.c61_visit",
    "Burl.Backend.c61_visit_exact",
    "Burl.Backend.c61_search_exact",
    "Burl.Backend.c61_capture_exact",
    "Burl.Backend.c61_linkSet_exact",
    "Burl.Backend.c61_mentions_exact",
    "Burl.Backend.c61_hello_exact",
    "Burl.Backend.c61_linkSet_repeated",
    "Burl.Backend.c61_mentions_repeated"
   ],
   "note": "JSON values, not their text. Names are compared ignoring letter case. c61_exact is for all parameters, members may be repeated in any order (relation Given); c61_argument is a simpler reading (relation Params) for objects without repeated members. An element of a list that is null is what an earlier list with the same name had in its place, as in the library."
  },
  {
   "property": "C62",
   "status": "partial",
   "theorems": [
    "Burl.Backend.c62_sound",
    "Burl.Backend.c62_limit",
    "Burl.Backend.c62_complete",
    "Burl.Backend.c62_total_partial",
    "Burl.Backend.c62_violation_total",
    "Burl.Backend.c62_total_exact",
    "Burl.Backend.c62_filtered",
    "Burl.Backend.c26_crash_exact",
    "Burl.Backend.c62_visit",
    "Burl.Backend.c62_linkSet",
    "Burl.Backend.c62_hello",
    "Burl.Backend.c62_capture",
    "Burl.Backend.c62_session",
    "Burl.Backend.c62_says",
    "Burl.Backend.c62_says_links",
    "Burl.Backend.c62_says_refused",
    "Burl.Backend.c62_says_session",
    "Burl.Backend.c62_result_partial",
    "Burl.Backend.c62_every_request_partial",
    "Burl.Backend.c62_says_every_request_partial",
    "Burl.Backend.c62_harmless",
    "Burl.Backend.c62_result",
    "Burl.Backend.c62_negative",
    "Burl.Backend.c62_negative_silent",
    "Burl.Backend.c62_text",
    "Burl.Backend.c62_text_answered",
    "Burl.Rpc.Server.c59_crash"
   ],
   "note": "Soundness, the limit and completeness hold for all files and requests (numbers of links below 2^31, products with the limit below 2^63). The total is wrong when the limit leaves one file of several (c62_violation_total); proved when the limit allows all links; c62_total_exact tells what the number is in every reply. No crash and an answer to every request: proved for outlines without skipped levels and limits that are not negative, see C26 and C22 for the violations. c62_harmless, for all files and limits: a query returns and does not crash unless all files are readable, links are asked for, and the limit is negative, overflows, or a link is below a gap in levels; c62_negative is an equivalence."
  },
  {
   "property": "C63",
   "status": "partial",
   "theorems": [
    "Burl.Tool.Client.c63_split",
    "Burl.Tool.Client.c63_started",
    "Burl.Tool.Client.c63_query",
    "Burl.Tool.Client.c63_sends",
    "Burl.Tool.Client.c63_helloText",
    "Burl.Tool.Client.c63_visit_file",
    "Burl.Tool.Client.c63_visit_exact",
    "Burl.Tool.Client.c63_number",
    "Burl.Tool.Client.c63_called",
    "Burl.Tool.Client.c63_reply",
    "Burl.Tool.Client.c63_given",
    "Burl.Tool.Client.c63_says",
    "Burl.Tool.Client.c63_capture",
    "Burl.Tool.Client.c63_capture_data",
    "Burl.Tool.Client.c63_hello",
    "Burl.Tool.Client.c63_hello_any",
    "Burl.Tool.Client.c63_mentions",
    "Burl.Tool.Client.c63_mentions_all",
    "Burl.Tool.Client.c63_visit",
    "Burl.Tool.Client.c63_set",
    "Burl.Tool.Client.c63_done",
    "Burl.Tool.Client.c63_no_crash_partial",
    "Burl.Tool.Client.c63_violation_crash",
    "Burl.Tool.Client.c63_violation_line"
   ],
   "note": "The backend is joined through bytes (C72). Two dashes twice at the beginning cause a panic (c63_violation_crash); it is proved that there is no panic otherwise. A line number with zeros before it is read as octal (c63_violation_line); decimal numbers without them are proved to be sent as they are."
  },
  {
   "property": "C64",
   "status": "partial",
   "theorems": [
    "Burl.Tool.Line.c64_refused",
    "Burl.Tool.Line.c64_help",
    "Burl.Tool.Line.c64_unique",
    "Burl.Tool.Line.c64_set",
    "Burl.Tool.Line.c64_set_links",
    "Burl.Tool.Line.c64_tree_partial",
    "Burl.Tool.Line.c64_total",
    "Burl.Tool.Line.c64_no_arguments"
   ],
   "note": "Links of a tree are not restricted to the URL, see C51. Exactness of the set is proved for lines of the grammar of C57."
  },
  {
   "property": "C65",
   "status": "proved",
   "theorems": [
    "Burl.Backend.Line.c65_accepted",
    "Burl.Backend.Line.c65_refused",
    "Burl.Backend.Line.c65_settings"
   ],
   "note": "Command lines are described by the relation Written (options in any of their forms, then arguments), settings by the structure Means; both are independent of the parser."
  },
  {
   "property": "C66",
   "status": "partial",
   "theorems": [
    "Burl.Backend.Main.c66_serves",
    "Burl.Backend.Main.c66_starts",
    "Burl.Backend.Main.c66_info",
    "Burl.Backend.Main.c66_refused",
    "Burl.Backend.Main.c66_simple",
    "Burl.Backend.Main.c66_org_partial",
    "Burl.Backend.Main.c66_txt",
    "Burl.Backend.Main.c66_hello",
    "Burl.Backend.Main.c66_made",
    "Burl.Backend.Main.c66_write_failed",
    "Burl.Backend.Main.c66_wrapper",
    "Burl.Backend.Main.c66_violation_browser",
    "Burl.Links.c28_violation_plus"
   ],
   "note": "Violated for a backend named in a manifest directly: arguments passed by a browser are taken for files (c66_violation_browser). Proved for wrappers and direct command lines; links of Org files are those of C56 for schemes without special characters. A scheme with a plus is taken for a pattern, its links are not found (c28_violation_plus)."
  },
  {
   "property": "C67",
   "status": "proved",
   "theorems": [
    "Burl.Rpc.Command.c67_command",
    "Burl.Rpc.Command.c67_returns",
    "Burl.Rpc.Command.c67_result",
    "Burl.Rpc.Command.c67_exact",
    "Burl.Rpc.Command.c67_clean",
    "Burl.Rpc.Command.c67_alive",
    "Burl.Rpc.Command.c67_lost"
   ],
   "note": "Transition system of the client, two pipes and the backend; every step after Close decreases a measure. c67_lost shows that requests may be lost if Close is called while calls are pending."
  },
  {
   "property": "C68",
   "status": "proved",
   "theorems": [
    "Burl.JsonText.c68_decode",
    "Burl.JsonText.c68_encode",
    "Burl.JsonText.c68_roundtrip",
    "Burl.JsonText.c68_injective",
    "Burl.JsonText.c68_copied",
    "Burl.JsonText.c68_unambiguous",
    "Burl.JsonText.c68_exact",
    "Burl.JsonText.c68_refused",
    "Burl.JsonText.c68_string_unique"
   ],
   "note": "Texts are trees of tokens (Rpc.Spec.Json), their meaning is the relation Means; both are independent of the encoder and the decoder. White space is allowed between tokens. Every JSON text has a meaning and nothing else is decoded (c68_exact, c68_refused): unpaired surrogates and bytes that are not UTF-8, which the RFC leaves open, are U+FFFD."
  },
  {
   "property": "C69",
   "status": "partial",
   "theorems": [
    "Burl.JsonText.c69_requests",
    "Burl.JsonText.c69_session",
    "Burl.JsonText.c69_complete",
    "Burl.JsonText.c69_received",
    "Burl.JsonText.c69_right",
    "Burl.JsonText.c69_says",
    "Burl.JsonText.c69_says_refused",
    "Burl.JsonText.c69_sendable",
    "Burl.JsonText.c69_requests_beginning",
    "Burl.JsonText.c69_beginning",
    "Burl.JsonText.c69_refused",
    "Burl.JsonText.c69_every_request_partial",
    "Burl.JsonText.c69_served"
   ],
   "note": "Sessions are proved from bytes to bytes. That no requests end the process is proved for all files and all limits that are not negative and do not overflow, unless a query asks for a link below a gap in levels of headings (c69_served); see C26 and C80 for the violation otherwise. Members of a request may be repeated; its text is at most 2^30 bytes. Texts that are not requests end the session (c69_refused)."
  },
  {
   "property": "C70",
   "status": "proved",
   "theorems": [
    "Burl.Addon.c70_fair",
    "Burl.Addon.c70_answered"
   ],
   "note": "Composition of C50 and C69. How messages reach the client is the relation Linked: they are values of texts in the output of a backend that has been sent the requests posted before. The results that the client rejects (C50) are not among results of this backend."
  },
  {
   "property": "C71",
   "status": "partial",
   "theorems": [
    "Burl.JsonText.c71_layout",
    "Burl.JsonText.c71_text",
    "Burl.JsonText.c71_read",
    "Burl.Args.c71_manifest",
    "Burl.Tool.Line.c71_tool_exact",
    "Burl.Tool.Line.c71_tool_partial",
    "Burl.Tool.Line.c71_crash",
    "Burl.Tool.Line.c71_printed",
    "Burl.Tool.Line.c71_set",
    "Burl.Tool.Line.c71_silent",
    "Burl.Args.c71_violation_bytes",
    "Burl.JsonText.c71_any_bytes",
    "Burl.JsonText.c71_replaced",
    "Burl.JsonText.c71_read_bytes",
    "Burl.Tool.Line.c71_violation_skipped_level"
   ],
   "note": "burl_tool crashes instead of printing if a link shown is below a gap in levels of headings (c71_violation_skipped_level; c71_tool_exact and c71_crash tell when; c71_printed has all other files); bytes that are not UTF-8 are replaced by U+FFFD (c71_any_bytes, for all bytes), so manifests for different programs may be the same (c71_violation_bytes). Everything else is proved."
  },
  {
   "property": "C72",
   "status": "partial",
   "theorems": [
    "Burl.JsonText.c72_reply",
    "Burl.JsonText.c72_says",
    "Burl.JsonText.c72_error",
    "Burl.JsonText.c72_single",
    "Burl.JsonText.c72_small_partial",
    "Burl.JsonText.c72_clear_partial",
    "Burl.JsonText.c72_violation"
   ],
   "note": "What a call returns is proved to be the answer of its own method for all numbers of calls, chunkings and truncated streams. That answers arrive is proved for a single call of any size (burl_client) for small requests and replies and for those of any sizes but two for each size of the buffer of the decoder, with no short reads. The code violates it otherwise: c72_violation, see C08."
  },
  {
   "property": "C73",
   "status": "proved",
   "theorems": [
    "Burl.Tool.Client.c73_output",
    "Burl.Tool.Client.c73_small",
    "Burl.Tool.Client.c73_mentions",
    "Burl.Tool.Client.c73_visit",
    "Burl.Tool.Client.c73_set",
    "Burl.Tool.Client.c73_silent",
    "Burl.Tool.Client.c73_hello",
    "Burl.Tool.Client.c73_hello_default",
    "Burl.Tool.Client.c73_hello_exact",
    "Burl.Tool.Client.c73_output_order",
    "Burl.Tool.Client.c73_canonical"
   ],
   "note": "Connected joins the client and the backend through bytes (C72). Conversion of numbers to float64 and their shortest texts are a parameter that keeps integers within 2^53; c73_small shows that only results of urlMentions have numbers (lines and counts). The relation Untyped says exactly which value of the type interface{} a text gives: the last of repeated members, members sorted by names (c73_hello_exact); the text printed does not depend on the order of members in the reply (c73_canonical)."
  },
  {
   "property": "C74",
   "status": "partial",
   "theorems": [
    "Burl.Args.c74_script",
    "Burl.Args.c74_printable_partial",
    "Burl.Backend.Main.c74_browser",
    "Burl.Args.c74_violation_newline"
   ],
   "note": "The shell is described by a reader of lines, quotes, variables, assignments, comments, tests and exec. Fails for paths with control characters, which printf %q writes in a form that dash does not know (as C47). The error report is the subject of C48."
  },
  {
   "property": "C75",
   "status": "proved",
   "theorems": [
    "Burl.Backend.Main.c75_firefox",
    "Burl.Backend.Main.c75_chrome"
   ],
   "note": "For the constants of pkg/version; any directory but the root."
  },
  {
   "property": "C76",
   "status": "proved",
   "theorems": [
    "Burl.Scan.c76_words",
    "Burl.Scan.c76_words_exist",
    "Burl.Scan.c76_pieces_irrelevant",
    "Burl.Scan.c76_calls",
    "Burl.Scan.c76_all",
    "Burl.Scan.c76_refused",
    "Burl.Scan.c76_same"
   ],
   "note": "Characters and words are the relations Cut and Words on bytes. Which parts of a word are addresses is the subject of C33 and C58. Only tests call the function. The comment in the code says that a refusal was conceived to end iterations; c76_refused shows that it does not."
  },
  {
   "property": "C77",
   "status": "partial",
   "theorems": [
    "Burl.Example.c77_names",
    "Burl.Example.c77_message",
    "Burl.Example.c77_reply",
    "Burl.Example.c77_unique",
    "Burl.Example.c77_requests",
    "Burl.Example.c77_texts",
    "Burl.Example.c77_any",
    "Burl.Example.c77_asleep",
    "Burl.Example.c77_concurrent",
    "Burl.Example.c77_pause_partial",
    "Burl.Example.c77_violation"
   ],
   "note": "Everything but the time of the sleep is proved. The product of the time and a millisecond overflows from 9223372036855 ms on, and the call never sleeps as long as it should (c77_violation). Floating-point numbers are a parameter."
  },
  {
   "property": "C78",
   "status": "partial",
   "theorems": [
    "Burl.Example.c78_started",
    "Burl.Example.c78_status",
    "Burl.Example.c78_lines",
    "Burl.Example.c78_heard",
    "Burl.Example.c78_any",
    "Burl.Example.c78_violation"
   ],
   "note": "Lines and the start are proved. The exit status does not depend on the calls: it is zero though both of them failed (c78_violation). How Close ends is the subject of C67."
  },
  {
   "property": "C79",
   "status": "partial",
   "theorems": [
    "Burl.Example.c79_report",
    "Burl.Example.c79_once",
    "Burl.Example.c79_reported",
    "Burl.Example.c79_violation_restart",
    "Burl.Example.c79_violation_zero"
   ],
   "note": "Reports are proved for histories in which the add-on has been told that it has been installed. The listener of clicks is added by onInstalled only, so clicks are not heard after a restart of the browser (c79_violation_restart)."
  },
  {
   "property": "C80",
   "status": "partial",
   "theorems": [
    "Burl.JsonText.c80_requests",
    "Burl.JsonText.c80_session",
    "Burl.JsonText.c80_accepted",
    "Burl.JsonText.c80_ends",
    "Burl.JsonText.c80_alive_partial",
    "Burl.JsonText.c80_crash",
    "Burl.JsonText.c80_served",
    "Burl.JsonText.c80_violation"
   ],
   "note": "Proved for all bytes, except that bytes do not crash the backend: the code violates it (c80_violation). c80_crash, for all files: only a query with a negative or overflowing limit, or for a link below a gap in levels of headings, crashes it; c80_served: everything is answered if there are no such queries. Not every overflowing limit crashes (c20_violation_overflow); c22_one_body decides it when the links are below one heading."
  },
  {
   "property": "C81",
   "status": "proved",
   "theorems": [
    "Burl.Addon.c81_settled",
    "Burl.Addon.c81_pending",
    "Burl.Addon.c81_one",
    "Burl.Addon.c81_ignored"
   ],
   "note": "Texts of messages are parsed by the browser; numbers with a fraction or an exponent are taken as other values and not as numbers of requests."
  },
  {
   "property": "C82",
   "status": "proved",
   "theorems": [
    "Burl.JsonText.c82_replies",
    "Burl.JsonText.c82_result",
    "Burl.JsonText.c82_error",
    "Burl.Tool.Client.c82_printed",
    "Burl.Tool.Client.c82_output"
   ],
   "note": "Frames are read as the code does it: a text may go on in the next frame. For c82_output rounding of numbers is a parameter that gives numbers only."
  }
 ]
}
