#!/usr/bin/env python3
"""Write MANIFEST.json from the table below."""
import json, os
CLAIMS = []
def claim(prop, status, theorems, note):
    CLAIMS.append(dict(property=prop, status=status, theorems=theorems, note=note))

F = 'Burl.Frame.'
claim('C01', 'proved', [F+'c01_roundtrip', F+'c01_wire', F+'c01_pieces'],
      'All message lists within the size limit, all chunkings of the pipe, all read buffer sizes.')
claim('C02', 'proved', [F+'c02_truncation', F+'c02_only_sent'], 'Every cut point, every chunking.')
claim('C03', 'proved', [F+'c03_boundaries', F+'c03_unread_refused'],
      'Every history of ReadHeader/Read calls on every input; nothing is claimed after a fatal header error.')
claim('C04', 'proved', [F+'c04_limit'], 'All 32-bit sizes.')
claim('C05', 'proved', [F+'c05_prefix_and_reset', F+'c05_success_complete', F+'c05_accepting_sink', F+'c05_session', F+'c05_pieces'],
      'Any failure point of the underlying writer, under the io.Writer contract.')
claim('C06', 'proved', [F+'c06_close'], 'All outcomes of closing the two streams, all pending outputs.')
R = 'Burl.Rpc.'
claim('C07', 'proved', [R+'c07_no_interleaving', R+'c07_broken_pipe', R+'c07_browser_sees'],
      'Any number of goroutines, any schedule, any partial kernel writes, a pipe breaking at any moment.')
claim('C08', 'partial', [R+'c08_session_partial', R+'c08_json_session_partial', R+'c08_last_partial', R+'c08_newline_small_partial', R+'c08_exact', R+'c08_exact_unique', R+'c08_clear_partial', R+'c08_beginning', R+'c08_reject', R+'c08_violation', R+'c08_violation_sizes'],
      'The code violates the property: c08_violation (512-byte request followed by the newline of the Go client ends the session). Proved when nothing follows the JSON value in its frame (browsers; white space between tokens is allowed), for every chunking; when only the last frame has something after its value, for every chunking; for small frames with trailing white space and no short reads. For frames of any sizes with trailing white space and no short reads c08_exact tells exactly which requests are served: all of them unless a frame and its value are on different sides of a size of the buffer (0, 512, 1536, 3584, ...), and c08_violation_sizes shows the violation for each of these sizes. For all frames with trailing white space, all chunkings and all truncated inputs: requests that are served are a beginning of those sent (c08_beginning).')
claim('C09', 'proved', [R+'c09_exact', R+'c09_unmapped', R+'c09_search_unreachable', R+'Server.c09_message'], 'All method name strings.')
U = 'Burl.Url.'
claim('C10', 'proved', [U+'c10_urlVariants_mem', U+'c10_tail_order'], 'All strings of runes.')
claim('C11', 'proved', [U+'c11_self_mem', U+'c11_http_https', U+'c11_order_irrelevant'], 'All strings of runes, every map order.')
Z = 'Burl.Fuzzy.'
claim('C12', 'proved', [Z+'c12_optimal', Z+'c12_optimum_exists', Z+'c12_result_is_optimal'],
      'All pairs of non-empty sequences over any symbol type. Empty inputs crash (c12_empty_word_panics, c12_empty_pattern_panics).')
claim('C13', 'proved', [Z+'c13_zero_iff_substring', Z+'c13_bounded', Z+'c13_context'], 'All pairs, all contexts.')
claim('C14', 'proved', [Z+'c14_top', Z+'c14_order_irrelevant', Z+'c14_words'],
      'All collections of non-empty links, all limits 1..99, any correct sort.Sort.')
claim('C15', 'partial', [Z+'c15_offered_within_tolerance', Z+'c15_search_partial', Z+'c15_exact_partial', Z+'c15_order_partial',
      Z+'c15_violation_case', Z+'c15_violation_order', Z+'c15_violation_bytes', Z+'c15_exact', Z+'c15_search'],
      'The code violates the equivalence (letter case, word order, byte lengths). Proved: what is offered, exactly, for all queries, links and tolerances (c15_exact, c15_search, relation Offered); offered links are within tolerance for all inputs; the equivalence for ASCII lower-case queries and links without upper-case letters.')
claim('C16', 'proved', [Z+'c16_no_panic'], 'All queries, limits, tolerances and collections of non-empty links; an empty link crashes (c16_empty_link_panics).')
T = 'Burl.Tree.'
claim('C17', 'proved', [T+'c17_forEachLink', T+'c17_all_links'], 'All trees, all callbacks with state; termination included.')
claim('C18', 'proved', [T+'c18_counts', T+'c18_counted_part'], 'All trees, queries and limits, every reply that is not a crash.')
claim('C19', 'proved', [T+'c19_limit'], 'All trees with fewer than 2^31 matching links, all non-negative limits, every reply that is not a crash.')
claim('C20', 'partial', [T+'c20_all_kept_partial', T+'c20_firstByUrl_complete', T+'c20_firstByUrl_nodup', T+'c20_violation_overflow', T+'c20_one_body'],
      'The code violates the property for very large limits (multiplication overflow, c20_violation_overflow). Proved whenever matches times limit fits in 63 bits; c20_one_body gives the links of a reply for all limits when they are below one heading.')
claim('C21', 'partial', [T+'c21_shared_partial', T+'c20_violation_overflow'],
      'Proved for every tree and limit whenever matches times limit fits in 63 bits; the overflow breaks it beyond.')
claim('C22', 'partial', [T+'c22_answered_partial', T+'c22_ends', T+'c22_violation_negative', T+'c22_violation_overflow', T+'c22_exact', T+'c22_one_body', 'Burl.Backend.c62_text', T+'c22_violation_large', 'Burl.Backend.c62_negative'],
      'The code violates the property: every negative limit crashes the backend for every query with a match, and very large ones may. Proved for the other limits; c22_exact is the condition of a crash (iff) wherever the product of matches and limit does not overflow, c22_one_body is this condition for all limits when the links are below the same heading.')
claim('C23', 'proved', [T+'c23_index_unchanged', T+'c23_same_answer', T+'c23_reply_unique', T+'c23_concurrent_index', T+'c23_concurrent_answer', T+'c23_concurrent_crash'],
      'All histories of queries and all interleavings of loop iterations of any number of calls.')
E = 'Burl.Extract.'
claim('C24', 'partial', [E+'c24_sections_partial', E+'c24_regular_partial', E+'c24_above', E+'c24_index', E+'c24_above_partial', E+'c24_index_partial', E+'c24_enclosing', E+'c24_innermost', E+'c24_no_gap', E+'c24_labels', 'Burl.Links.c24_heading_regexp', E+'c24_violation_stale', E+'c24_violation_trailing_blank', E+'c24_violation_deep'],
      'The code violates the property (stale headings after a skipped level, headings followed by blanks, more than ten levels). Proved for outlines without gaps and tidy lines; for all lines and any levels the labels above every link are described exactly with headings as the code reads them (Starred: stars, white space, title without white space around it), and all the enclosing headings are among them.')
claim('C25', 'proved', [E+'c25_links', E+'c25_lineNo'], 'All sequences of lines, every function finding links in a line, every filter.')
claim('C26', 'partial', [E+'c26_serialised_partial', E+'c26_serialised_or_crash', E+'c26_violation_skipped_level', 'Burl.Backend.c26_crash_partial', 'Burl.Backend.c26_crash_gap', 'Burl.Backend.c26_crash_exact', 'Burl.Backend.c62_harmless'],
      'The code violates the property: a skipped heading level crashes serialisation. Proved for all files with outlines going deeper step by step. c26_crash_exact gives the queries that crash exactly (iff), for all lines and limits that allow all links: those that ask for a link below a gap in levels.')
claim('C27', 'proved', [E+'c27_group', E+'c27_untilFailure', E+'c27_init', E+'c27_init_error'], 'All lists of files and failures.')

L = 'Burl.Links.'
claim('C28', 'partial', [L+'c28_scheme_partial', L+'c28_file_partial', L+'c28_without_brackets', L+'c28_configured_partial', L+'c28_configured_one', L+'c28_exact', L+'c28_bracket', L+'c28_violation', L+'c28_violation_plus'],
      'The code violates the property for links in double brackets (c28_violation: the anchor of ^doi|https?|mid: binds only the first alternative) and for schemes with a plus, such as svn+ssh (c28_violation_plus). Proved for angle and plain links of every line, for lines without double brackets, and in full when a single literal scheme is configured. c28_exact, c28_bracket: what is reported for links in double brackets with the default schemes, exactly.')
claim('C29', 'proved', [L+'c29_prefix', 'Burl.Links.c29_written'], 'All file contents, kinds of sources and prefix lists; also: the method never crashes.')
claim('C30', 'proved', [L+'c30_literal', L+'c30_refused', L+'c30_no_sources'],
      'All lists of strings; the accepted prefixes are characterised exactly. Refusal needs at least one source file (c30_no_sources: without sources the prefixes are not looked at).')
claim('C31', 'proved', [L+'c31_refused', L+'c31_union', L+'c31_opened', L+'c31_exact'], 'All prefix lists, lists of files and orders of map keys.')
S = 'Burl.Scan.'
claim('C32', 'proved', [S+'c32_lines', S+'c32_long', S+'c32_lines_exist', S+'c32_pieces_irrelevant', S+'c32_org', S+'c32_txt'],
      'All file contents and all ways the operating system cuts them into pieces; the buffer of bufio.Scanner is modelled.')
claim('C33', 'proved', [L+'c33_terminates', L+'c33_words', L+'c33_not_shape', 'Burl.Scan.c33_bytes'], 'All sequences of lines, every set of letters that has no colon (and no slash for the last part). c33_bytes: words of lines that are not UTF-8.')
claim('C53', 'proved', [L+'c53_normalised', L+'c53_members', L+'c53_update'], 'All lists of strings.')

claim("C34", "proved",
  ["Burl.Emacs.c34_refused", "Burl.Emacs.c34_visit", "Burl.Emacs.c34_success", "Burl.Emacs.c34_exact", "Burl.Emacs.c34_failure"],
  "Every path, line, configuration and behaviour of the editor.")
claim("C35", "proved",
  ["Burl.Emacs.c35_processes", "Burl.Emacs.c35_no_options", "Burl.Emacs.c35_lisp"],
  "Any sequence of requests served one at a time and any editor; for requests served at the same time see C37.")
claim("C36", "proved",
  ["Burl.Emacs.c36_success", "Burl.Emacs.c36_failure", "Burl.Emacs.c36_preview", "Burl.Emacs.c36_answers", "Burl.Emacs.c36_in_turn"],
  "Requests served one at a time (see C37 for concurrent ones).")
claim("C37", "partial",
  ["Burl.Emacs.c37_partial", "Burl.Emacs.c37_violation", "Burl.Emacs.c37_sequential"],
  "The code violates the property with the default configuration: append writes into the spare capacity of the shared slice of user arguments. Proved for all interleavings when the capacity leaves no room behind the fixed arguments; when there is room a schedule of two captures is exhibited in which both succeed and one URI is lost.")
claim("C38", "proved",
  ["Burl.Backend.c38_once", "Burl.Backend.c38_complete", "Burl.Backend.c38_result", "Burl.Backend.c38_same",
   "Burl.Backend.c38_stable", "Burl.Backend.c38_refused", "Burl.Backend.c38_no_deadlock"],
  "sync.Once is modelled by its steps; every number of calls and every interleaving, any result of the scan.")
claim("C39", "proved",
  ["Burl.Backend.c39_succeeds", "Burl.Backend.c39_refused", "Burl.Backend.c39_reply", "Burl.Backend.c39_linkSet",
   "Burl.Backend.c39_disabled"], "")
F = 'Burl.File.'
claim("C40", "proved", [F+"c40_atomic", F+"c40_entry", F+"c40_error", F+"c40_others", F+"c40_no_litter", F+"c40_no_panic"],
  "Every system call may fail, a write may stop after any prefix, the process may be killed between any two effects. A crash of the machine (no fsync) and other writers are not modelled.")
claim("C41", "proved", [F+"c41_unchanged", F+"c41_differs", F+"c41_keeps_files"],
  "Every failure pattern and crash point. The error for an identical file of exactly 4096 bytes is under C42.")
claim("C42", "partial", [F+"c42_written_partial", F+"c42_same_partial", F+"c42_stdout", F+"c42_violation_prefix", F+"c42_violation_exact", F+"c42_violation_empty", F+"c42_outcome", F+"c42_ends", F+"c42_goes_on", F+"c42_succeeds", F+"c42_exact", F+"c42_content"],
  "The code violates the property when exactly 4096 bytes are requested: with force a longer file with this prefix is taken for an identical one, without force an identical file is refused; an existing empty file is always an error. Proved for all other contents. c42_exact gives the state after every successful call, c42_content the condition under which the content is the requested one (iff).")
claim("C43", "partial", [F+"c43_written", F+"c43_executable_partial", F+"c43_violation", F+"c43_exact"],
  "The code violates the property: an identical file with mode 0644 is left as it is and the call succeeds. Proved for files that are created or replaced and for identical ones with neither or both of the two permissions. c43_exact: the owner may read and execute the file if and only if it was not one of these.")
claim("C44", "partial", [F+"c44_agree", F+"c44_name", F+"c44_accepted_partial", F+"c44_accepted_named", F+"c44_plain", F+"c44_exact", F+"c44_violation"],
  "Agreement of path and name is proved in full; acceptance by Init fails for a file called .json, whose name is empty, and is proved for all others.")
claim("C45", "proved", [F+"c45_iff", F+"c45_effect"], "All manifests; case of letters is that of ASCII.")
A = 'Burl.Args.'
claim("C46", "proved", [A+"c46_values", A+"c46_refused", A+"c46_replay", A+"c46_modified"],
  "All defaults and all sequences of occurrences.")
claim("C47", "partial", [A+"c47_round_trip", A+"c47_paths", A+"c47_printable_partial", A+"c47_violation"],
  "Every command line and every result of FixPaths, for any quoting the shell reads back; instantiated with the quoting of GNU printf for printable characters. The property fails with dash for control characters: printf writes $'\\n', which is not a quoting of that shell.")
claim("C48", "partial", [A+"c48_frame_partial", A+"c48_ascii_partial", A+"c48_violation_long", A+"c48_violation_utf8", A+"c48_violation_control", A+"c48_exact", A+"c48_exact_chars"],
  "The code violates the property for paths longer than 208 bytes (proved for all of them up to the limit on paths), for characters of several bytes when the shell counts characters, and for control characters. Proved for the other paths. c48_exact and c48_exact_chars give the paths with a well-formed message exactly (iff), for shells that count bytes and characters.")
claim("C49", "partial", [A+"c49_none", A+"c49_refused", A+"c49_exe_partial", A+"c54_exact", A+"c49_violation"],
  "Refusals are proved in full. The wrapper never has the path of the backend, but the path of the wrapper is not resolved: with a symbolic link in its directory part and -force the backend is replaced by a script that executes itself.")
claim("C52", "proved", [A+"c52_positional", A+"c52_flags", A+"c52_command_line", A+"c52_dashes", A+"c52_clone"], "All argument lists.")
claim("C54", "proved", [A+"c54_program", A+"c54_settings", A+"c54_manifest", A+"c54_complete", A+"c54_stops", A+"c54_paths", A+"c54_exact", A+"c54_wrapper_alone"],
  "All options; the file system may answer anything and change between the calls, any call of WriteFile may fail.")
claim("C50", "partial", ["Burl.Js.c50_settled", "Burl.Js.c50_ids", "Burl.Js.c50_once", "Burl.Js.c50_unsent", "Burl.Js.c50_sent", "Burl.Js.c50_unknown",
      "Burl.Js.c50_resolved", "Burl.Js.c50_live", "Burl.Js.c50_meaning_partial", "Burl.Js.c50_violation"],
      "Each promise is settled once, by the first response with its identifier or the first disconnect, for every history of events. "
      "Fails for results 0, false, an empty string and null (c50_violation): the promise is rejected and stays in the table.")
claim("C51", "partial", ["Burl.Tool.c51_printed_partial", "Burl.Tool.c51_total", "Burl.Tool.c51_usage",
      "Burl.Tool.c51_violation", "Burl.Tool.c51_violation_any"],
      "The tool prints a part of the tree of the files with at most eight links and reports the first failure. "
      "The property fails: variants of the URL are computed and dropped, so links are not restricted to the URL.")

claim('C55', 'partial', [T+'c55_used_partial', T+'c55_no_repetitions', T+'c20_violation_overflow', T+'c20_one_body'],
      'Proved for every tree whenever matches times limit fits in 63 bits; beyond that the multiplication overflows (c20_violation_overflow).')
claim('C56', 'proved', [L+'c56_line', L+'c56_configured', L+'c56_file'],
      'All lines of the shape given by the grammar Laid; the default schemes and any schemes without special characters.')
claim('C57', 'proved', [L+'c57_lines', L+'c57_request'],
      'All lines of the shape given by the grammar SetLaid; valid prefixes that begin with an ASCII letter.')
claim('C58', 'proved', [L+'c58_word', L+'c58_line', L+'c58_file'],
      'The shapes of addresses and the lines are described in Links/Spec.lean (TextUrl, WordLaid, LineLaid). Domain names with a dot at the end are not among the described addresses.')
V = R+'Server.'
claim('C59', 'proved', [V+'c59_replies', V+'c59_complete', V+'c59_distinct', V+'c59_progress', V+'c59_ends'],
      'All schedules. A result that can not be written as JSON gets no reply; methods that panic end the process (modelled as a crash).')
Q = R+'Client.'
claim('C60', 'proved', [Q+'c60_once', Q+'c60_outcome', Q+'c60_numbers', Q+'c60_requests', Q+'c60_heard',
      Q+'c60_progress', Q+'c60_ends', Q+'c60_closed', Q+'c60_answers'],
      'All schedules. A message without an identifier is taken for that of the first call and is lost if it arrives before this call (c60_early_message); a result that does not fit the variable for the reply ends the connection for all calls.')
D = 'Burl.Backend.'
claim('C61', 'proved', [D+'c61_exact', D+'c61_given_unique', D+'c61_given_plain', D+'c61_argument', D+'c61_unique', D+'c61_mentions', D+'c61_mentions_default', D+'c61_visit',
      D+'c61_visit_exact', D+'c61_search_exact', D+'c61_capture_exact', D+'c61_linkSet_exact', D+'c61_mentions_exact', D+'c61_hello_exact', D+'c61_linkSet_repeated', D+'c61_mentions_repeated'],
      'JSON values, not their text. Names are compared ignoring letter case. c61_exact is for all parameters, members may be repeated in any order (relation Given); c61_argument is a simpler reading (relation Params) for objects without repeated members. An element of a list that is null is what an earlier list with the same name had in its place, as in the library.')
claim('C62', 'partial', [D+'c62_sound', D+'c62_limit', D+'c62_complete', D+'c62_total_partial', D+'c62_violation_total', D+'c62_total_exact', D+'c62_filtered', D+'c26_crash_exact',
      D+'c62_visit', D+'c62_linkSet', D+'c62_hello', D+'c62_capture', D+'c62_session', D+'c62_says', D+'c62_says_links', D+'c62_says_refused', D+'c62_says_session', D+'c62_result_partial', D+'c62_every_request_partial', D+'c62_says_every_request_partial', D+'c62_harmless', D+'c62_result', D+'c62_negative', D+'c62_negative_silent', D+'c62_text', D+'c62_text_answered', V+'c59_crash'],
      'Soundness, the limit and completeness hold for all files and requests (numbers of links below 2^31, products with the limit below 2^63). '
      'The total is wrong when the limit leaves one file of several (c62_violation_total); proved when the limit allows all links; c62_total_exact tells what the number is in every reply. '
      'No crash and an answer to every request: proved for outlines without skipped levels and limits that are not negative, see C26 and C22 for the violations. c62_harmless, for all files and limits: a query returns and does not crash unless all files are readable, links are asked for, and the limit is negative, overflows, or a link is below a gap in levels; c62_negative is an equivalence.')
X = 'Burl.Tool.Client.'
claim('C63', 'partial', [X+'c63_split', X+'c63_started', X+'c63_query', X+'c63_sends', X+'c63_helloText', X+'c63_visit_file', X+'c63_visit_exact', X+'c63_number', X+'c63_called', X+'c63_reply', X+'c63_given', X+'c63_says', X+'c63_capture', X+'c63_capture_data', X+'c63_hello', X+'c63_hello_any',
      X+'c63_mentions', X+'c63_mentions_all', X+'c63_visit', X+'c63_set', X+'c63_done', X+'c63_no_crash_partial',
      X+'c63_violation_crash', X+'c63_violation_line'],
      'The backend is joined through bytes (C72). Two dashes twice at the beginning cause a panic (c63_violation_crash); it is proved that there is no panic otherwise. '
      'A line number with zeros before it is read as octal (c63_violation_line); decimal numbers without them are proved to be sent as they are.')
Y = 'Burl.Tool.Line.'
claim('C64', 'partial', [Y+'c64_refused', Y+'c64_help', Y+'c64_unique', Y+'c64_set', Y+'c64_set_links', Y+'c64_tree_partial', Y+'c64_total',
      Y+'c64_no_arguments'],
      'Links of a tree are not restricted to the URL, see C51. '
      'Exactness of the set is proved for lines of the grammar of C57.')
W = 'Burl.Backend.Line.'
claim('C65', 'proved', [W+'c65_accepted', W+'c65_refused', W+'c65_settings'],
      'Command lines are described by the relation Written (options in any of their forms, then arguments), settings by the structure Means; both are independent of the parser.')
G = 'Burl.Backend.Main.'
claim('C66', 'partial', [G+'c66_serves', G+'c66_starts', G+'c66_info', G+'c66_refused', G+'c66_simple', G+'c66_org_partial', G+'c66_txt', G+'c66_hello', G+'c66_made', G+'c66_write_failed', G+'c66_wrapper', G+'c66_violation_browser', L+'c28_violation_plus'],
      'Violated for a backend named in a manifest directly: arguments passed by a browser are taken for files (c66_violation_browser). Proved for wrappers and direct command lines; links of Org files are those of C56 for schemes without special characters. A scheme with a plus is taken for a pattern, its links are not found (c28_violation_plus).')

O = R+'Command.'
claim('C67', 'proved', [O+'c67_command', O+'c67_returns', O+'c67_result', O+'c67_exact', O+'c67_clean', O+'c67_alive', O+'c67_lost'],
  'Transition system of the client, two pipes and the backend; every step after Close decreases a measure. c67_lost shows that requests may be lost if Close is called while calls are pending.')

J = 'Burl.JsonText.'
claim('C68', 'proved', [J+'c68_decode', J+'c68_encode', J+'c68_roundtrip', J+'c68_injective', J+'c68_copied', J+'c68_unambiguous', J+'c68_exact', J+'c68_refused', J+'c68_string_unique'],
  'Texts are trees of tokens (Rpc.Spec.Json), their meaning is the relation Means; both are independent of the encoder and the decoder. White space is allowed between tokens. Every JSON text has a meaning and nothing else is decoded (c68_exact, c68_refused): unpaired surrogates and bytes that are not UTF-8, which the RFC leaves open, are U+FFFD.')
claim('C69', 'partial', [J+'c69_requests', J+'c69_session', J+'c69_complete', J+'c69_received', J+'c69_right', J+'c69_says', J+'c69_says_refused', J+'c69_sendable', J+'c69_requests_beginning', J+'c69_beginning', J+'c69_refused', J+'c69_every_request_partial', J+'c69_served'],
  'Sessions are proved from bytes to bytes. That no requests end the process is proved for all files and all limits that are not negative and do not overflow, unless a query asks for a link below a gap in levels of headings (c69_served); see C26 and C80 for the violation otherwise. Members of a request may be repeated; its text is at most 2^30 bytes. Texts that are not requests end the session (c69_refused).')

N = 'Burl.Addon.'
claim('C70', 'proved', [N+'c70_fair', N+'c70_answered'],
  'Composition of C50 and C69. How messages reach the client is the relation Linked: they are values of texts in the output of a backend that has been sent the requests posted before. The results that the client rejects (C50) are not among results of this backend.')

claim('C71', 'partial', [J+'c71_layout', J+'c71_text', J+'c71_read', 'Burl.Args.c71_manifest', Y+'c71_tool_exact', Y+'c71_tool_partial', Y+'c71_crash', Y+'c71_printed', Y+'c71_set', Y+'c71_silent',
  'Burl.Args.c71_violation_bytes', J+'c71_any_bytes', J+'c71_replaced', J+'c71_read_bytes', Y+'c71_violation_skipped_level'],
  'burl_tool crashes instead of printing if a link shown is below a gap in levels of headings (c71_violation_skipped_level; c71_tool_exact and c71_crash tell when; c71_printed has all other files); bytes that are not UTF-8 are replaced by U+FFFD (c71_any_bytes, for all bytes), so manifests for different programs may be the same (c71_violation_bytes). Everything else is proved.')

claim('C72', 'partial', [J+'c72_reply', J+'c72_says', J+'c72_error', J+'c72_single', J+'c72_small_partial', J+'c72_clear_partial', J+'c72_violation'],
  'What a call returns is proved to be the answer of its own method for all numbers of calls, chunkings and truncated streams. That answers arrive is proved for a single call of any size (burl_client) for small requests and replies and for those of any sizes but two for each size of the buffer of the decoder, with no short reads. The code violates it otherwise: c72_violation, see C08.')

claim('C73', 'proved', [X+'c73_output', X+'c73_small', X+'c73_mentions', X+'c73_visit', X+'c73_set', X+'c73_silent', X+'c73_hello', X+'c73_hello_default', X+'c73_hello_exact', X+'c73_output_order', X+'c73_canonical'],
  'Connected joins the client and the backend through bytes (C72). Conversion of numbers to float64 and their shortest texts are a parameter that keeps integers within 2^53; c73_small shows that only results of urlMentions have numbers (lines and counts). The relation Untyped says exactly which value of the type interface{} a text gives: the last of repeated members, members sorted by names (c73_hello_exact); the text printed does not depend on the order of members in the reply (c73_canonical).')
claim('C74', 'partial', ['Burl.Args.c74_script', 'Burl.Args.c74_printable_partial', G+'c74_browser', 'Burl.Args.c74_violation_newline'],
  'The shell is described by a reader of lines, quotes, variables, assignments, comments, tests and exec. Fails for paths with control characters, which printf %q writes in a form that dash does not know (as C47). The error report is the subject of C48.')

claim('C75', 'proved', [G+'c75_firefox', G+'c75_chrome'],
  'For the constants of pkg/version; any directory but the root.')

S = 'Burl.Scan.'
claim('C76', 'proved', [S+'c76_words', S+'c76_words_exist', S+'c76_pieces_irrelevant', S+'c76_calls', S+'c76_all', S+'c76_refused', S+'c76_same'],
  'Characters and words are the relations Cut and Words on bytes. Which parts of a word are addresses is the subject of C33 and C58. Only tests call the function. The comment in the code says that a refusal was conceived to end iterations; c76_refused shows that it does not.')

EX = 'Burl.Example.'
claim('C77', 'partial', [EX+'c77_names', EX+'c77_message', EX+'c77_reply', EX+'c77_unique', EX+'c77_requests', EX+'c77_texts', EX+'c77_any', EX+'c77_asleep', EX+'c77_concurrent', EX+'c77_pause_partial', EX+'c77_violation'],
  'Everything but the time of the sleep is proved. The product of the time and a millisecond overflows from 9223372036855 ms on, and the call never sleeps as long as it should (c77_violation). Floating-point numbers are a parameter.')
claim('C78', 'partial', [EX+'c78_started', EX+'c78_status', EX+'c78_lines', EX+'c78_heard', EX+'c78_any', EX+'c78_violation'],
  'Lines and the start are proved. The exit status does not depend on the calls: it is zero though both of them failed (c78_violation). How Close ends is the subject of C67.')
claim('C79', 'partial', [EX+'c79_report', EX+'c79_once', EX+'c79_reported', EX+'c79_violation_restart', EX+'c79_violation_zero'],
  'Reports are proved for histories in which the add-on has been told that it has been installed. The listener of clicks is added by onInstalled only, so clicks are not heard after a restart of the browser (c79_violation_restart).')

claim('C80', 'partial', [J+'c80_requests', J+'c80_session', J+'c80_accepted', J+'c80_ends', J+'c80_alive_partial', J+'c80_crash', J+'c80_served', J+'c80_violation'],
  'Proved for all bytes, except that bytes do not crash the backend: the code violates it (c80_violation). c80_crash, for all files: only a query with a negative or overflowing limit, or for a link below a gap in levels of headings, crashes it; c80_served: everything is answered if there are no such queries. Not every overflowing limit crashes (c20_violation_overflow); c22_one_body decides it when the links are below one heading.')

claim('C81', 'proved', [N+'c81_settled', N+'c81_pending', N+'c81_one', N+'c81_ignored'],
  'Texts of messages are parsed by the browser; numbers with a fraction or an exponent are taken as other values and not as numbers of requests.')

claim('C82', 'proved', [J+'c82_replies', J+'c82_result', J+'c82_error', X+'c82_printed', X+'c82_output'],
  'Frames are read as the code does it: a text may go on in the next frame. For c82_output rounding of numbers is a parameter that gives numbers only.')

here = os.path.dirname(os.path.abspath(__file__))
with open(os.path.join(here, '..', 'MANIFEST.json'), 'w') as f:
    json.dump({'claims': CLAIMS}, f, indent=1)
    f.write('\n')
