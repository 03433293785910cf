# Axioms of the theorems of MANIFEST.json

Output of `#print axioms`, grouped (written by `tools/mkaxioms.py`).

## propext, Classical.choice, Quot.sound (421)

* `Burl.Frame.c01_roundtrip`
* `Burl.Frame.c01_wire`
* `Burl.Frame.c01_pieces`
* `Burl.Frame.c02_truncation`
* `Burl.Frame.c02_only_sent`
* `Burl.Frame.c03_boundaries`
* `Burl.Frame.c04_limit`
* `Burl.Frame.c05_success_complete`
* `Burl.Frame.c05_accepting_sink`
* `Burl.Frame.c05_session`
* `Burl.Frame.c06_close`
* `Burl.Rpc.c07_no_interleaving`
* `Burl.Rpc.c07_broken_pipe`
* `Burl.Rpc.c07_browser_sees`
* `Burl.Rpc.c08_session_partial`
* `Burl.Rpc.c08_json_session_partial`
* `Burl.Rpc.c08_last_partial`
* `Burl.Rpc.c08_newline_small_partial`
* `Burl.Rpc.c08_exact`
* `Burl.Rpc.c08_clear_partial`
* `Burl.Rpc.c08_beginning`
* `Burl.Rpc.c08_reject`
* `Burl.Rpc.c08_violation`
* `Burl.Rpc.c08_violation_sizes`
* `Burl.Rpc.c09_exact`
* `Burl.Rpc.c09_unmapped`
* `Burl.Rpc.c09_search_unreachable`
* `Burl.Rpc.Server.c09_message`
* `Burl.Url.c10_urlVariants_mem`
* `Burl.Url.c10_tail_order`
* `Burl.Url.c11_self_mem`
* `Burl.Url.c11_http_https`
* `Burl.Url.c11_order_irrelevant`
* `Burl.Fuzzy.c12_optimal`
* `Burl.Fuzzy.c12_optimum_exists`
* `Burl.Fuzzy.c12_result_is_optimal`
* `Burl.Fuzzy.c13_zero_iff_substring`
* `Burl.Fuzzy.c13_bounded`
* `Burl.Fuzzy.c13_context`
* `Burl.Fuzzy.c14_top`
* `Burl.Fuzzy.c14_order_irrelevant`
* `Burl.Fuzzy.c15_offered_within_tolerance`
* `Burl.Fuzzy.c15_search_partial`
* `Burl.Fuzzy.c15_exact_partial`
* `Burl.Fuzzy.c15_order_partial`
* `Burl.Fuzzy.c15_violation_case`
* `Burl.Fuzzy.c15_violation_order`
* `Burl.Fuzzy.c15_violation_bytes`
* `Burl.Fuzzy.c15_exact`
* `Burl.Fuzzy.c15_search`
* `Burl.Fuzzy.c16_no_panic`
* `Burl.Tree.c18_counts`
* `Burl.Tree.c19_limit`
* `Burl.Tree.c20_all_kept_partial`
* `Burl.Tree.c20_violation_overflow`
* `Burl.Tree.c20_one_body`
* `Burl.Tree.c21_shared_partial`
* `Burl.Tree.c22_answered_partial`
* `Burl.Tree.c22_ends`
* `Burl.Tree.c22_violation_negative`
* `Burl.Tree.c22_violation_overflow`
* `Burl.Tree.c22_exact`
* `Burl.Tree.c22_one_body`
* `Burl.Backend.c62_text`
* `Burl.Tree.c22_violation_large`
* `Burl.Backend.c62_negative`
* `Burl.Tree.c23_index_unchanged`
* `Burl.Tree.c23_same_answer`
* `Burl.Tree.c23_concurrent_index`
* `Burl.Tree.c23_concurrent_answer`
* `Burl.Tree.c23_concurrent_crash`
* `Burl.Extract.c24_sections_partial`
* `Burl.Extract.c24_regular_partial`
* `Burl.Extract.c24_above`
* `Burl.Extract.c24_index`
* `Burl.Extract.c24_above_partial`
* `Burl.Extract.c24_index_partial`
* `Burl.Extract.c24_enclosing`
* `Burl.Extract.c24_innermost`
* `Burl.Extract.c24_no_gap`
* `Burl.Links.c24_heading_regexp`
* `Burl.Extract.c24_violation_stale`
* `Burl.Extract.c24_violation_trailing_blank`
* `Burl.Extract.c24_violation_deep`
* `Burl.Extract.c25_links`
* `Burl.Extract.c26_serialised_partial`
* `Burl.Extract.c26_serialised_or_crash`
* `Burl.Extract.c26_violation_skipped_level`
* `Burl.Backend.c26_crash_partial`
* `Burl.Backend.c26_crash_gap`
* `Burl.Backend.c26_crash_exact`
* `Burl.Backend.c62_harmless`
* `Burl.Extract.c27_group`
* `Burl.Extract.c27_init`
* `Burl.Extract.c27_init_error`
* `Burl.Links.c28_scheme_partial`
* `Burl.Links.c28_file_partial`
* `Burl.Links.c28_without_brackets`
* `Burl.Links.c28_configured_partial`
* `Burl.Links.c28_configured_one`
* `Burl.Links.c28_exact`
* `Burl.Links.c28_bracket`
* `Burl.Links.c28_violation`
* `Burl.Links.c28_violation_plus`
* `Burl.Links.c29_prefix`
* `Burl.Links.c29_written`
* `Burl.Links.c30_literal`
* `Burl.Links.c30_refused`
* `Burl.Links.c30_no_sources`
* `Burl.Links.c31_refused`
* `Burl.Links.c31_union`
* `Burl.Links.c31_opened`
* `Burl.Links.c31_exact`
* `Burl.Scan.c32_lines`
* `Burl.Scan.c32_long`
* `Burl.Scan.c32_lines_exist`
* `Burl.Scan.c32_pieces_irrelevant`
* `Burl.Scan.c32_org`
* `Burl.Scan.c32_txt`
* `Burl.Links.c33_terminates`
* `Burl.Links.c33_words`
* `Burl.Links.c33_not_shape`
* `Burl.Scan.c33_bytes`
* `Burl.Links.c53_normalised`
* `Burl.Links.c53_members`
* `Burl.Links.c53_update`
* `Burl.Emacs.c34_refused`
* `Burl.Emacs.c34_visit`
* `Burl.Emacs.c34_success`
* `Burl.Emacs.c34_exact`
* `Burl.Emacs.c34_failure`
* `Burl.Emacs.c35_processes`
* `Burl.Emacs.c35_no_options`
* `Burl.Emacs.c35_lisp`
* `Burl.Emacs.c36_success`
* `Burl.Emacs.c36_failure`
* `Burl.Emacs.c36_preview`
* `Burl.Emacs.c36_answers`
* `Burl.Emacs.c36_in_turn`
* `Burl.Emacs.c37_partial`
* `Burl.Emacs.c37_violation`
* `Burl.Emacs.c37_sequential`
* `Burl.Backend.c39_succeeds`
* `Burl.Backend.c39_refused`
* `Burl.Backend.c39_reply`
* `Burl.Backend.c39_linkSet`
* `Burl.Backend.c39_disabled`
* `Burl.File.c40_others`
* `Burl.File.c41_keeps_files`
* `Burl.File.c42_same_partial`
* `Burl.File.c42_violation_prefix`
* `Burl.File.c42_violation_exact`
* `Burl.File.c42_outcome`
* `Burl.File.c42_succeeds`
* `Burl.File.c42_exact`
* `Burl.File.c42_content`
* `Burl.File.c43_violation`
* `Burl.File.c43_exact`
* `Burl.File.c44_agree`
* `Burl.File.c44_name`
* `Burl.File.c44_accepted_partial`
* `Burl.File.c44_accepted_named`
* `Burl.File.c44_plain`
* `Burl.File.c44_exact`
* `Burl.File.c44_violation`
* `Burl.File.c45_iff`
* `Burl.File.c45_effect`
* `Burl.Args.c47_round_trip`
* `Burl.Args.c47_paths`
* `Burl.Args.c47_printable_partial`
* `Burl.Args.c47_violation`
* `Burl.Args.c48_frame_partial`
* `Burl.Args.c48_ascii_partial`
* `Burl.Args.c48_violation_long`
* `Burl.Args.c48_violation_utf8`
* `Burl.Args.c48_violation_control`
* `Burl.Args.c48_exact`
* `Burl.Args.c48_exact_chars`
* `Burl.Args.c49_none`
* `Burl.Args.c49_refused`
* `Burl.Args.c49_exe_partial`
* `Burl.Args.c54_exact`
* `Burl.Args.c49_violation`
* `Burl.Args.c52_positional`
* `Burl.Args.c52_flags`
* `Burl.Args.c52_command_line`
* `Burl.Args.c52_dashes`
* `Burl.Args.c54_program`
* `Burl.Args.c54_settings`
* `Burl.Args.c54_manifest`
* `Burl.Args.c54_complete`
* `Burl.Args.c54_stops`
* `Burl.Args.c54_paths`
* `Burl.Args.c54_wrapper_alone`
* `Burl.Js.c50_settled`
* `Burl.Js.c50_ids`
* `Burl.Js.c50_resolved`
* `Burl.Js.c50_meaning_partial`
* `Burl.Js.c50_violation`
* `Burl.Tool.c51_printed_partial`
* `Burl.Tool.c51_total`
* `Burl.Tool.c51_violation`
* `Burl.Tree.c55_used_partial`
* `Burl.Links.c56_line`
* `Burl.Links.c56_configured`
* `Burl.Links.c56_file`
* `Burl.Links.c57_lines`
* `Burl.Links.c57_request`
* `Burl.Links.c58_word`
* `Burl.Links.c58_line`
* `Burl.Links.c58_file`
* `Burl.Rpc.Server.c59_replies`
* `Burl.Rpc.Server.c59_complete`
* `Burl.Rpc.Server.c59_distinct`
* `Burl.Rpc.Server.c59_progress`
* `Burl.Rpc.Server.c59_ends`
* `Burl.Rpc.Client.c60_once`
* `Burl.Rpc.Client.c60_outcome`
* `Burl.Rpc.Client.c60_numbers`
* `Burl.Rpc.Client.c60_requests`
* `Burl.Rpc.Client.c60_heard`
* `Burl.Rpc.Client.c60_progress`
* `Burl.Rpc.Client.c60_ends`
* `Burl.Rpc.Client.c60_closed`
* `Burl.Rpc.Client.c60_answers`
* `Burl.Backend.c61_exact`
* `Burl.Backend.c61_given_unique`
* `Burl.Backend.c61_given_plain`
* `Burl.Backend.c61_argument`
* `Burl.Backend.c61_unique`
* `Burl.Backend.c61_mentions`
* `Burl.Backend.c61_mentions_default`
* `Burl.Backend.c61_visit`
* `Burl.Backend.c61_visit_exact`
* `Burl.Backend.c61_search_exact`
* `Burl.Backend.c61_capture_exact`
* `Burl.Backend.c61_linkSet_exact`
* `Burl.Backend.c61_mentions_exact`
* `Burl.Backend.c61_hello_exact`
* `Burl.Backend.c61_linkSet_repeated`
* `Burl.Backend.c61_mentions_repeated`
* `Burl.Backend.c62_sound`
* `Burl.Backend.c62_limit`
* `Burl.Backend.c62_complete`
* `Burl.Backend.c62_total_partial`
* `Burl.Backend.c62_violation_total`
* `Burl.Backend.c62_total_exact`
* `Burl.Backend.c62_filtered`
* `Burl.Backend.c62_visit`
* `Burl.Backend.c62_linkSet`
* `Burl.Backend.c62_hello`
* `Burl.Backend.c62_capture`
* `Burl.Backend.c62_session`
* `Burl.Backend.c62_says`
* `Burl.Backend.c62_says_links`
* `Burl.Backend.c62_says_refused`
* `Burl.Backend.c62_says_session`
* `Burl.Backend.c62_result_partial`
* `Burl.Backend.c62_every_request_partial`
* `Burl.Backend.c62_says_every_request_partial`
* `Burl.Backend.c62_result`
* `Burl.Backend.c62_negative_silent`
* `Burl.Backend.c62_text_answered`
* `Burl.Rpc.Server.c59_crash`
* `Burl.Tool.Client.c63_split`
* `Burl.Tool.Client.c63_started`
* `Burl.Tool.Client.c63_query`
* `Burl.Tool.Client.c63_sends`
* `Burl.Tool.Client.c63_helloText`
* `Burl.Tool.Client.c63_visit_file`
* `Burl.Tool.Client.c63_visit_exact`
* `Burl.Tool.Client.c63_number`
* `Burl.Tool.Client.c63_called`
* `Burl.Tool.Client.c63_reply`
* `Burl.Tool.Client.c63_given`
* `Burl.Tool.Client.c63_says`
* `Burl.Tool.Client.c63_capture`
* `Burl.Tool.Client.c63_capture_data`
* `Burl.Tool.Client.c63_hello`
* `Burl.Tool.Client.c63_hello_any`
* `Burl.Tool.Client.c63_mentions`
* `Burl.Tool.Client.c63_mentions_all`
* `Burl.Tool.Client.c63_visit`
* `Burl.Tool.Client.c63_set`
* `Burl.Tool.Client.c63_done`
* `Burl.Tool.Client.c63_no_crash_partial`
* `Burl.Tool.Client.c63_violation_crash`
* `Burl.Tool.Client.c63_violation_line`
* `Burl.Tool.Line.c64_refused`
* `Burl.Tool.Line.c64_help`
* `Burl.Tool.Line.c64_unique`
* `Burl.Tool.Line.c64_set`
* `Burl.Tool.Line.c64_set_links`
* `Burl.Tool.Line.c64_tree_partial`
* `Burl.Tool.Line.c64_total`
* `Burl.Tool.Line.c64_no_arguments`
* `Burl.Backend.Line.c65_accepted`
* `Burl.Backend.Line.c65_refused`
* `Burl.Backend.Line.c65_settings`
* `Burl.Backend.Main.c66_serves`
* `Burl.Backend.Main.c66_starts`
* `Burl.Backend.Main.c66_info`
* `Burl.Backend.Main.c66_refused`
* `Burl.Backend.Main.c66_simple`
* `Burl.Backend.Main.c66_org_partial`
* `Burl.Backend.Main.c66_txt`
* `Burl.Backend.Main.c66_hello`
* `Burl.Backend.Main.c66_made`
* `Burl.Backend.Main.c66_write_failed`
* `Burl.Backend.Main.c66_wrapper`
* `Burl.Backend.Main.c66_violation_browser`
* `Burl.Rpc.Command.c67_returns`
* `Burl.Rpc.Command.c67_result`
* `Burl.Rpc.Command.c67_clean`
* `Burl.Rpc.Command.c67_alive`
* `Burl.JsonText.c68_decode`
* `Burl.JsonText.c68_encode`
* `Burl.JsonText.c68_roundtrip`
* `Burl.JsonText.c68_injective`
* `Burl.JsonText.c68_copied`
* `Burl.JsonText.c68_unambiguous`
* `Burl.JsonText.c68_exact`
* `Burl.JsonText.c68_refused`
* `Burl.JsonText.c68_string_unique`
* `Burl.JsonText.c69_requests`
* `Burl.JsonText.c69_session`
* `Burl.JsonText.c69_complete`
* `Burl.JsonText.c69_received`
* `Burl.JsonText.c69_right`
* `Burl.JsonText.c69_says`
* `Burl.JsonText.c69_says_refused`
* `Burl.JsonText.c69_sendable`
* `Burl.JsonText.c69_requests_beginning`
* `Burl.JsonText.c69_beginning`
* `Burl.JsonText.c69_refused`
* `Burl.JsonText.c69_every_request_partial`
* `Burl.JsonText.c69_served`
* `Burl.Addon.c70_fair`
* `Burl.Addon.c70_answered`
* `Burl.JsonText.c71_layout`
* `Burl.JsonText.c71_text`
* `Burl.JsonText.c71_read`
* `Burl.Args.c71_manifest`
* `Burl.Tool.Line.c71_tool_exact`
* `Burl.Tool.Line.c71_tool_partial`
* `Burl.Tool.Line.c71_crash`
* `Burl.Tool.Line.c71_printed`
* `Burl.Tool.Line.c71_set`
* `Burl.Tool.Line.c71_silent`
* `Burl.Args.c71_violation_bytes`
* `Burl.JsonText.c71_any_bytes`
* `Burl.JsonText.c71_replaced`
* `Burl.JsonText.c71_read_bytes`
* `Burl.Tool.Line.c71_violation_skipped_level`
* `Burl.JsonText.c72_reply`
* `Burl.JsonText.c72_says`
* `Burl.JsonText.c72_error`
* `Burl.JsonText.c72_single`
* `Burl.JsonText.c72_small_partial`
* `Burl.JsonText.c72_clear_partial`
* `Burl.JsonText.c72_violation`
* `Burl.Tool.Client.c73_output`
* `Burl.Tool.Client.c73_small`
* `Burl.Tool.Client.c73_mentions`
* `Burl.Tool.Client.c73_visit`
* `Burl.Tool.Client.c73_set`
* `Burl.Tool.Client.c73_silent`
* `Burl.Tool.Client.c73_hello`
* `Burl.Tool.Client.c73_hello_default`
* `Burl.Tool.Client.c73_hello_exact`
* `Burl.Tool.Client.c73_output_order`
* `Burl.Tool.Client.c73_canonical`
* `Burl.Args.c74_script`
* `Burl.Backend.Main.c74_browser`
* `Burl.Args.c74_violation_newline`
* `Burl.Backend.Main.c75_firefox`
* `Burl.Backend.Main.c75_chrome`
* `Burl.Scan.c76_words`
* `Burl.Scan.c76_words_exist`
* `Burl.Scan.c76_pieces_irrelevant`
* `Burl.Scan.c76_calls`
* `Burl.Scan.c76_all`
* `Burl.Scan.c76_refused`
* `Burl.Scan.c76_same`
* `Burl.Example.c77_names`
* `Burl.Example.c77_message`
* `Burl.Example.c77_reply`
* `Burl.Example.c77_unique`
* `Burl.Example.c77_requests`
* `Burl.Example.c77_texts`
* `Burl.Example.c77_any`
* `Burl.Example.c77_asleep`
* `Burl.Example.c77_concurrent`
* `Burl.Example.c78_started`
* `Burl.Example.c78_status`
* `Burl.Example.c78_lines`
* `Burl.Example.c78_heard`
* `Burl.Example.c78_any`
* `Burl.Example.c78_violation`
* `Burl.Example.c79_report`
* `Burl.Example.c79_once`
* `Burl.Example.c79_reported`
* `Burl.Example.c79_violation_restart`
* `Burl.Example.c79_violation_zero`
* `Burl.JsonText.c80_requests`
* `Burl.JsonText.c80_session`
* `Burl.JsonText.c80_accepted`
* `Burl.JsonText.c80_ends`
* `Burl.JsonText.c80_alive_partial`
* `Burl.JsonText.c80_crash`
* `Burl.JsonText.c80_served`
* `Burl.JsonText.c80_violation`
* `Burl.Addon.c81_settled`
* `Burl.Addon.c81_pending`
* `Burl.Addon.c81_one`
* `Burl.Addon.c81_ignored`
* `Burl.JsonText.c82_replies`
* `Burl.JsonText.c82_result`
* `Burl.JsonText.c82_error`
* `Burl.Tool.Client.c82_printed`
* `Burl.Tool.Client.c82_output`

## propext (18)

* `Burl.Frame.c03_unread_refused`
* `Burl.Fuzzy.c14_words`
* `Burl.Tree.c17_all_links`
* `Burl.Tree.c23_reply_unique`
* `Burl.Backend.c38_once`
* `Burl.Backend.c38_complete`
* `Burl.Backend.c38_result`
* `Burl.Backend.c38_same`
* `Burl.Backend.c38_stable`
* `Burl.Backend.c38_refused`
* `Burl.Backend.c38_no_deadlock`
* `Burl.Args.c46_values`
* `Burl.Args.c46_replay`
* `Burl.Args.c46_modified`
* `Burl.Tool.c51_usage`
* `Burl.Tool.c51_violation_any`
* `Burl.Rpc.Command.c67_exact`
* `Burl.Rpc.Command.c67_lost`

## propext, Quot.sound (35)

* `Burl.Frame.c05_prefix_and_reset`
* `Burl.Frame.c05_pieces`
* `Burl.Rpc.c08_exact_unique`
* `Burl.Tree.c17_forEachLink`
* `Burl.Tree.c18_counted_part`
* `Burl.Tree.c20_firstByUrl_complete`
* `Burl.Tree.c20_firstByUrl_nodup`
* `Burl.Extract.c24_labels`
* `Burl.Extract.c25_lineNo`
* `Burl.Extract.c27_untilFailure`
* `Burl.File.c40_atomic`
* `Burl.File.c40_entry`
* `Burl.File.c40_error`
* `Burl.File.c40_no_litter`
* `Burl.File.c40_no_panic`
* `Burl.File.c41_unchanged`
* `Burl.File.c41_differs`
* `Burl.File.c42_written_partial`
* `Burl.File.c42_stdout`
* `Burl.File.c42_violation_empty`
* `Burl.File.c42_ends`
* `Burl.File.c42_goes_on`
* `Burl.File.c43_written`
* `Burl.File.c43_executable_partial`
* `Burl.Args.c46_refused`
* `Burl.Js.c50_once`
* `Burl.Js.c50_unsent`
* `Burl.Js.c50_sent`
* `Burl.Js.c50_unknown`
* `Burl.Js.c50_live`
* `Burl.Tree.c55_no_repetitions`
* `Burl.Rpc.Command.c67_command`
* `Burl.Args.c74_printable_partial`
* `Burl.Example.c77_pause_partial`
* `Burl.Example.c77_violation`

## none (1)

* `Burl.Args.c52_clone`
