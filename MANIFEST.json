{"claims": [
  {"property": "C01", "status": "proved", "theorems": ["Toon.C01_round_trip", "Toon.C01_round_trip_exact", "Toon.C01_round_trip_all_numbers", "Toon.C01_round_trip_lines"], "note": "Values without NaN, infinities and negative zero come back equal (exactly so when the rows of tables list their keys in one order); C01_round_trip_all_numbers says what happens to the others. Writable excludes the values on which the code fails (C02, C03)."},
  {"property": "C02", "status": "proved", "theorems": ["Toon.C02_header_like"], "note": "Negative result, exact: the one-entry object comes back if and only if the string does not look like an array header (F1)."},
  {"property": "C03", "status": "proved", "theorems": ["Toon.C03_brace_error", "Toon.C03_brace_iff"], "note": "Negative result, exact: the encoded table is refused if and only if a column name contains a closing brace (F2)."},
  {"property": "C04", "status": "proved", "theorems": ["Toon.C04_events", "Toon.C04_events_exact"], "note": "Up to the quoted flag of keys and key order in table rows; exact on aligned values (C04_events_exact)."},
  {"property": "C05", "status": "proved", "theorems": ["Toon.C05_string_token"], "note": "Every string, with or without quotes, reads back as itself."},
  {"property": "C06", "status": "proved", "theorems": ["Toon.C06_primitive_token"], "note": "Every primitive, after normalization, reads back as itself."},
  {"property": "C07", "status": "proved", "theorems": ["Toon.C07_unescape_iff", "Toon.C07_escape", "Toon.C07_unescape_escape", "Toon.C07_closing_quote"], "note": "Exact inverse relation of escaping and unescaping, the set of strings that can be unescaped, and the position of the closing quote."},
  {"property": "C08", "status": "proved", "theorems": ["Toon.C08_row_split", "Toon.C08_row_values"], "note": "A written row splits into its cells, for every delimiter of the format."},
  {"property": "C09", "status": "proved", "theorems": ["Toon.C09_key"], "note": "Every key reads back with its quoted flag."},
  {"property": "C10", "status": "proved", "theorems": ["Toon.C10_header"], "note": "Every header reads back with key, length, delimiter and columns."},
  {"property": "C11", "status": "proved", "theorems": ["Toon.C11_lines", "Toon.C11_split", "Toon.C11_empty", "Toon.C11_no_trailing"], "note": "No line contains a line break; the text is the lines joined; no trailing line break; empty text only for the empty object."},
  {"property": "C12", "status": "proved", "theorems": ["Toon.C12_no_panic", "Toon.C12_table"], "note": "Termination: every model function is a total Lean function."},
  {"property": "C13", "status": "proved", "theorems": ["Toon.C13_total", "Toon.C13_total_events"], "note": "The descent never exhausts a depth of 5 lines + 5 calls; the decision is by the model's recursion, which every loop of the code corresponds to."},
  {"property": "C14", "status": "proved", "theorems": ["Toon.C14_well_formed", "Toon.C14_errors", "Toon.C14_value"], "note": "The events of a successful run are those of one tree; the error of the event builder does not occur; the value is that of the tree."},
  {"property": "C15", "status": "proved", "theorems": ["Toon.C15_build_emit", "Toon.C15_build_tree"], "note": "The builder gives the value of the tree whose events it is fed. What it does with other sequences: C69."},
  {"property": "C16", "status": "proved", "theorems": ["Toon.C16_declared"], "note": "Every declared length of a successful run stands in brackets in some line, is at most the cap, and in strict mode is the number of elements."},
  {"property": "C17", "status": "proved", "theorems": ["Toon.C17_events", "Toon.C17_value", "Toon.C17_reject"], "note": "All texts (well-formed or not), all indents, expansion off or safe: strict success implies the same lax events and value; a lax error implies a strict error."},
  {"property": "C18", "status": "proved", "theorems": ["Toon.C18_strict_indent"], "note": "Strict mode accepts only indentation by multiples of the unit, without tabs."},
  {"property": "C19", "status": "proved", "theorems": ["Toon.C19_lax", "Toon.C19_strict", "Toon.C19_trailing", "Toon.C19_leading", "Toon.C19_newline"], "note": "All texts, expansion on or off. C19_lax: deleting blank lines never changes the lax outcome; C19_strict: nor a strict success; trailing blank lines never change anything, leading ones never change the value."},
  {"property": "C20", "status": "proved", "theorems": ["Toon.C20_plain_numbers"], "note": "No decoded value contains NaN, an infinity or negative zero."},
  {"property": "C21", "status": "proved", "theorems": ["Toon.C21_grammar", "Toon.C21_number_token", "Toon.C21_string_quoted"], "note": "Which tokens are numbers, by a grammar stated separately; strings of this form are quoted."},
  {"property": "C22", "status": "proved", "theorems": ["Toon.C22_plain", "Toon.C22_identity", "Toon.C22_idempotent", "Toon.C22_shape", "Toon.C22_encode"], "note": "Normalization: exact result on numbers, idempotent, keeps shape; encoding sees only the normalized value."},
  {"property": "C23", "status": "proved", "theorems": ["Toon.C23_lossless", "Toon.C23_lossless_exact", "Toon.C23_any_depth", "Toon.C23_dotted_key"], "note": "All encoder options; strict and lax. Nesting at most 127 (see F13); any depth in C23_any_depth."},
  {"property": "C24", "status": "proved", "theorems": ["Toon.C24_leaves", "Toon.C24_leaves_ordered", "Toon.C24_distinct", "Toon.FoldCollision.C24_collision"], "note": "dotLeaves in Spec/Paths. C24_collision shows that the proviso of C24_distinct is needed (F14)."},
  {"property": "C25", "status": "proved", "theorems": ["Toon.C25_shallow", "Toon.C25_segments"], "note": "FoldedFrom in Spec/Paths."},
  {"property": "C26", "status": "proved", "theorems": ["Toon.C26_distinct"], "note": "All texts, strict and lax."},
  {"property": "C27", "status": "proved", "theorems": ["Toon.C27_outcome", "Toon.C27_value", "Toon.C27_strict_leaves", "Toon.C27_lax_leaves", "Toon.C27_last_wins", "Toon.C27_lax_total", "Toon.C17_value"], "note": "expanded, conflicting, pathLeaves in Spec/Expansion."},
  {"property": "C28", "status": "proved", "theorems": ["Toon.C28_untouched"], "note": "AllKeys, DottedPath in Spec/Paths."},
  {"property": "C29", "status": "proved", "theorems": ["Toon.C29_cap", "Toon.C29_beyond", "Toon.C27_outcome", "Toon.ExpandDeep.C29_deeper_than_cap", "Toon.ExpandDeep.C29_half_cap", "Toon.C100_deepest"], "note": "depthNeeded, pathHeight in Spec/Expansion; the last two are the counterexamples to the plain reading of the cap (F13)."},
  {"property": "C30", "status": "proved", "theorems": ["Toon.C30_identity", "Toon.C30_calls", "Toon.C30_root", "Toon.C30_object", "Toon.C30_array", "Toon.C30_prim", "Toon.C30_drop_all", "Toon.C30_encode", "Toon.C30_events"], "note": "For stateful replacers: identity, exact account of the calls, normalized results. For replacers without state: exact description of the result (object, array, primitive, root)."},
  {"property": "C31", "status": "proved", "theorems": ["Toon.C31_terminates", "Toon.C31_diverges"], "note": "Terminates when no reply is nested deeper than its argument; never terminates when every reply is a non-empty container."},
  {"property": "C32", "status": "proved", "theorems": ["Toon.C32_polls", "Toon.C32_collect", "Toon.C32_polls_replaced", "Toon.C32_collect_replaced"], "note": "For every number of polls, and for collecting: the asynchronous event stream yields the events of encode_stream_events, then None for ever."},
  {"property": "C33", "status": "proved", "theorems": ["Toon.C33_polls", "Toon.C33_collect", "Toon.C33_polls_replaced", "Toon.C33_async", "Toon.C33_len"], "note": "For every number of polls, and for collecting: the asynchronous line stream yields the lines of encode_lines, then None for ever."},
  {"property": "C34", "status": "proved", "theorems": ["Toon.C34_flat", "Toon.C34_root_array", "Toon.C34_root_primitive", "Toon.C34_encoded", "Toon.C34_nested", "Toon.C34_nested_differs", "Toon.C34_not_full", "Toon.C34_inline_array", "Toon.C34_error_forever", "Toon.C34_poll_returns", "Toon.C34_indentation_ignored", "Toon.C34_batch"], "note": "agreement on flat objects, root arrays and root primitives; full agreement is false of the code (C34_not_full and the general C34_nested_differs)"},
  {"property": "C35", "status": "proved", "theorems": ["Toon.C35_denotes", "Toon.C35_exact", "Toon.C35_read_back", "Toon.C35_injective", "Toon.C35_layout", "Toon.C35_null"], "note": "JsonDoc is the grammar of RFC 8259 (Spec/JsonText.lean); printing a finite f64 is assumed to give a JSON number that reads back (LawfulJsonNum), shown for the binary64 model. NaN and infinities print as null (C35_denotes)."},
  {"property": "C36", "status": "proved", "theorems": ["Toon.C36_denotes", "Toon.C36_layout", "Toon.C36_same_bytes", "Toon.C36_trees", "Toon.C36_bytes_differ", "Toon.C36_malformed_refused", "Toon.C36_malformed_accepted", "Toon.C36_malformed_built"], "note": "Without path expansion (with it the tool prints the value). Same bytes unless a string has U+0008, U+000C or U+007F-U+009F; witness that bytes then differ (F11). Malformed event lists are accepted in some cases (F16)."},
  {"property": "C37", "status": "proved", "theorems": ["Toon.C37_trailing_space", "Toon.C37_crlf", "Toon.C37_crlf_written", "Toon.C37_crlf_round_trip", "Toon.LineEndsExample.C37_bare_hyphen", "Toon.LineEndsExample.C37_hyphen_space", "Toon.LineEndsExample.C37_tab"], "note": "Simulation of the whole decoder on lines that differ in trailing white space; the three exceptions have concrete witnesses."},
  {"property": "C38", "status": "proved", "theorems": ["Toon.C38_prefix", "Toon.C38_same_events", "Toon.C38_after_array", "Toon.C38_after_field"], "note": "C38_prefix: the unread lines are a suffix of the text and only the first of them can influence the result (texts without blank lines, indented by multiples of the indent). C38_after_array/C38_after_field: infinite families of texts with silently ignored trailing lines (the defect), with concrete witnesses beside them."},
  {"property": "C39", "status": "proved", "theorems": ["Toon.C39_injective"], "note": "Values of the round-trip class with the same text are equal up to the order of keys."},
  {"property": "C40", "status": "proved", "theorems": ["Toon.C40_stable"], "note": "key folding off; C99 is for folding"},
  {"property": "C41", "status": "proved", "theorems": ["Toon.C41_independent"], "note": "Delimiter, indent and strict flag do not influence the value read back."},
  {"property": "C42", "status": "proved", "theorems": ["Toon.C42_object", "Toon.C42_value", "Toon.C42_distinct", "Toon.C42_identity", "Toon.C42_back", "Toon.C42_round_trip", "Toon.C42_from_text"], "note": "serde_json's map (preserve_order) and its from_str (RFC 8259, nesting below 128) are modelled; numbers are their as_f64 value."},
  {"property": "C43", "status": "proved", "theorems": ["Toon.C43_mode", "Toon.C43_flags", "Toon.C43_stdin", "Toon.C43_delimiter", "Toon.C43_delimiter_good"], "note": "clap itself is not modelled; file extensions as in std::path on Unix, specified by HasExtension."},
  {"property": "C44", "status": "proved", "theorems": ["Toon.C44_bytes", "Toon.C44_slice", "Toon.C44_slice_panics", "Toon.C44_closing_quote", "Toon.C44_unquoted_char", "Toon.C44_numeric_like", "Toon.C44_decode", "Toon.C44_no_panic", "Toon.C44_stream"], "note": "Model/Utf8.lean repeats the scanning functions, the key and header parsers and the whole synchronous decoder with byte offsets into the UTF-8 text and slices that panic off a character boundary; it is proved equal to the character-level model for every text and all options, hence never panics. Slices after strip_prefix/trim/lines, which are safe methods of str, keep their character-level models."},
  {"property": "C45", "status": "proved", "theorems": ["Toon.C45_cells", "Toon.C45_unique", "Toon.C45_inline"], "note": "Cells, SplitsInto in Spec/Cells."},
  {"property": "C46", "status": "proved", "theorems": ["Toon.C46_token", "Toon.C46_unique", "Toon.C46_rejected", "Toon.C46_document", "Toon.C46_quoted_key", "Toon.C46_bare_key"], "note": "TokenMeans in Spec/Cells."},
  {"property": "C47", "status": "proved", "theorems": ["Toon.C47_string", "Toon.C47_white_space"], "note": "PlainText in Spec/Cells."},
  {"property": "C48", "status": "proved", "theorems": ["Toon.C48_lax", "Toon.C48_strict"], "note": "ItemMeans in Spec/Arrays."},
  {"property": "C49", "status": "proved", "theorems": ["Toon.C49_lax", "Toon.C49_strict"], "note": "RowMeans in Spec/Arrays."},
  {"property": "C50", "status": "proved", "theorems": ["Toon.C49_strict", "Toon.C48_strict", "Toon.C49_lax", "Toon.C48_lax"], "note": "BlanksOutside in Spec/Arrays."},
  {"property": "C51", "status": "proved", "theorems": ["Toon.C51_table", "Toon.C51_list"], "note": "One-level root arrays."},
  {"property": "C52", "status": "proved", "theorems": ["Toon.C52_row", "Toon.C52_item", "Toon.C52_hyphen_dropped", "Toon.C52_dash_row_dropped", "Toon.C52_colon_row_dropped"], "note": "The last three are the counterexamples (finding F12)."},
  {"property": "C53", "status": "proved", "theorems": ["Toon.C53_folds"], "note": "Chains of identifiers ending in a primitive."},
  {"property": "C54", "status": "proved", "theorems": ["Toon.C54_toon_to_json", "Toon.C54_library", "Toon.C54_library_plain", "Toon.C54_run_decode", "Toon.C54_run_encode", "Toon.C54_command_line", "Toon.C54_command_line_folded", "Toon.CliExample.C54_duplicates_differ", "Toon.CliExample.C54_integers", "Toon.CliExample.C54_nesting"], "note": "How a numeric token of the input is read is a parameter rd; the output is read with the correctly rounding reader. Writable as in C01."},
  {"property": "C55", "status": "proved", "theorems": ["Toon.C55_unlimited", "Toon.C55_encode_defaults", "Toon.C55_encode_given", "Toon.C55_decode_defaults", "Toon.C55_decode_given", "Toon.C55_stream_defaults", "Toon.C55_js_encode_defaults", "Toon.C55_js_decode_defaults", "Toon.C55_js_given", "Toon.C55_js_not_object"], "note": "The two *_given theorems hold by definition; they pin down which model options the Rust options are."},
  {"property": "C56", "status": "proved", "theorems": ["Toon.C56_one_layout", "Toon.C56_lines", "Toon.C56_text", "Toon.C56_plain"], "note": "The layout of a value is an inductive relation (Spec/Layout.lean) with declarative conditions for tables, inline arrays and folding, proved functional and total; the lines of a layout are given by a small separate printer."},
  {"property": "C57", "status": "proved", "theorems": ["Toon.C57_refused", "Toon.C57_refused_error", "Toon.C57_crash", "Toon.C57_stdout", "Toon.C57_success", "Toon.C57_stdout_complete", "Toon.C57_stats_complete", "Toon.C57_file_nearly_complete", "Toon.C57_silent_loss", "Toon.C57_not_atomic", "Toon.C57_after", "Toon.C57_two_runs"], "note": "Model of the tool's input and output with the buffering of the Rust standard library (BufWriter, LineWriter) and an operating system that may fail at any operation; interruption at any point, also in the middle of an operation. Proved for all inputs, options, failures and crash points. Two clauses are negative: a lost tail (at most 8192 bytes) of an output file is not reported (F20), and the output file is emptied before it is written (not atomic)."},
  {"property": "C58", "status": "proved", "theorems": ["Toon.C58_events", "Toon.C58_value", "Toon.C58_unique", "Toon.C58_rejected", "Toon.C58_expanded", "Toon.C58_expanded_ok", "Toon.C58_lenient"], "note": "Spec/Grammar.lean: ScansTo, EntryMeans, ArrayMeans, ItemMeans', DocumentMeans, TextMeans. Expansion: with the depth bound of C27; the exact condition is C63_value."},
  {"property": "C59", "status": "proved", "theorems": ["Toon.C59_indentation", "Toon.C59_nesting", "Toon.C59_values", "Toon.C59_volume", "Toon.C59_quadratic", "Toon.C59_repeated_names", "Toon.C59_filled_rows"], "note": "Upper bounds by induction over the grammar of C58; the lower bounds are explicit families of tables for every number of rows up to the limit of 10^8 and every width. The bounds are about the value that is returned, not about the allocations of the Rust program."},
  {"property": "C60", "status": "proved", "theorems": ["Toon.C60_events", "Toon.C60_exact", "Toon.C60_fault_first", "Toon.C60_expanded", "Toon.C60_conflict", "Toon.C60_unique", "Toon.C60_either", "Toon.C60_says", "Toon.C60_text", "Toon.C60_line", "Toon.C60_no_line", "Toon.C60_distinct"], "note": "Grammar of first faults in Spec/Faults.lean, first conflict in Spec/Conflicts.lean, what the data of an error say in Spec/Complaints.lean, message texts in Model/Message.lean. C60_expanded and C60_conflict leave open which of conflict and depth cap comes first when the value is nested deeper than 255 by the count of C29; C63_error settles it. C60_no_line is finding F23."},
  {"property": "C61", "status": "proved", "theorems": ["Toon.C61_unreadable", "Toon.C61_not_json", "Toon.C61_not_toon", "Toon.C61_not_created", "Toon.C61_not_written", "Toon.C61_decoded", "Toon.C61_encoded", "Toon.C61_silent", "Toon.C61_failure", "Toon.C61_stats_harmless", "Toon.C61_estimate", "Toon.C61_white_space", "Toon.C61_note_untrue", "Toon.C61_layout_matters"], "note": "Texts of the operating system and of serde_json are parameters. The arithmetic of the percentage is that of the binary64 model (division, multiplication, formatting with one place, ties to even). C61_note_untrue is a consequence of F20; C61_layout_matters is finding F24."},
  {"property": "C62", "status": "proved", "theorems": ["Toon.C62_pretty", "Toon.C62_regular", "Toon.C62_flat", "Toon.C62_table", "Toon.C62_nested", "Toon.C62_empties", "Toon.SizeExample.C62_small", "Toon.SizeExample.C62_number"], "note": "Lengths are in characters. The hypothesis NumberFits says that a number's plain decimal text is no longer than its JSON text; serde_json prints exponents from 1e16 and below 1e-5, where it can fail (C62_number). DistinctKeys is needed because cells are looked up by key. C62_nested, C62_empties, C62_small and C62_number are finding F25: there the unrestricted claim is false."},
  {"property": "C63", "status": "proved", "theorems": ["Toon.C63_outcome", "Toon.C63_value", "Toon.C63_error", "Toon.C63_conflicts", "Toon.C63_depth", "Toon.C63_lax", "Toon.C63_plain"], "note": "Spec/Hurdles.lean: the levels and conflicts expansion passes, in the order of its walk. Sharpens C27, C29, C58 and C60, which bound the depth from below and above only."},
  {"property": "C64", "status": "proved", "theorems": ["Toon.C64_total", "Toon.C64_exact", "Toon.C64_prefix", "Toon.C64_waits", "Toon.C64_array_waits", "Toon.C64_entries_stream", "Toon.C64_root_primitive", "Toon.C64_tree", "Toon.C64_no_error"], "note": "For every list of lines the answers of the incremental decode stream, poll by poll, together with the number of lines taken from the source at that moment, are those of a separate specification (Spec/Incremental.lean) given by the grammar (C58) and its faults (C60). The claims of the README that decoding needs no full buffering are false of arrays and nested objects (C64_waits, C64_array_waits; finding F26)."},
  {"property": "C65", "status": "proved", "theorems": ["Toon.C65_events", "Toon.C65_value", "Toon.C65_safe", "Toon.C65_safe_folded", "Toon.C65_accepted", "Toon.C65_zero_read", "Toon.C65_zero_written", "Toon.C65_cli_zero", "Toon.C65_cli", "Toon.C65_lax_differs", "Toon.C65_zero_loses"], "note": "Meaning is independent of the unit for every text (C65_events, C65_value); exact acceptance for written texts (C65_accepted, C65_zero_written); lax mode and unit 0 differ: witnesses C65_lax_differs (F27), C65_zero_loses (F4)."},
  {"property": "C66", "status": "proved", "theorems": ["Toon.C66_foreign", "Toon.C66_root_witness", "Toon.C66_key_witness", "Toon.C66_exceptions"], "note": "Negative result for every array and every option; the witnesses show the object that is silently read instead (F4), and what digits and the closing bracket do."},
  {"property": "C67", "status": "proved", "theorems": ["Toon.C67_rounded_unique", "Toon.C67_read", "Toon.C67_document", "Toon.C67_write", "Toon.C67_zero", "Toon.C67_from_integer", "Toon.C67_integers", "Toon.C67_integers_sharp"], "note": "On the concrete binary64 model (Model/Float64.lean), whose reading and display are shown equal to the specification in Spec/Numbers.lean (nearest, ties to even; shortest decimal, nearest among the shortest). That Rust's str::parse::<f64> and f64::to_string meet this specification is documented by the standard library and assumed. Exactness for all i64 is false: C67_integers_sharp (F28)."},
  {"property": "C68", "status": "proved", "theorems": ["Toon.C68_below_one", "Toon.C68_truncated", "Toon.C68_integer", "Toon.C68_js_integers", "Toon.C68_js_indent_written", "Toon.C68_js_indent_read"], "note": "For every width of usize (32 in WebAssembly). Rust's `as usize` from f64 is modelled by its reference semantics (truncation, saturation, NaN to 0). Loss of nesting: F29."},
  {"property": "C69", "status": "proved", "theorems": ["Toon.C69_build", "Toon.C69_build_kept", "Toon.C69_print", "Toon.C69_build_printed", "Toon.C69_print_more"], "note": "Exact languages (Spec/EventLanguage.lean) of the two consumers of events; F16."},
  {"property": "C70", "status": "proved", "theorems": ["Toon.C70_events", "Toon.C70_value", "Toon.C70_closed", "Toon.C70_written", "Toon.C70_entries", "Toon.C70_unnoticed", "Toon.C70_silent"], "note": "Line cuts for every text accepted by strict decoding without path expansion (C70_events for the event interface, C70_value for values); C70_closed when the value does not end in an object; C70_written and C70_unnoticed for texts written by the encoder without key folding, with the conditions of the exact round trip (C01); C70_silent has concrete cuts that pass, among them cuts inside a line, about which nothing is claimed in general."},
  {"property": "C71", "status": "proved", "theorems": ["Toon.C71_objects", "Toon.C71_after_array", "Toon.C71_after_unread", "Toon.C71_after_primitive", "Toon.C71_written", "Toon.C71_silent"], "note": "Every pair of texts, in both modes, without path expansion.  C71_objects asks that all lines of the first text are read (decodeStreamUnread reports 0, see C38) and that the second begins without indentation; C71_silent shows what happens otherwise.  An array text after an object is not covered by a general theorem, only by a witness in C71_silent."},
  {"property": "C72", "status": "proved", "theorems": ["Toon.C72_entries", "Toon.C72_nested", "Toon.C72_change", "Toon.C72_one_line", "Toon.C72_items", "Toon.C72_rows", "Toon.C72_unstable", "Toon.C72_folded"], "note": "The README's promise of stable diffs. C72_unstable: the two ways in which it fails (finding F32)."},
  {"property": "C73", "status": "proved", "theorems": ["Toon.C73_survives", "Toon.C73_survives_same", "Toon.C73_survives_exact", "Toon.C73_survives_lines", "Toon.C73_over_cap", "Toon.C73_reordered", "Toon.C73_duplicates", "Toon.C73_huge_length"], "note": "An equivalence: the condition of C01 is the exact boundary. Hypotheses: keys distinct inside each object, arrays shorter than 2^64, key folding and path expansion off."},
  {"property": "C74", "status": "proved", "theorems": ["Toon.C74_range", "Toon.C74_both_modes", "Toon.C74_other_indent", "Toon.C74_lost_by_encoder"], "note": "Path expansion off; C100 is with path expansion. The text for a value is written by a writer of the proof, not of the code."},
  {"property": "C75", "status": "proved", "theorems": ["Toon.C75_frames", "Toon.C75_depth", "Toon.C75_length", "Toon.C75_needed", "Toon.C75_overflow_or_same"], "note": "The decoder with its event vector, cursor by index and bounded call stack (Model/Frames.lean) is proved equal to the model the other properties are about, given four frames per level of indentation and four more; the staircase shows the bound is reached. Frames are counted for the recursive functions and the entry point; leaf functions (parsers, inline and tabular form) come on top with a constant number of calls."},
  {"property": "C76", "status": "proved", "theorems": ["Toon.C76_lenient", "Toon.C76_strict", "Toon.C76_square", "Toon.C76_blank_lines", "Toon.C76_quadratic", "Toon.C76_stack"], "note": "Steps are counted by Model/Frames.lean, the machine of C75, which is proved to compute the same events and errors as the model the other properties are about. Work inside a line (parsing) and the cutting into lines are not counted."},
  {"property": "C77", "status": "proved", "theorems": ["Toon.C77_frames", "Toon.C77_needed", "Toon.C77_overflow_or_same", "Toon.C77_json_text", "Toon.C77_decoded"], "note": "The stack is counted in calls of the functions that recurse, not in bytes; dropping values, the conversions into JsonValue and the replacer are not counted."},
  {"property": "C78", "status": "proved", "theorems": ["Toon.C78_plain", "Toon.C78_fold", "Toon.C78_lists", "Toon.C78_chain", "Toon.C78_cubic"], "note": "Only copies made by clone and to_vec of values are counted, not those of keys and lines."},
  {"property": "C79", "status": "proved", "theorems": ["Toon.C79_stack", "Toon.C79_needed", "Toon.C79_overflow_or_same", "Toon.C79_steps", "Toon.C79_quadratic"], "note": "The stack is counted in calls of the functions of expand.rs, not in bytes; the recursion of clone, of drop and of node_to_json is not counted, and of the work only key comparisons and copied values."},
  {"property": "C80", "status": "proved", "theorems": ["Toon.C80_only", "Toon.C80_survives", "Toon.C80_survives_shallow", "Toon.C80_survives_exact", "Toon.C80_depth", "Toon.C80_any_folding"], "note": "Exact characterisation; the direction from left to right has no bound on the nesting."},
  {"property": "C81", "status": "proved", "theorems": ["Toon.C81_events", "Toon.C81_events_end", "Toon.C81_lines", "Toon.C81_decode", "Toon.C81_blanks", "Toon.C81_flat", "Toon.C81_array", "Toon.C81_array_rejected"], "note": ""},
  {"property": "C82", "status": "proved", "theorems": ["Toon.C82_value", "Toon.C82_refused", "Toon.C82_accepted", "Toon.C82_written", "Toon.C82_honest", "Toon.C82_lost", "Toon.C82_added", "Toon.C82_empty_object_added", "Toon.C82_lax", "Toon.C82_entry_lost"], "note": ""},
  {"property": "C83", "status": "proved", "theorems": ["Toon.C83_value", "Toon.C83_missing", "Toon.C83_lost", "Toon.C83_honest", "Toon.C83_rest_lost"], "note": ""},
  {"property": "C84", "status": "proved", "theorems": ["Toon.C84_value", "Toon.C84_same", "Toon.C84_respelled"], "note": ""},
  {"property": "C85", "status": "proved", "theorems": ["Toon.C85_stack", "Toon.C85_needed", "Toon.C85_overflow_or_same", "Toon.C85_calls", "Toon.C85_expanded", "Toon.C85_reserved", "Toon.C85_reserved_three", "Toon.C85_tight", "Toon.C85_enough", "Toon.C85_short", "Toon.C85_expanded_needed"], "note": "Calls are counted, not bytes of stack; usize does not overflow in the model."},
  {"property": "C86", "status": "proved", "theorems": ["Toon.C86_decode", "Toon.C86_encode"], "note": "The hash function itself, and what a set does when it is full, are not modelled."},
  {"property": "C87", "status": "proved", "theorems": ["Toon.C87_bound", "Toon.C87_table", "Toon.C87_tight", "Toon.C87_siblings"], "note": "Comparisons are counted by functions that follow the encoder; lookups in the hash set of root keys are not counted."},
  {"property": "C88", "status": "proved", "theorems": ["Toon.C88_result", "Toon.C88_bound", "Toon.C88_levels", "Toon.C88_power", "Toon.C88_nested", "Toon.C88_reached", "Toon.C88_held", "Toon.C88_least"], "note": "Counts the copies of whole lines in the synchronous decoder; the copies of parts of a line made by parsing and the copies made by scanning are not counted. `levels` and `charCount` are defined on the source alone."},
  {"property": "C89", "status": "proved", "theorems": ["Toon.C89_visible", "Toon.C89_object", "Toon.C89_scalar", "Toon.C89_array", "Toon.C89_json"], "note": "C89_visible is for all texts and options. C89_object is for texts whose first character is visible and none of quote, bracket, colon; C89_scalar for those that do not begin with a quote; C89_array for arrays whose further lines are indented, as the encoder writes them."},
  {"property": "C90", "status": "proved", "theorems": ["Toon.C90_under", "Toon.C90_path", "Toon.C90_array", "Toon.C90_list"], "note": "C90_under and C90_path are for texts that begin with a visible character other than a bracket; C90_array for arrays whose further lines are indented, as the encoder writes them; C90_list for texts of objects (lists of primitives are C48; lists of array texts are not covered)."},
  {"property": "C91", "status": "proved", "theorems": ["Toon.C91_outcome", "Toon.C91_misread", "Toon.C91_field", "Toon.C91_denied"], "note": "Key folding and path expansion off; C97 is for all options. C91_field is for fields under keys written without quotes: the second example shows a misread entry taking the key of an entry whose key needs quotes."},
  {"property": "C92", "status": "proved", "theorems": ["Toon.C92_text", "Toon.C92_hidden", "Toon.C92_gone"], "note": "Masks are primitives (a mask that is an object is itself given to the replacer).  C92_gone is without key folding and path expansion; C97_gone and C97_gone_expanded are with them."},
  {"property": "C93", "status": "proved", "theorems": ["Toon.C93_result", "Toon.C93_bound", "Toon.C93_least", "Toon.C93_text"], "note": "A pass counts the text it is given to go over, even if it ends early.  Not counted: the copies of whole lines (C88), the search for blank lines (C76), the names put into the events of every row (C59), building the value."},
  {"property": "C94", "status": "proved", "theorems": ["Toon.C94_unused", "Toon.C94_exact", "Toon.C94_plain", "Toon.C94_fold", "Toon.C94_not_linear"], "note": "Counted are the characters of paths and folded keys.  Copies of whole values are counted in C78, comparisons of keys in C87."},
  {"property": "C95", "status": "proved", "theorems": ["Toon.C95_result", "Toon.C95_bound", "Toon.C95_least"], "note": "Counted are the characters gone over to write.  Copies of whole values are counted in C78, comparisons of keys in C87, paths in C94."},
  {"property": "C96", "status": "proved", "theorems": ["Toon.C96_same_error", "Toon.C96_lax", "Toon.C96_helped", "Toon.C96_conflict", "Toon.C96_kind", "Toon.C96_validation", "Toon.C96_lax_kind", "Toon.C96_panics", "Toon.C96_panics_language", "Toon.C96_panics_lines", "Toon.C96_not_message"], "note": "C96_not_message is the finding F47: the integration guide says that all library errors are of the variant Message."},
  {"property": "C97", "status": "proved", "theorems": ["Toon.C97_tree", "Toon.C97_value", "Toon.C97_expanded", "Toon.C97_keys", "Toon.C97_keys_expanded", "Toon.C97_gone", "Toon.C97_gone_expanded", "Toon.C97_denied", "Toon.C97_dotted_back", "Toon.C97_segment_back"], "note": "C97_dotted_back and C97_segment_back are the finding F48."},
  {"property": "C98", "status": "proved", "theorems": ["Toon.C98_lines", "Toon.C98_entries", "Toon.C98_entries_exact", "Toon.C98_fold", "Toon.C98_reserved", "Toon.C98_enough", "Toon.C98_values", "Toon.C98_short", "Toon.C98_excess", "Toon.C98_cells", "Toon.C98_cells_exact", "Toon.C98_not_keys"], "note": "C98_not_keys is part of the finding F49."},
  {"property": "C99", "status": "proved", "theorems": ["Toon.C99_lines", "Toon.C99_same", "Toon.C99_again", "Toon.C99_stable", "Toon.C99_read", "Toon.C99_round", "Toon.C99_becomes_table", "Toon.C99_limit"], "note": "The joined value is Layout.joined of the layout of C56. C99_becomes_table is the finding F50; C99_limit shows that the hypothesis on the limit is needed. C99_read is for values in which no list becomes a table."},
  {"property": "C100", "status": "proved", "theorems": ["Toon.C100_only", "Toon.C100_every", "Toon.C100_all_modes", "Toon.C100_range", "Toon.C100_literal", "Toon.C100_deepest", "Toon.C100_no_need", "Toon.C100_limit"], "note": "Path expansion on; C74 is without. Between leastLevels and plainLevels (values with identifiers that are nested more than 127 deep) the answer depends on how the keys can be joined and is not characterised further. C100_deepest is the finding F51."},
  {"property": "C101", "status": "proved", "theorems": ["Toon.C101_conversions", "Toon.C101_way", "Toon.C101_expanded", "Toon.C101_expanded_needed", "Toon.C101_ends", "Toon.C101_overflow_or_same", "Toon.C101_wrap", "Toon.C101_stack", "Toon.C101_keep", "Toon.C101_bounds", "Toon.C101_quadratic"], "note": "Calls are counted, not bytes; the calls inside the replacer of the user and those of clone and drop are not. The cost is finding F52."},
  {"property": "C102", "status": "proved", "theorems": ["Toon.C102_joined", "Toon.C102_parts", "Toon.C102_depth", "Toon.C102_cut", "Toon.JoinExpanded.C102_lax", "Toon.JoinExpanded.C102_quotes", "Toon.JoinExpanded.C102_deep", "Toon.ExpandDeep.C29_half_cap"], "note": "The lax mode and mixed quoting are finding F53."},
  {"property": "C103", "status": "proved", "theorems": ["Toon.C103_plain", "Toon.C103_expanded", "Toon.C103_texts", "Toon.JoinExpanded.C103_lax", "Toon.JoinExpanded.C103_deep"], "note": "Which of several conflicts is reported does depend on the order (C60, C63); that the order decides near the cap is part of finding F53."},
  {"property": "C104", "status": "proved", "theorems": ["Toon.C104_conflict", "Toon.C104_accepted", "Toon.C104_paths", "Toon.C104_symm", "Toon.C104_scalars"], "note": "Whether a key is split into a path is keyPath (C28); a key that is quoted once in an object is literal everywhere in it (F53)."},
  {"property": "C105", "status": "proved", "theorems": ["Toon.C105_leaf", "Toon.C105_object", "Toon.C105_strict"], "note": "Sharpens the lax half of C27. What an entry puts where is standsFor: its split path with the expanded value at the end, so the same holds inside nested objects."},
  {"property": "C106", "status": "proved", "theorems": ["Toon.C106_lax", "Toon.C106_strict"], "note": "The hypothesis on quotes is needed: a dotted key that occurs in quotes anywhere in an object is not split (F53, C102_quotes)."},
  {"property": "C107", "status": "proved", "theorems": ["Toon.C107_plain", "Toon.C107_merged", "Toon.C107_values"], "note": "Unlike C71 and C102 nothing has to be assumed about unread lines, margins and quotes: written texts have none of these problems, whatever the values are."},
  {"property": "C108", "status": "proved", "theorems": ["Toon.C108_shorter", "Toon.C108_saving", "Toon.C108_depth"], "note": "C108_depth is the witness that the depth is not monotone. Characters are Unicode scalar values; what folding removes is ASCII, so bytes are saved just as well."},
  {"property": "C109", "status": "proved", "theorems": ["Toon.C109_shortest", "Toon.C109_inner"], "note": "C109_inner is the exception (finding F55). Drafts (Spec/Draft) are the freely chosen texts; C82 says what they are read as. Other delimiters, and keys joined by hand, are other texts."},
  {"property": "C110", "status": "proved", "theorems": ["Toon.C110_cost", "Toon.C110_lines", "Toon.C110_tab", "Toon.C110_comma_tab", "Toon.C110_comma"], "note": "The strings and arrays are counted in the layout of the value (Spec/Layout, C56), which does not depend on the delimiter; what C110_comma asks of the strings is asked of the value itself."},
  {"property": "C111", "status": "proved", "theorems": ["Toon.C111_cost", "Toon.C111_linear", "Toon.C111_lines", "Toon.C111_free", "Toon.C111_chain"], "note": "The levels are added up in the layout of the value (Spec/IndentCost), which depends neither on the indentation nor on the delimiter."},
  {"property": "C112", "status": "proved", "theorems": ["Toon.C112_found", "Toon.C112_absent", "Toon.C112_escaped", "Toon.C112_twice"], "note": "C112_escaped and C112_twice show that escaping and distinct keys are needed (finding F3)."},
  {"property": "C113", "status": "proved", "theorems": ["Toon.C113_drawn", "Toon.C113_copied", "Toon.C113_characters", "Toon.C113_escaped"], "note": "Converse of C112 on the decoder side. C113_escaped shows that the five escaped characters have to be left out."},
  {"property": "C114", "status": "proved", "theorems": ["Toon.C114_strict", "Toon.C114_read", "Toon.C114_number", "Toon.C114_bool", "Toon.C114_null", "Toon.C114_missing_cell"], "note": "C114_missing_cell is the witness that lenient decoding supplies nulls."},
  {"property": "C115", "status": "proved", "theorems": ["Toon.C115_spelled", "Toon.C115_number", "Toon.C115_no_null", "Toon.C115_twice"], "note": "C115_twice shows that distinct keys are needed (finding F3)."},
  {"property": "C116", "status": "proved", "theorems": ["Toon.C116_sequence", "Toon.C116_once", "Toon.C116_expanded", "Toon.C116_written", "Toon.C116_lenient", "Toon.C116_reordered", "Toon.C116_same_primitives", "Toon.C116_overwritten", "Toon.C116_each_written", "Toon.C116_among", "Toon.C116_in_order", "Toon.C116_not_twice", "Toon.C116_events"], "note": "C116_once shows that the specification lets no word be read twice; C116_expanded shows the other order after path expansion, C116_overwritten the word lost to a later entry in lax mode."},
  {"property": "C117", "status": "proved", "theorems": ["Toon.C117_characters", "Toon.C117_events", "Toon.C117_written", "Toon.C117_keys_copied"], "note": "C117_keys_copied shows that the bound does not hold of keys."}
]}
