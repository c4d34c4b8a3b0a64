{"id": "C01", "title": "Encode/decode round trip (no key folding)", "statement": "Encoding a JSON value to TOON and decoding the text again with the same indent (at least 1), the same one of the three supported delimiters, and key folding / path expansion off, in strict or lax mode, succeeds and yields the same JSON value, up to the order of keys inside an object. It yields exactly the same value, key order included, when the rows of each uniform table list their keys in the same order. The value must have distinct keys per object, arrays of at most 100,000,000 elements, no '}' in a table column name, and no string stored under an unquoted key that looks like an array header, except in the cells of tables (the code really fails on the excluded values, see C02, C03). NaN and infinities come back as null, negative zero as zero.", "quantifier": "every JSON value of every size and depth in the stated class, every indent >= 1, every supported delimiter, strict and lax mode", "why_tests_cant": "The set of values is infinite and the encoder picks among six layouts depending on nested shape; tests sample a few hundred values.", "anchors": ["src/encode/encoders.rs::encode_json_value", "src/decode/decoders.rs::decode_stream_sync", "src/decode/mod.rs::try_decode", "src/encode/mod.rs::encode"]}
{"id": "C02", "title": "Exactly which string values survive under an unquoted key", "statement": "A one-entry object {k: s} with an unquoted (identifier-like) key k decodes back to itself after encoding if and only if the string s does not look like an array header: a first '[' closed by ']' around an optionally signed decimal length (with optional '|'), followed by a colon. For header-like strings the decoder returns an error or a different value, so lossless round trip is false of the code for them.", "quantifier": "every identifier-like key, every string", "why_tests_cant": "A test shows single strings; the exact boundary between surviving and corrupted strings needs all strings.", "anchors": ["src/decode/parser.rs::parse_array_header_line", "src/decode/decoders.rs::decode_key_value_sync", "src/encode/primitives.rs::encode_string_literal"]}
{"id": "C03", "title": "Column names containing a closing brace cannot be decoded", "statement": "If an array is encoded as a table and one of its column names contains '}', decoding the encoded text is an error (the text never silently decodes to something else).", "quantifier": "every table with at least one row, every column name containing '}', all cell values", "why_tests_cant": "Requires all column names and all table contents, not one sample.", "anchors": ["src/decode/parser.rs::parse_array_header_line", "src/encode/primitives.rs::format_header"]}
{"id": "C04", "title": "The event stream of a value equals the decoder's events for its text", "statement": "For every value in the round-trip class, the events produced by decoding its encoded text are the events produced by the encoder's event stream for that value, apart from the quoted flag of keys and the order of keys inside table rows.", "quantifier": "every JSON value in the class of C01, all supported options", "why_tests_cant": "Unbounded nesting and sizes.", "anchors": ["src/encode/mod.rs::encode_stream_events", "src/decode/mod.rs::try_decode_stream_sync"]}
{"id": "C05", "title": "String token round trip", "statement": "Every string, encoded as a value token for a delimiter and parsed back as a primitive token, gives back exactly that string (never a number, boolean or null), for each of the supported delimiters.", "quantifier": "all Unicode strings, the three supported delimiters", "why_tests_cant": "Quoting rules depend on whitespace, literals, numbers, structural characters; infinitely many strings.", "anchors": ["src/encode/primitives.rs::encode_string_literal", "src/decode/parser.rs::parse_primitive_token", "src/shared/validation.rs::is_safe_unquoted"]}
{"id": "C06", "title": "Primitive token round trip", "statement": "Every normalized primitive (null, boolean, finite number with no negative zero, string) survives encode_primitive followed by parse_primitive_token unchanged.", "quantifier": "all primitives, the three delimiters", "why_tests_cant": "Infinite domain, includes every finite double.", "anchors": ["src/encode/primitives.rs::encode_primitive", "src/decode/parser.rs::parse_primitive_token"]}
{"id": "C07", "title": "Escaping is invertible and unescaping is strict", "statement": "unescape(escape(s)) = s for every string; escaped text contains no newline, carriage return, tab or unescaped quote; and unescape succeeds exactly on the strings in which each backslash starts one of the five legal two-character escapes.", "quantifier": "all Unicode strings", "why_tests_cant": "Infinite domain; rejection of all illegal escapes is universally quantified.", "anchors": ["src/shared/string_utils.rs::escape_string", "src/shared/string_utils.rs::unescape_string"]}
{"id": "C08", "title": "Delimited rows split back into their cells", "statement": "Encoding a list of primitives joined by a delimiter and splitting the text at that delimiter gives exactly the encoded cells, one per primitive, so the parsed list equals the original list (count and order included).", "quantifier": "all lists of primitives, the three delimiters", "why_tests_cant": "Quotes, escapes and delimiters may nest arbitrarily inside cells.", "anchors": ["src/encode/primitives.rs::encode_and_join_primitives", "src/decode/parser.rs::parse_delimited_values", "src/decode/parser.rs::map_row_values_to_primitives"]}
{"id": "C09", "title": "Key round trip", "statement": "Every key string, written in front of a colon (or of an array header) by the encoder, is parsed back by the decoder to exactly that key, with the quoted flag telling whether quotes were written.", "quantifier": "all Unicode key strings, all text after the colon that is not header-like", "why_tests_cant": "Infinite domain with quoting, escapes, dots, colons, brackets.", "anchors": ["src/encode/primitives.rs::encode_key", "src/decode/parser.rs::parse_key_token", "src/decode/parser.rs::parse_array_header_line"]}
{"id": "C10", "title": "Array header round trip", "statement": "A formatted array header (optional key, length up to the cap, delimiter, optional non-empty column list without '}') followed by inline text is parsed back to the same key, length, delimiter, columns and inline text.", "quantifier": "all keys, lengths <= 100,000,000, supported delimiters, column lists, inline texts", "why_tests_cant": "Parsing is by position search over arbitrary text.", "anchors": ["src/encode/primitives.rs::format_header", "src/decode/parser.rs::parse_array_header_line"]}
{"id": "C11", "title": "Encoded output is one statement per line with exact indentation", "statement": "Every line produced by encoding is a multiple-of-indent run of spaces followed by a non-empty content that does not start or end with whitespace and contains no newline or carriage return; line depth grows by at most the nesting; the encoded text has no trailing newline and splitting it at newlines gives back exactly the lines.", "quantifier": "all JSON values (no restrictions), all indents, all three delimiters, folding on or off", "why_tests_cant": "Unbounded values; a single stray newline breaks the framing of the format.", "anchors": ["src/encode/encoders.rs::encode_json_value", "src/encode/mod.rs::encode", "src/encode/mod.rs::encode_lines"]}
{"id": "C12", "title": "Encoding never panics and always terminates", "statement": "The tabular writer's two panics (missing key, non-primitive cell) are unreachable: whenever the encoder selects the table layout every row has a primitive value for every column.", "quantifier": "all JSON values including duplicate keys, all options", "why_tests_cant": "Absence of panics for all inputs.", "anchors": ["src/encode/encoders.rs::write_tabular_rows_lines", "src/encode/encoders.rs::extract_tabular_header"]}
{"id": "C13", "title": "Decoding is total", "statement": "For every input text and every options value decoding returns a value or an error: the recursive descent never goes deeper than five calls per line of the text plus five, and every loop consumes lines.", "quantifier": "all byte-valid texts, all indents, strict and lax", "why_tests_cant": "Termination on all inputs.", "anchors": ["src/decode/decoders.rs::decode_stream_sync", "src/decode/decoders.rs::decode_list_item_sync"]}
{"id": "C14", "title": "Decoder events are always well formed", "statement": "Whenever decoding succeeds, the event list is exactly the event list of one JSON tree: balanced start/end events, every key followed by exactly one value, keys only inside objects. Hence building a value from the decoder's events never fails: a decode error can come only from scanning, parsing or path expansion.", "quantifier": "all texts, all options", "why_tests_cant": "All inputs including malformed ones.", "anchors": ["src/decode/decoders.rs::decode_stream_sync", "src/decode/event_builder.rs::build_node_from_events"]}
{"id": "C15", "title": "Event building inverts event emission", "statement": "Building a value from the events emitted for a value gives back that value (including duplicate keys and key order), for every value.", "quantifier": "all JSON values", "why_tests_cant": "Unbounded nesting.", "anchors": ["src/encode/mod.rs::encode_stream_events", "src/decode/event_builder.rs::build_node_from_events", "src/decode/event_builder.rs::node_to_json"]}
{"id": "C16", "title": "Strict mode: declared array lengths are true", "statement": "When strict decoding succeeds, every array in the result has exactly as many elements as its header declared, and (strict or lax) no declared length above 100,000,000 is ever accepted.", "quantifier": "all texts accepted in strict mode", "why_tests_cant": "All accepted inputs, all nesting.", "anchors": ["src/decode/validation.rs::assert_expected_count", "src/decode/parser.rs::MAX_DECLARED_ARRAY_LENGTH"]}
{"id": "C17", "title": "Strict acceptance implies the same lax result", "statement": "If strict decoding of a text succeeds, lax decoding of the same text succeeds with the same events and the same value.", "quantifier": "all texts, all indents, expansion off or safe", "why_tests_cant": "Relates two runs on every input.", "anchors": ["src/decode/decoders.rs::decode_stream_sync", "src/decode/expand.rs::expand_paths_safe"]}
{"id": "C18", "title": "Strict mode rejects bad indentation", "statement": "If strict decoding succeeds then every non-blank line is indented by spaces only, a multiple of the indent size (by none if the indent size is 0).", "quantifier": "all texts, all indents", "why_tests_cant": "All accepted inputs.", "anchors": ["src/decode/scanner.rs::parse_line_incremental"]}
{"id": "C19", "title": "Blank lines carry no data", "statement": "In lax mode deleting all blank lines never changes the result (value or error). In strict mode if decoding succeeds, decoding with all blank lines deleted succeeds with the same result. Blank lines at the end of the text (in particular one trailing newline) never change the result in either mode.", "quantifier": "all texts, all indents", "why_tests_cant": "All inputs, all positions of blank lines.", "anchors": ["src/decode/scanner.rs::parse_lines_sync", "src/decode/validation.rs::validate_no_blank_lines_in_range"]}
{"id": "C20", "title": "Decoded numbers are finite and never negative zero", "statement": "Every number in a decoded value is finite and not negative zero; so decoding never turns text into NaN or infinity (too large literals become strings).", "quantifier": "all texts, all options", "why_tests_cant": "All numeric spellings.", "anchors": ["src/decode/parser.rs::parse_primitive_token", "src/shared/literal_utils.rs::is_numeric_literal"]}
{"id": "C21", "title": "Numeric grammar", "statement": "An unquoted token is read as a number exactly when it matches -?(0|[1-9][0-9]*)(.[0-9]+)?([eE][+-]?[0-9]+)? and its value is finite; the encoder quotes every string matching that grammar, so a string never comes back as a number.", "quantifier": "all tokens", "why_tests_cant": "Infinite set of tokens.", "anchors": ["src/shared/literal_utils.rs::is_numeric_literal", "src/shared/literal_utils.rs::is_numeric_like"]}
{"id": "C22", "title": "Normalization", "statement": "Normalization is idempotent, leaves no NaN, infinity or negative zero, keeps shape, keys and strings, and does not change the encoded text: encoding a value and encoding its normalization give the same lines.", "quantifier": "all JSON values including NaN, infinities, -0", "why_tests_cant": "Unbounded nesting.", "anchors": ["src/encode/normalize.rs::normalize_json_value", "src/encode/primitives.rs::encode_primitive"]}
{"id": "C23", "title": "Safe key folding followed by safe path expansion is lossless", "statement": "For every writable value (nesting at most 127, half the expansion cap, because every object costs two units of depth; no key that is itself a dotted identifier path), encoding with safe key folding at any flatten depth and decoding with safe path expansion gives back the value, up to the order of row keys. A deeper value comes back or decoding fails with the depth error; it never comes back changed.", "quantifier": "all such values, all flatten depths, delimiters, indents, strict and lax", "why_tests_cant": "Folding interacts with siblings, tables and depth limits in unboundedly many ways.", "anchors": ["src/encode/folding.rs::try_fold_key_chain", "src/decode/expand.rs::expand_paths_safe"]}
{"id": "C24", "title": "Key folding preserves the set of addressed leaves", "statement": "Decoding without expansion a text encoded with safe folding gives a value whose leaves, addressed by dot-joined paths, are those of the original value: folding never merges two entries, drops one or changes a leaf. Folded keys never collide with sibling keys, provided that no object that is a list item starts with a dotted key; without this proviso the claim is false (a list item {\"a.b\":1,\"a\":{\"b\":2}} is folded into two entries with key a.b).", "quantifier": "all values, all flatten depths", "why_tests_cant": "Unbounded.", "anchors": ["src/encode/folding.rs::try_fold_key_chain"]}
{"id": "C25", "title": "Flatten depth limit", "statement": "With flatten depth below 2 folding has no effect, and no folded key has more segments than the flatten depth.", "quantifier": "all values, all flatten depths", "why_tests_cant": "Unbounded values and depth.", "anchors": ["src/encode/folding.rs::collect_single_key_chain", "src/encode/encoders.rs::encode_key_value_pair_lines"]}
{"id": "C26", "title": "Path expansion output has distinct keys", "statement": "After safe path expansion every object in the result has pairwise distinct keys.", "quantifier": "all decoded values, strict and lax", "why_tests_cant": "Unbounded merges.", "anchors": ["src/decode/expand.rs::expand_object", "src/decode/expand.rs::merge_objects"]}
{"id": "C27", "title": "Path expansion is a deep merge; strict loses nothing, lax is last-write-wins", "statement": "For every document with a valid event stream, decoding with path expansion gives the left-to-right deep merge of the nested objects its entries stand for, or the depth error, or (strict only, and exactly when the merge would replace something) the conflict error. If strict expansion succeeds, the primitives and empty arrays of the result are those of the document, each once, under its split path; in lax mode every leaf of the result is one of the document and the leaves of the last entry are all there; any strict success equals the lax result (C17); lax expansion fails only by the depth cap.", "quantifier": "all decoded values", "why_tests_cant": "All conflict patterns.", "anchors": ["src/decode/expand.rs::insert_path_entries", "src/decode/expand.rs::insert_literal_entry"]}
{"id": "C28", "title": "Expansion touches only unquoted dotted identifier paths", "statement": "A document none of whose unquoted keys is a dotted identifier path (and without duplicate keys), nested at most 127 deep, is decoded to the same value with and without expansion; in particular quoted dotted keys stay literal.", "quantifier": "all decoded values within the depth cap", "why_tests_cant": "Unbounded.", "anchors": ["src/decode/expand.rs::expand_object", "src/decode/event_builder.rs::build_node_from_events"]}
{"id": "C29", "title": "Expansion depth cap", "statement": "Expansion succeeds only within the cap of 256, where every object counts twice, an array once and a dotted key once per segment; beyond it decoding fails (with the depth error unless there is a conflict). When twice the nesting plus the nesting with split keys is at most 255 there is no depth error. The result of a success is nested at most 16132 deep, which is reached. The cap is not a bound on the nesting of the result (a document gives nesting 400), and 128 nested objects are already too many: both shown by counterexample.", "quantifier": "all documents, strict and lax", "why_tests_cant": "All nesting depths.", "anchors": ["src/decode/expand.rs::MAX_EXPAND_DEPTH"]}
{"id": "C30", "title": "Replacer semantics", "statement": "The identity replacer leaves every value unchanged. A replacer that drops everything but the root leaves an empty container. Every call passes the path of the (possibly transformed) parent extended by the key or original array index. Dropped entries disappear, kept ones keep their order.", "quantifier": "all values, all replacer functions that terminate", "why_tests_cant": "Quantifies over functions.", "anchors": ["src/encode/replacer.rs::apply_replacer", "src/encode/replacer.rs::transform_children"]}
{"id": "C31", "title": "Replacer termination", "statement": "If the replacer never returns a container larger than its argument the transformation terminates; a replacer that wraps its argument makes the transformation recurse for ever.", "quantifier": "all values, all non-growing replacers", "why_tests_cant": "Termination over all functions.", "anchors": ["src/encode/replacer.rs::apply_replacer"]}
{"id": "C32", "title": "Async event stream equals the batch events", "statement": "Pulling events from the asynchronous event stream until it ends yields exactly the event list of the synchronous encoder, in order; each pull yields at most one event; afterwards the stream stays finished. With a replacer the same holds against the synchronous encoder with that replacer, which is called only while the stream is created.", "quantifier": "all JSON values, all prefixes of pulls", "why_tests_cant": "Every value and every interleaving point of pulls.", "anchors": ["src/encode/async_encode.rs::AsyncEncodeEventStream", "src/encode/mod.rs::encode_stream_events"]}
{"id": "C33", "title": "Async line stream equals encode_lines", "statement": "Pulling from the asynchronous line stream yields exactly the lines of encode_lines in order and then ends, with or without a replacer; the one-call asynchronous functions give the same lines and text. The length reported by the stream is that of all its lines at every point, not of those left.", "quantifier": "all values and options, all numbers of pulls", "why_tests_cant": "Every history of pulls.", "anchors": ["src/encode/async_encode.rs::AsyncEncodeStream"]}
{"id": "C34", "title": "Incremental async decode agrees with batch decode on flat objects only", "statement": "For documents that are a list of `key: primitive` lines at depth 0 the incremental decoder emits the batch decoder's events; on nested objects and on arrays it does not (counterexamples), so agreement for all documents is false of the code.", "quantifier": "all flat documents; counterexamples for nested ones", "why_tests_cant": "All flat documents of any length.", "anchors": ["src/decode/async_decode.rs::AsyncDecodeStream", "src/decode/decoders.rs::decode_stream_sync"]}
{"id": "C35", "title": "JSON output is valid and denotes the value", "statement": "The JSON printer's output, at every indent, parses by the JSON grammar back to the printed value, for every value with finite numbers.", "quantifier": "all JSON values, all indents", "why_tests_cant": "All strings (escapes) and all nestings.", "anchors": ["src/cli/json_stringify.rs::json_stringify_lines"]}
{"id": "C36", "title": "Streaming JSON output agrees with tree JSON output", "statement": "Writing JSON directly from the decoder's events denotes the same value as building the value and printing it; the two differ in bytes only inside string escapes.", "quantifier": "all decodable texts", "why_tests_cant": "All inputs.", "anchors": ["src/cli/json_stream.rs::json_stream_from_events", "src/cli/json_stringify.rs::json_stringify_lines"]}
{"id": "C37", "title": "Line endings and white space at the end of lines", "statement": "Appending white space other than tabs (spaces, carriage returns, Unicode white space) to any lines of a document never changes the outcome of decoding — the value or the error, strict or not, with or without path expansion — unless the line is a hyphen alone. In particular a document with CRLF line endings decodes like the same document with LF endings when no line is a hyphen alone. A hyphen alone followed by a carriage return is decoded differently (strict: an error; lax: the item is dropped), a hyphen followed by a space is noticed as a surplus item where a hyphen alone is not, and a trailing tab is a cell separator in tab-separated arrays. Encoded text of a value without empty objects inside arrays contains no such line, so it survives conversion to CRLF: encode, convert, decode gives the value back (under the conditions of C01).", "quantifier": "all lists of lines, all texts appended to each of them consisting of white space other than tabs, all decode options", "why_tests_cant": "Every position of every decoder function sees the appended text; tests cover a handful of documents.", "anchors": ["src/decode/scanner.rs::parse_line_incremental", "src/decode/parser.rs", "src/decode/decoders.rs"]}
{"id": "C38", "title": "Strict mode can drop trailing lines silently", "statement": "Strict decoding of a text consumes lines only in order and each at most once, but success does not imply that all lines were consumed: a misindented line after a root field, or any line after a root array, ends decoding without error (counterexamples).", "quantifier": "all texts; concrete counterexamples", "why_tests_cant": "Claim over all inputs; counterexample shows it false.", "anchors": ["src/decode/decoders.rs::decode_stream_sync"]}
{"id": "C39", "title": "Encoding is injective", "statement": "Two values of the round-trip class that encode to the same text are equal up to key order.", "quantifier": "all pairs of values in the class, all options", "why_tests_cant": "All pairs.", "anchors": ["src/encode/mod.rs::encode"]}
{"id": "C40", "title": "Canonical form is stable", "statement": "Encoding, decoding and encoding again gives the same text as the first encoding.", "quantifier": "all values in the round-trip class", "why_tests_cant": "All values.", "anchors": ["src/encode/mod.rs::encode", "src/decode/mod.rs::try_decode"]}
{"id": "C41", "title": "Delimiter and indent independence", "statement": "Encoding one value with any two supported delimiters and any two positive indents and decoding each with its own settings gives the same value.", "quantifier": "all values in the class, all pairs of options", "why_tests_cant": "All combinations.", "anchors": ["src/encode/encoders.rs::encode_json_value", "src/options.rs"]}
{"id": "C42", "title": "Conversion to and from the host JSON type", "statement": "Converting a value to the host JSON type keeps the last value of a duplicated key at its first position, produces distinct keys, and is the identity on values with distinct keys (finite numbers).", "quantifier": "all values", "why_tests_cant": "Unbounded.", "anchors": ["src/lib.rs::From<JsonValue> for serde_json::Value", "src/lib.rs::toon_to_json"]}
{"id": "C43", "title": "Command line mode detection", "statement": "Mode detection: an explicit flag wins over the file extension; .json selects encode, .toon decode; stdin and anything else encode; '-' or no input means stdin. Delimiter parsing accepts exactly the documented spellings.", "quantifier": "all argument combinations and path strings", "why_tests_cant": "All strings.", "anchors": ["src/cli/args.rs::detect_mode", "src/cli/args.rs::parse_delimiter"]}
{"id": "C44", "title": "Byte-level scanning never splits a character", "statement": "Decoding works on UTF-8 text with byte offsets found by byte search. All positions at which it slices are character boundaries, so decoding never panics by slicing, whatever the text; byte-level search finds the same character as character-level search; and the result of decoding is the one of the same procedure over characters.", "quantifier": "all UTF-8 texts, all decode options", "why_tests_cant": "All multi-byte characters in all positions.", "anchors": ["src/shared/string_utils.rs::find_closing_quote", "src/shared/string_utils.rs::find_unquoted_char", "src/decode/parser.rs::parse_unquoted_key"]}
{"id": "C45", "title": "Rows are cut exactly at the delimiters outside quotes", "statement": "A row or inline array is cut at every occurrence of the active delimiter that is outside double quotes and nowhere else; each piece loses its surrounding whitespace; empty pieces, also at the end, are cells; only the empty text has no cell. An inline array document is accepted exactly when every cell stands for a primitive (and, in strict mode, their number is the declared one), and its value is the array of these primitives.", "quantifier": "all delimiters, all texts with any mix of quotes, escapes and delimiters", "why_tests_cant": "Quoting state depends on the whole prefix of the text; the empty trailing cell and escaped quotes are easy to lose.", "anchors": ["src/decode/parser.rs::parse_delimited_values", "src/decode/decoders.rs::decode_inline_primitive_array_sync"]}
{"id": "C46", "title": "What a token stands for", "statement": "A token is a quoted string exactly when it is one quoted literal with legal escapes and nothing after the closing quote (otherwise a token starting with a quote is rejected); true, false and null are literals; a token in the numeric grammar that denotes a finite double is that number (negative zero becomes zero); every other token is itself as a string; the empty token is the empty string. A one-line document without a colon is the value of its token. A quoted key is one quoted literal directly followed by a colon; a bare key is the trimmed text before the first colon.", "quantifier": "all texts", "why_tests_cant": "The readers must be right for every text, not only for encoder output.", "anchors": ["src/decode/parser.rs::parse_primitive_token", "src/decode/parser.rs::parse_string_literal", "src/decode/parser.rs::parse_key_token"]}
{"id": "C47", "title": "The quoting rule", "statement": "A string value is written without quotes exactly when it is not empty, has no whitespace at its ends, is not true, false or null, is not in the numeric grammar and does not start (after an optional minus) with a zero followed by a digit, does not start with a hyphen, and contains none of colon, quote, backslash, brackets, braces, newline, carriage return, tab and the active delimiter; otherwise it is escaped between quotes.", "quantifier": "all strings, all delimiters", "why_tests_cant": "All strings; both directions (no missing and no superfluous quotes).", "anchors": ["src/shared/validation.rs::is_safe_unquoted", "src/shared/literal_utils.rs", "src/encode/primitives.rs::encode_string_literal"]}
{"id": "C48", "title": "Lists of one-line items", "statement": "A root list whose items are a hyphen alone or a hyphen, a space and a text without colon: an item with nothing visible after the hyphen is an empty object, every other item is the primitive its text stands for; lax decoding takes the first n items; strict decoding of at most n items succeeds exactly when there are n items and blank lines only before the first or after the last.", "quantifier": "all item lists, all blank line placements", "why_tests_cant": "Unbounded lists with arbitrary texts.", "anchors": ["src/decode/decoders.rs::decode_list_array_sync", "src/decode/decoders.rs::decode_list_item_sync"]}
{"id": "C49", "title": "Tables: one entry per column", "statement": "Every row of a root table gives an object with exactly the declared columns in order. In lax mode missing cells are null, extra cells are ignored and only the first n rows count; in strict mode (with at most n rows) decoding succeeds exactly when there are n rows, each with one cell per column, all standing for primitives, and no blank line between rows.", "quantifier": "all column lists, rows and blank line placements", "why_tests_cant": "Unbounded tables with arbitrary rows.", "anchors": ["src/decode/decoders.rs::decode_tabular_array_sync", "src/decode/decoders.rs::yield_object_from_fields"]}
{"id": "C50", "title": "Blank lines inside arrays", "statement": "Strict decoding accepts blank lines before the first and after the last element of a one-level root array and rejects any blank line between two elements; lax decoding ignores blank lines.", "quantifier": "all placements of blank lines in all one-level arrays", "why_tests_cant": "The check compares recorded line numbers with a range; off-by-one errors only show for some placements.", "anchors": ["src/decode/validation.rs::validate_no_blank_lines_in_range", "src/decode/scanner.rs"]}
{"id": "C51", "title": "Declared length bounds the elements read", "statement": "A root array written over several one-line elements has the declared number of elements or, when there are fewer lines, as many as there are lines; never more.", "quantifier": "all bodies, strict and lax", "why_tests_cant": "All lengths.", "anchors": ["src/decode/decoders.rs::decode_tabular_array_sync", "src/decode/decoders.rs::decode_list_array_sync"]}
{"id": "C52", "title": "Strict decoding rejects surplus elements", "statement": "In strict mode a row or item at element depth directly after the declared number of elements is an error. This holds for rows without a colon that do not start with a hyphen and a space, and for items that start with a hyphen and a space; it is false for an item that is a hyphen alone and for rows that look like items or key-value lines, which are dropped silently.", "quantifier": "all one-level root arrays", "why_tests_cant": "Needs all bodies; the exceptions are counterexamples found by proof.", "anchors": ["src/decode/validation.rs::validate_no_extra_list_items", "src/decode/validation.rs::validate_no_extra_tabular_rows"]}
{"id": "C53", "title": "Folding folds chains", "statement": "With safe folding on, an entry of the root object whose value is a chain of one-entry objects over identifier keys ending in a primitive is written as one line with the dot-joined key, unless the chain is longer than the flatten depth or the joined key is also a key of the root object.", "quantifier": "all chains, all siblings, all flatten depths of at least the chain length", "why_tests_cant": "Unbounded chains; a folding that never happens would satisfy every loss-lessness property.", "anchors": ["src/encode/folding.rs::try_fold_key_chain", "src/encode/encoders.rs::encode_key_value_pair_lines"]}
{"id": "C54", "title": "JSON text to TOON and back", "statement": "Converting a JSON text (nested at most 127 deep) to TOON and the result back to JSON text gives a JSON text that denotes the same value up to the order of keys. This holds for the library functions with their default options, and for the command line tool with any indent of at least 1 (the same both ways), any accepted delimiter, strict or not, either with folding and expansion off, or with expansion on (folding on or off) for values none of whose keys is a dotted path of identifiers. The value must be writable (the exceptions of C02 and C03), without duplicate members and with plain numbers; the library form also covers duplicates (last value wins) and all numbers. The tool's encoder fails exactly when the input is not JSON or nested too deep; its decoder fails exactly when decode fails. Exceptions have witnesses: duplicate keys in TOON, integers beyond 2^53, nesting.", "quantifier": "all JSON texts denoting such a value, all arguments as described", "why_tests_cant": "Composition over all texts, nestings, escapes and options.", "anchors": ["src/lib.rs::json_to_toon", "src/lib.rs::toon_to_json", "src/cli/mod.rs::run_encode", "src/cli/mod.rs::run_decode", "src/cli/conversion.rs::encode_to_toon_lines", "src/cli/conversion.rs::decode_to_json_chunks"]}
{"id": "C55", "title": "Omitted and misspelled options", "statement": "Leaving out encode or decode options (some or all) has exactly the effect of spelling out the documented values: indent 2, delimiter ',', key folding off, unlimited flatten depth; strict, no path expansion. 'Unlimited' means that any flatten depth not below the nesting of the value gives the same text. Options that are given are obeyed. In the JavaScript interface undefined, null, and an object with property values of the wrong type, unknown mode names or an empty delimiter mean the defaults (they are silently ignored); a delimiter of several characters means its first one; options that are not an object are an error.", "quantifier": "all values, texts and combinations of options", "why_tests_cant": "Options combine, and the effect has to be the same on every value and every text.", "anchors": ["src/options.rs::resolve_encode_options", "src/options.rs::resolve_decode_options", "src/decode/decoders.rs::decode_stream_sync", "src/encode/folding.rs", "src/wasm.rs::parse_encode_options", "src/wasm.rs::parse_decode_options"]}
{"id": "C56", "title": "The written text, exactly", "statement": "The text written for a value is determined by rules that do not mention the program: which arrays are written on one line, as a table, or as a list; which chains of keys are joined with dots (the longest chain of one-entry objects within the remaining flatten depth, all keys identifiers, the joined key not a key of the same object nor a dotted key of the root, the first entry of a list element never folded, folding starting afresh inside lists); how many levels each line is indented; and how tokens, keys, lengths and column lists are written. Every value has exactly one layout under these rules, and encoding writes exactly its lines.", "quantifier": "all JSON values, all indents, delimiters, folding modes and flatten depths", "why_tests_cant": "Fixtures pin the text of finitely many values; the interplay of folding, tables and list elements is unbounded.", "anchors": ["src/encode/encoders.rs::encode_json_value", "src/encode/encoders.rs::encode_object_as_list_item_lines", "src/encode/folding.rs::try_fold_key_chain", "src/encode/primitives.rs::format_header"]}
{"id": "C57", "title": "What a run of the command line tool leaves behind", "statement": "If the input cannot be read, is not UTF-8 or is refused, the run fails and no file is created, emptied or written and nothing is printed. At every point where the process may be interrupted, files other than the output file are unchanged, and the output file is unchanged or holds an initial part of the text to be written. When nothing fails the output file (also when it is the input file) or standard output holds exactly the text. A successful run without output file, or encoding with --stats, has written the whole text whatever failures occurred; with an output file otherwise the last bytes (at most 8192) can be missing although the run reports success, and for texts shorter than that no write failure is ever reported. The output file is not replaced atomically: an interruption can lose both the old and the new contents. Encoding file a to b and decoding b to c gives the value of a in c.", "quantifier": "all inputs, options, contents of files, failures of output operations, and crash points", "why_tests_cant": "Failures and interruptions can strike at any operation and any byte; tests exercise the undisturbed run.", "anchors": ["src/cli/mod.rs::run", "src/cli/mod.rs::read_input", "src/cli/mod.rs::write_output", "src/cli/mod.rs::write_lines", "src/cli/mod.rs::write_chunks"]}
{"id": "C58", "title": "The accepted language, exactly", "statement": "Which texts are accepted and what value each stands for is determined by a grammar that does not mention the program: lines and indentation, `key: value` entries, nested objects, array headers with key, length, delimiter and columns, inline arrays, tables, list elements (a primitive, an array, an object whose first entry stands on the line of the hyphen), the root forms, and the additional conditions of strict mode. A text stands for at most one tree. Decoding without path expansion succeeds exactly on the texts of the grammar and returns the value of the tree; with expansion it returns the merged value of that tree.", "quantifier": "all texts, indents, strictness and expansion settings", "why_tests_cant": "The set of texts is infinite and the alternatives (header or key, row or entry, element or end) interact at every depth; fixtures sample finitely many.", "anchors": ["src/decode/decoders.rs::decode_stream_sync", "src/decode/decoders.rs::decode_list_item_sync", "src/decode/parser.rs::parse_array_header_line", "src/decode/scanner.rs::parse_lines_sync", "src/decode/validation.rs"]}
{"id": "C59", "title": "Decoding takes no more than the text pays for", "statement": "A decoded value cannot be out of proportion to its text, whatever lengths the headers declare. Without path expansion: a value nested h levels deep needs a line that begins with indent·(h−3) spaces, and h·(h−2) is at most 8/indent times the length of the text, so nesting grows with the square root only; in strict mode the number of values is at most 3/2 of the length of the text. In every mode, with and without expansion, values and the characters of keys and strings together are at most 3/2 of the length plus (longest line)·(number of lines), hence at most quadratic. The square is reached: a table repeats the names of its columns in every row, and outside strict mode missing cells are filled.", "quantifier": "all texts, indents, strictness and expansion settings", "why_tests_cant": "A bound on every output needs every input; an adversary chooses the worst one, and the declared lengths are independent of the number of lines.", "anchors": ["src/decode/decoders.rs::decode_stream_sync", "src/decode/decoders.rs::decode_tabular_array_sync", "src/decode/parser.rs::parse_array_header_line", "src/decode/expand.rs::expand_paths_safe", "src/decode/event_builder.rs"]}
{"id": "C60", "title": "The error describes the first fault", "statement": "When decoding fails, the error describes the first fault of the text in reading order, and what it says is true of the text. Which fault comes first is determined by a grammar of faults that does not mention the program: bad indentation anywhere comes before everything else, then lines from top to bottom, within a line the header, the key, the value; a wrong count is reported at the end of the array, path conflicts only after the whole text has been read. A text has exactly one first fault or stands for a value. Decoding without path expansion fails with an error exactly if this error describes the first fault; with path expansion the error is that fault, or else the first conflict of the value in the order of expansion, or the depth cap. The numbers, keys, line numbers and escape characters quoted in the message are those of the text; every error has a message, and different errors have different messages; a line number lies within the text.", "quantifier": "all texts, indents, strictness and expansion settings, all errors", "why_tests_cant": "A text can have many faults at many depths at once; which one is reported first, and that the quoted data are never those of another line, needs every combination.", "anchors": ["src/error.rs::ToonError", "src/decode/scanner.rs::parse_lines_sync", "src/decode/validation.rs", "src/decode/parser.rs", "src/decode/decoders.rs", "src/decode/expand.rs", "src/shared/string_utils.rs::unescape_string"]}
{"id": "C61", "title": "What the command line tool says", "statement": "The exit status is 0 or 1, and everything the tool says besides the result goes to standard error. A run that fails says why in one message: which file could not be read, created or written and why, that the input is not JSON and why, or the message of the first fault of the TOON text (C60). A run that succeeds is silent, except that it names input and output if the result goes to a file, and that encoding with `--stats` prints an empty line, the estimated number of tokens of the input and of the output, and, exactly if the output is estimated smaller, the difference and its percentage. The estimate is the larger of the number of words and a quarter of the visible characters, and at least 1; additional white space never lowers it. The percentage is a nearest number of tenths to the true ratio (for estimates below 2^40). If nothing fails, `--stats` changes neither the result nor the exit status.", "quantifier": "all inputs, options, worlds (files, failures of the output), reasons given by the operating system", "why_tests_cant": "The percentage is computed in floating point and rounded twice: that it is always a nearest tenth needs all pairs of numbers. The absence of other output needs all combinations of options and failures.", "anchors": ["src/main.rs::main", "src/cli/mod.rs::run_encode", "src/cli/mod.rs::run_decode", "src/cli/mod.rs::estimate_tokens", "src/cli/mod.rs::format_input_label", "src/error.rs::ToonError"]}
{"id": "C62", "title": "How long the written text is", "statement": "Against JSON text indented by the same width (at least one space), the written text is longer by at most four characters for each element of an array written as a list, one for each array if the delimiter is not a comma, and two in all; if every array under a key consists of primitives or is a table, and with the comma, it is never longer (except for an empty array as the whole document). Against compact JSON text an object of n primitives under plain keys is shorter by at least n + 2 characters, and a table of n rows and m plain columns whose names have K characters together is shorter by at least (n-1)K + (3n-1)m + 2n, less n times the indentation, the digits of n and three or four. No multiple of the compact JSON text bounds the written text: an empty array inside n arrays is written in more than n*n characters. (Numbers are assumed to be no longer in plain decimal notation than in JSON text; with exponents in the JSON text this fails.)", "quantifier": "all JSON values without repeated keys, all delimiters, indents, folding settings", "why_tests_cant": "Tests and benchmarks measure a few documents; a bound on the size must hold for every nesting of arrays, objects and tables, and for keys and strings that need escapes.", "anchors": ["README.md (Token Savings in Practice, Token Compression)", "src/encode/encoders.rs", "src/encode/primitives.rs", "src/encode/folding.rs", "src/cli/json_stringify.rs"]}
{"id": "C63", "title": "The outcome of decoding with path expansion, exactly", "statement": "With path expansion, a text is decoded to a value exactly if it is well-formed, no level of its tree is above 256 and, in strict mode, nothing is defined twice; the value is then the merged tree. Otherwise the error is the first fault of the text or, if it has none, the first thing on the walk through the tree that expansion cannot get past: a level above 256 or, in strict mode, a conflict. Levels: one for a primitive or an array, two for an object, one for each segment of a dotted key and one more, one for each pair of objects merged into each other. For documents without dotted keys and repeated keys the cap is therefore sharp: two levels per object, one per array and one per primitive.", "quantifier": "all texts, indents, strict and lax mode", "why_tests_cant": "The cap interacts with nesting, dotted keys and merging, and the order of a conflict and a too deep place decides the message; tests try a few depths.", "anchors": ["src/decode/expand.rs::expand_paths_safe", "src/decode/expand.rs::MAX_EXPAND_DEPTH", "src/decode/expand.rs::insert_path_entries", "src/decode/expand.rs::merge_objects", "src/lib.rs::try_decode"]}
{"id": "C64", "title": "What incremental decoding yields, and when", "statement": "For every list of lines, each poll of the incremental decode stream answers exactly what a line-by-line reading of the grammar says: entries `key: primitive` of one flat object as they come; errors of a line at once, after which reading goes on with the next line; from the first array header, key without a value or list item on the lines are kept and read as a document of their own after the last line, or their error is repeated for ever. The answers due to the first lines are given before any further line is taken from the source and do not depend on the further lines; once lines are kept, no event comes before all lines are taken; after a root primitive no line is taken. The stream yields the events of a tree exactly for root arrays, root primitives and objects of plain entries.", "quantifier": "all lists of lines, well-formed or not, all indents, both modes, any number of polls", "why_tests_cant": "Tests collect the events of a few documents; what is yielded when, after which errors, and independently of lines not yet arrived, is a statement about every prefix of every document and every poll.", "anchors": ["src/decode/async_decode.rs::AsyncDecodeStream", "src/decode/async_decode.rs::process_next", "src/decode/async_decode.rs::finalize", "src/decode/async_decode.rs::batch_decode_remaining", "README.md (Streaming decode, Streaming architecture)"]}
{"id": "C65", "title": "The indentation unit decides acceptance, not meaning", "statement": "Two strict decodings of the same text with different indentation units that both succeed give the same value (and the same events), whatever the text, with or without path expansion. So a written text read strictly with another unit is refused or gives the value that was written. Which written texts are accepted is determined: the same unit; a value without nesting; or a unit that divides the writer's, if no array holds anything but primitives. With unit 0 only values without nesting can be read, from whatever text, and a text written with unit 0 gives the value back, with any unit, exactly if the value has no nesting. On the command line, where --indent is at the same time the unit of the TOON text and the indentation of the printed JSON, decoding text of the default unit with another --indent fails unless the value has no nesting (or the unit is 1 and all arrays are arrays of primitives). In lax mode another unit silently gives another value (negation proved).", "quantifier": "all texts, all pairs of indentation units including 0, all values for the exact condition", "why_tests_cant": "Tests use matching units; that a mismatch never yields a wrong value in strict mode is a statement about every text and every pair of units, and the exact condition of acceptance about every value.", "anchors": ["src/lib.rs::DecodeOptions", "src/lib.rs::EncodeOptions", "src/decode/scanner.rs::parse_line_incremental", "src/decode/decoders.rs", "src/cli/mod.rs::run_decode", "src/cli/args.rs::Args::indent"]}
{"id": "C66", "title": "Only the three delimiters of the format can be read back", "statement": "The library and the JavaScript interface accept any character as the delimiter. If it is not a comma, a tab or a pipe, and neither a digit nor a closing bracket, an array written with it never decodes to an array: not strictly, not in lax mode, with no indentation unit, with or without path expansion; typically it silently becomes an object with the header as the name of its entry. (Negation of the expectation that what can be written can be read.)", "quantifier": "all arrays, all such characters, all encoding and decoding options", "why_tests_cant": "Tests use the three delimiters; the claim is about every other character and every array.", "anchors": ["src/lib.rs::EncodeOptions", "src/wasm.rs", "src/encode/primitives.rs::format_header", "src/decode/parser.rs::parse_bracket_segment"]}
{"id": "C67", "title": "Numbers are read to the nearest double and written as the shortest decimal", "statement": "A token is read as a number exactly when it is a decimal text of the number grammar whose value rounds to a finite double; the result is the double nearest to the decimal (ties to the even significand), with negative zero replaced by zero. Decimals beyond the range of doubles are read as strings. Every finite non-zero number is written as a plain decimal without an exponent, whose significant digits are the shortest decimal that is read back as this number (at most 17 digits), and the nearest of the shortest. Integers from -2^53 to 2^53 are kept exactly: written in their decimal digits, read back equal, and different from one another. Beyond, integers of the host are silently rounded: 2^53 and 2^53 + 1 give the same document, and the largest i64 is written as 9223372036854776000 (negation of exactness for all of i64).", "quantifier": "all texts, all doubles, all integers", "why_tests_cant": "Tests sample numbers; rounding, shortest output and exactness must hold for all 2^64 doubles and every decimal text.", "anchors": ["src/encode/primitives.rs::format_number", "src/decode/parser.rs::parse_primitive_token", "src/shared/literal_utils.rs::is_numeric_literal", "src/lib.rs::From<i64> for JsonValue"]}
{"id": "C68", "title": "Numbers in JavaScript options", "statement": "indent and flattenDepth of the JavaScript interface are numbers that become unsigned integers: integers in range keep their value and act like the Rust options; other numbers lose their fraction; NaN, negative numbers and numbers below one count as 0, without an error; numbers beyond the range count as the largest. So with an indent of NaN, a negative one or one below one, the text written for a value is read back to this value, by whatever reader, exactly if the value has no nesting, and decoding yields only values without nesting.", "quantifier": "all doubles, all widths of the unsigned integer, all option objects, all JSON and TOON texts", "why_tests_cant": "Tests pass small integers; the statement is about every double, and about every value for the loss.", "anchors": ["src/wasm.rs::parse_encode_options", "src/wasm.rs::parse_decode_options"]}
{"id": "C69", "title": "Which event sequences can be built and printed", "statement": "Building a value from an arbitrary sequence of events succeeds exactly if the sequence consists of one or more values one after another, where in objects any number of keys may be without a value; the result is the last value, without the keys that had none, and declared lengths are ignored. Every other sequence, in particular the empty one, one with an unclosed container and one with a value without a key in an object, is refused. What is built is the value of a well-formed tree whose events are among the given ones in their order. Printing events as JSON accepts a larger, also exactly determined set of sequences (no events, containers without a key inside objects) and the text written is determined for each of them, although it is not JSON unless the events are those of one tree.", "quantifier": "all sequences of events, all indentations of the printed JSON", "why_tests_cant": "Tests try a few malformed sequences; the claim fixes the outcome for every sequence of events.", "anchors": ["src/decode/event_builder.rs::build_node_from_events", "src/decode/event_builder.rs::apply_event", "src/decode/event_builder.rs::finalize_state", "src/cli/json_stream.rs::json_stream_from_events"]}
{"id": "C70", "title": "A text that was cut off", "statement": "If a text was cut off after one of its lines (a crash, an incomplete transfer) and strict decoding still accepts what is left, then the value is that of the whole text with something missing at its very end, and only from objects: every array has all its elements, nothing is changed or added, and an object on the path to the end may lack its last entries. So a cut text whose value does not end in an object is refused, or the missing lines did not matter. Conversely a cut between two entries of the outermost object of a written text is never noticed.", "quantifier": "all texts that strict decoding accepts, all places between two lines, all values written", "why_tests_cant": "Tests cut a few texts at a few places; the claim is about every text and every line of it.", "anchors": ["src/decode/mod.rs::try_decode", "src/decode/decoders.rs::decode_stream_sync", "src/decode/validation.rs::assert_expected_count", "src/encode/mod.rs::encode_lines"]}
{"id": "C71", "title": "One text after another", "statement": "If two texts decode to objects, the first is read to its end and the second begins without indentation, then the two texts one after the other (with a line break between them) decode to the object with the entries of the first followed by those of the second; written without key folding, this is also the text of that object. After a text that decodes to an array, or one whose last lines are not read, whatever follows is lost without an error (if it is well indented and, for arrays, begins without indentation). After a text that is a lone primitive every further line that is not blank is an error.", "quantifier": "all pairs of texts, strict and lax mode, all indentations; all pairs of objects written", "why_tests_cant": "Tests concatenate a few files; the claim is about all pairs of texts.", "anchors": ["src/decode/mod.rs::try_decode", "src/decode/decoders.rs::decode_stream_sync", "src/encode/mod.rs::encode"]}
{"id": "C72", "title": "A change to one value changes only its lines", "statement": "Without key folding: when a value at any place inside objects is replaced by another, the lines above and below those of its entry stay as they are, and the lines of the entry are those the entry has alone, pushed to the right; replacing a primitive by a primitive replaces one line by one line. In an array written as a list with a primitive and a container, and in an array written as a table with given columns, every element has lines of its own (one, in a table): adding, removing or changing elements changes nothing else but the number in the header. With key folding the lines above and below stay as they are if the objects around the place have other entries, and may change otherwise; they also change when a change turns a table into a list.", "quantifier": "all values, all places inside objects to any depth, all options", "why_tests_cant": "Tests compare a few pairs of outputs; the claim is about every pair of values that differ in one place.", "anchors": ["README.md", "src/encode/encoders.rs::encode_object_lines", "src/encode/encoders.rs::encode_key_value_pair_lines", "src/encode/encoders.rs::encode_array_lines", "src/encode/encoders.rs::encode_mixed_array_as_list_items_lines", "src/encode/encoders.rs::encode_array_of_objects_as_tabular_lines"]}
{"id": "C73", "title": "Exactly which values survive", "statement": "Without key folding and path expansion, a value with distinct keys comes back from its own encoding (up to the order of keys) exactly when: no array in it has more than 100 000 000 elements, no array written as a table has a column whose name contains a closing brace, no header-like string stands directly under an unquoted key outside a table, and no number in it is NaN, infinite or negative zero. The order of keys comes back as well exactly when in addition the rows of every table list their keys in the order of the columns. A value with one of these defects anywhere is not read back by luck: decoding its text fails or gives a different value.", "quantifier": "all JSON values with distinct keys and array lengths below 2^64, all indents above zero, the three delimiters, strict or not", "why_tests_cant": "Tests can show values that survive and values that do not; that no other value is lost, and that no surrounding text rescues a defect, is about all values.", "anchors": ["src/lib.rs::encode", "src/lib.rs::decode", "src/encode/encoders.rs", "src/decode/decoders.rs", "src/decode/parser.rs::parse_array_header_line"]}
{"id": "C74", "title": "Which values have a text", "statement": "A JSON value is the result of decoding some text (without path expansion) exactly if no number in it is NaN, infinite or negative zero and no array in it has more than 100 000 000 elements; when decoding is not strict, arrays of primitives may have any length. In the first case one text is read as the value both strictly and not. In particular every value that is lost by encoding because of a brace in a column name, a header-like string under an unquoted key or a repeated key has a text that is read as this value: it is lost by the encoder's choice of text, not by the format.", "quantifier": "all JSON values, duplicate keys included, all indents above zero, both modes", "why_tests_cant": "That every value of a kind has a text, and that values of another kind have none among infinitely many texts, is a statement about all values and all texts.", "anchors": ["src/decode/decoders.rs:decode_stream_sync", "src/decode/parser.rs:parse_array_header_line", "src/decode/validation.rs:assert_expected_count", "src/shared/constants.rs"]}
{"id": "C75", "title": "How deep decoding nests its calls", "statement": "Decoding to events needs a call stack that is bounded by the indentation of the source, for accepted and for rejected sources alike: four nested calls for every distinct level of indentation that occurs on a line that is not blank, and four more, are enough; hence 4·D+4 when no line is indented by more than D units, and 4·k+4 when the text has fewer than indent·(k+1)·(k+2)/2 characters, so that the depth of the stack grows with the square root of the length of the text only (4004 calls for a million characters). No smaller bound holds: for every k there is a source with k levels that needs 4·k+4. A stack that is too small leads to an overflow and never to a different result.", "quantifier": "all lists of source lines, all indents, both modes, all stack depths", "why_tests_cant": "A bound on the recursion depth is a statement about all inputs, in particular hostile ones; a test that does not overflow says nothing about the next input.", "anchors": ["src/decode/decoders.rs:decode_stream_sync", "src/decode/decoders.rs:decode_key_value_sync", "src/decode/decoders.rs:decode_list_item_sync", "src/decode/scanner.rs:StreamingLineCursor"]}
{"id": "C76", "title": "How many steps decoding takes", "statement": "After the text has been cut into lines, decoding to events takes a number of steps (function calls, passes through loops, comparisons with blank lines) that is bounded by the number of lines, for accepted and for rejected sources alike: in lenient mode at most 7·n+1 for n lines that are not blank; in strict mode at most (7+b)·n+1 with b blank lines, hence at most quadratic in the number of lines. The strict bound is reached in order of magnitude: n arrays with one element each, followed by b blank lines, are accepted and take n·(7+b)+1 steps, so that there are texts of at most 13·k characters that take at least k² steps. The number of steps does not depend on the size of the stack as long as it does not overflow.", "quantifier": "all lists of source lines, all indents, both modes, all stack depths", "why_tests_cant": "A bound on running time for hostile inputs is a statement about all inputs; a timing test shows one input on one machine.", "anchors": ["src/decode/decoders.rs:decode_stream_sync", "src/decode/decoders.rs:decode_list_array_sync", "src/decode/decoders.rs:decode_tabular_array_sync", "src/decode/validation.rs:validate_no_blank_lines_in_range"]}
{"id": "C77", "title": "How deep encoding nests its calls", "statement": "Encoding a value (without replacer) needs a call stack that is bounded by the depth of the value: three nested calls for every array or object around the innermost value, and two more (at least three), are enough, whatever the options; then the lines are those of the other properties. No smaller bound holds: for every k there is a value of depth 2·k that overflows every smaller stack. A stack that is too small leads to an overflow and never to different lines. A value that was read from JSON text is encoded in 383 calls, and a value that was decoded (without path expansion) from a text with fewer than indent·(k+1)·(k-1)/8 characters in 3·k+3.", "quantifier": "all values, all encoding options, all stack depths", "why_tests_cant": "A bound on the recursion depth is a statement about all values; a test that does not overflow says nothing about the next value.", "anchors": ["src/encode/mod.rs:encode_lines", "src/encode/encoders.rs:encode_json_value", "src/encode/encoders.rs:encode_object_as_list_item_lines", "src/encode/encoders.rs:estimate_line_count", "src/encode/normalize.rs:normalize_json_value"]}
{"id": "C78", "title": "How many values encoding copies", "statement": "The number of values that encoding copies (a copy of a value copies all values in it) is at most the number of values times the depth without key folding, and at most the number of values times (depth+1)·(depth+2) with it. The order of both bounds is reached: there are values of 4·k+1 values of which 2·k² are copied, with all options; with key folding, a chain of n+2 objects with one key each, which is written as one line of linear length, takes (n+2)·(n+3)/2 copies, and when its last key cannot be folded (n+2)·(n+3)·(n+4)/6-1 copies to write n+2 lines: cubic in the size of the value.", "quantifier": "all values, all encoding options, all stack depths; the lower bounds for all k and n", "why_tests_cant": "A bound on work for hostile values is a statement about all values; a timing test shows one value on one machine.", "anchors": ["src/encode/encoders.rs:encode_object_as_list_item_lines", "src/encode/encoders.rs:encode_key_value_pair_lines", "src/encode/folding.rs:collect_single_key_chain", "src/encode/folding.rs:try_fold_key_chain"]}
{"id": "C79", "title": "How deep path expansion nests its calls, and what it compares and copies", "statement": "Expanding the dotted keys of a decoded value needs a call stack of at most 258 calls, whatever the value and in both modes, and 256 arrays in each other overflow every smaller stack; a stack that is too small leads to an overflow and never to a different result. The number of keys it compares and values it copies is at most 2·V²·min(H,128), where V is the number of values plus the characters of keys and strings and H the depth, also when it fails. The square is reached: for every n up to 10^8 there is a text of at most 9·n+16 characters, accepted in both modes, whose expansion succeeds after exactly n·(n+3) of these steps.", "quantifier": "all values, both modes, all stack depths; the lower bound for all n up to 10^8", "why_tests_cant": "A bound on recursion depth and work is a statement about all values; a test shows one value on one machine.", "anchors": ["src/decode/expand.rs:expand_paths_safe", "src/decode/expand.rs:expand_object", "src/decode/expand.rs:insert_path_entries", "src/decode/expand.rs:insert_literal_entry", "src/decode/expand.rs:merge_objects"]}
{"id": "C80", "title": "Exactly which values survive folding and path expansion", "statement": "A value whose objects have distinct keys comes back from its own encoding, folded at any flatten depth or not folded, when it is decoded with path expansion, up to the order of keys, if and only if no array in it has more than 100 000 000 elements, no table has a column with a } in its name, no header-like string stands under an unquoted key outside a table, no number in it is NaN, infinite or negative zero, no key in it is itself a dotted path of identifiers, and the nesting is not too deep for expansion. Up to nesting 127 the last condition holds; in general it says that the tree of the text needs at most 256 levels, where an object counts two, an array and a primitive one and a folded key of n segments n+1. Every other value is refused or comes back as a different value, wherever the defect is and whatever surrounds it. With the order of keys the rows of tables must in addition list their keys in the order of the columns.", "quantifier": "all values with distinct keys (lengths below 2^64), all indents, delimiters, flatten depths, folding on and off, both modes", "why_tests_cant": "The converse says that a defect anywhere in any value is never hidden by folding, merging or expansion; tests only try some values.", "anchors": ["src/encode/mod.rs:encode", "src/encode/folding.rs:try_fold_key_chain", "src/decode/mod.rs:decode", "src/decode/expand.rs:expand_paths_safe", "src/shared/validation.rs:is_identifier_segment"]}
{"id": "C81", "title": "What the streams hold between two polls", "statement": "Between two polls, the stream of events of a value holds exactly the values whose events have not begun to be told, and one frame for each array or object that is open; when the last event is told it holds nothing. The stream of lines holds all lines of the text from its creation to its end. The incremental decoder never holds more lines than the document has, and as long as lines may still bring events at most two events are ready; it holds a record of every blank line it has taken, which nothing reads. Over a document of blank lines and plain entries no other line is ever kept and at most two events are ready, however long the document is. If the first line with text is the header of an array, the first poll takes all lines and then all events are held at once; if those lines are no document, they are kept for ever and every poll reads them all again.", "quantifier": "all values, all lists of lines, all indents, both modes, all numbers of polls", "why_tests_cant": "Bounds on memory must hold after every number of polls and for documents of every length.", "anchors": ["src/encode/async_encode.rs:AsyncEncodeEventStream", "src/encode/async_encode.rs:AsyncEncodeStream", "src/decode/async_decode.rs:AsyncDecodeStream", "src/decode/scanner.rs:parse_line_incremental"]}
{"id": "C82", "title": "An array element lost or added in transit is noticed", "statement": "Take a text whose arrays, at any depth and however they are written (on one line, as a table, as a list), declare lengths that may be wrong, and which is otherwise written as the encoder writes. In strict mode, without path expansion, it is accepted exactly if every array has as many elements as it declares and every row as many cells as there are columns, and then the value is the one the text shows; otherwise strict decoding fails, with or without path expansion. So if any number of elements is lost from one array of what the encoder wrote, strict decoding of the rest fails, and likewise if elements are added, unless the first one added to a list is an empty object. In non-strict mode nothing is noticed, and nothing counts the entries of objects.", "quantifier": "all such texts (all shapes, sizes and depths), all values without the known defects of writing, all encoder options, all losses of elements from one array", "why_tests_cant": "Every array of every document, at every depth, may lose any of its elements.", "anchors": ["src/decode/validation.rs:assert_expected_count", "src/decode/validation.rs:validate_no_extra_list_items", "src/decode/validation.rs:validate_no_extra_tabular_rows", "src/decode/decoders.rs:decode_tabular_array_sync", "src/decode/decoders.rs:decode_list_array_sync", "src/encode/encoders.rs:encode_array_lines"]}
{"id": "C83", "title": "What non-strict decoding makes of wrong lengths", "statement": "Take a text whose arrays, at any depth and however they are written, declare lengths that may be wrong, and which is otherwise written as the encoder writes. Non-strict decoding always succeeds. Elements that are missing are not missed: if nothing is surplus the value is exactly what the text shows, so if any number of elements is lost from one array of what the encoder wrote, the value has the remaining elements and everything else as it was. In a row missing cells are null and surplus cells are ignored; an array on one line keeps all its elements. At the first surplus row of a table or surplus element of a list reading stops for good: the array keeps the declared number of elements, and everything that follows, in the enclosing arrays and objects up to the root, is lost without an error. If all declarations are true both modes return the same.", "quantifier": "all such texts (all shapes, sizes and depths, all declared lengths up to the limit), all values without the known defects of writing, all encoder options, all losses of elements from one array", "why_tests_cant": "Any array of any document, at any depth, may have any number of elements, missing or surplus.", "anchors": ["src/decode/decoders.rs:decode_tabular_array_sync", "src/decode/decoders.rs:decode_list_array_sync", "src/decode/decoders.rs:decode_inline_primitive_array_sync", "src/decode/decoders.rs:yield_object_from_fields", "src/decode/decoders.rs:decode_object_fields_sync", "src/decode/validation.rs:assert_expected_count"]}
{"id": "C84", "title": "Spelling does not matter", "statement": "A text need not be spelled as the encoder spells it. Take a document in which strings are quoted though they need not be, numbers have any form of the number grammar (1.0, 10e-1), escapes are used in any legal way, keys and column names are quoted or not, there are any number of spaces (or none) after colons and hyphens, around cells and columns and after keys, lengths have leading zeros or a plus sign, and every array uses its own delimiter. As long as the declared lengths are true, rows have a cell per column, and neither an unquoted list element contains a colon nor a value under an unquoted key both a bracket and a colon, both modes decode the text without path expansion to exactly the value it shows. So two spellings of a value, also with different indentation widths, are read alike, and respelling what the encoder wrote without key folding changes nothing.", "quantifier": "all documents of that kind (all shapes, depths and sizes, all spellings of every key, column and value), all indentation widths, both modes", "why_tests_cant": "Every value in a document can be spelled in infinitely many ways, and spellings of neighbouring parts (quotes, delimiters, colons, brackets) interact.", "anchors": ["src/decode/parser.rs:parse_array_header_line", "src/decode/parser.rs:parse_delimited_values", "src/decode/parser.rs:parse_primitive_token", "src/decode/parser.rs:parse_key_token", "src/decode/parser.rs:is_array_header_content", "src/decode/decoders.rs:decode_key_value_sync", "src/decode/decoders.rs:decode_list_item_sync"]}
{"id": "C85", "title": "What printing JSON text takes", "statement": "Printing a value as JSON text (what the tool does after decoding with path expansion) needs two nested calls per level of nesting and one more; fewer than two per level always overflow, and a stack that is too small shows as an overflow only, never as wrong text. It makes at most three calls per value. After path expansion a stack of 32265 calls is enough whatever the text, and there is a text for which fewer than 32264 overflow. The memory reserved before printing is at most twenty times the bytes printed (20/3 if no number takes fewer than three bytes, which is reached). For text without line breaks, with nothing to escape and no number over twenty bytes, it is enough, so the buffer never grows; with line breaks it falls short by any factor for values nested deeply enough.", "quantifier": "all values (any nesting, size and content), all indents, all stack sizes", "why_tests_cant": "The bounds are for all values and stack sizes; a stack overflow aborts the test process, and the ratio of reserved to printed bytes is unbounded on one side and bounded on the other only by an argument over all shapes.", "anchors": ["src/cli/json_stringify.rs:json_stringify_lines", "src/cli/json_stringify.rs:estimate_json_size", "src/cli/json_stringify.rs:stringify_value_to_buf", "src/cli/json_stringify.rs:stringify_array_to_buf", "src/cli/json_stringify.rs:stringify_object_to_buf"]}
{"id": "C86", "title": "The order of hash sets never shows", "statement": "The library keeps sets of keys in hash sets, whose order is random and differs from run to run. Whatever order they keep their keys in, and however often it changes on the way, decoding a text has exactly one outcome (value or error, with the same error), and encoding a value gives exactly one list of lines.", "quantifier": "all texts, all values, all options, all layouts of the sets (any order and repetition, changed after any event)", "why_tests_cant": "A test sees the few orders its process happens to draw; a result that depended on the order would fail only now and then.", "anchors": ["src/decode/event_builder.rs:apply_event", "src/decode/expand.rs:expand_object", "src/encode/encoders.rs:encode_object_lines", "src/encode/folding.rs:try_fold_key_chain"]}
{"id": "C87", "title": "How many keys encoding compares", "statement": "Encoding compares keys with each other at most 2·w·n times for a value with n values in it whose widest object has w entries, and it reaches this factor. A table whose rows have the same w different keys, in any order, takes exactly w·(w+1) comparisons per row, so the work grows with the square of the number of columns. With key folding, an object of n keys that each begin a chain takes n² comparisons.", "quantifier": "all values, all options, all stack sizes; all tables with distinct columns", "why_tests_cant": "A bound on the work for all values cannot be seen from timing samples.", "anchors": ["src/encode/encoders.rs:object_get", "src/encode/encoders.rs:is_tabular_array", "src/encode/encoders.rs:write_tabular_rows_lines", "src/encode/folding.rs:try_fold_key_chain"]}
{"id": "C88", "title": "What decoding copies of the lines", "statement": "Decoding copies the lines of its input whole, with their indentation and without it, and how much it copies depends on the nesting: at least twice and at most 2·levels + 5 times the characters of the lines, counted with and without indentation, where levels is the number of different levels of indentation (the lower bound if the text is accepted and read to its end), and therefore at most 14·T^1.5 characters for T characters of input. This growth is reached: for every k there is an accepted text of at most 6·k² characters of which at least 2·k³ are copied, because a line that ends n objects is copied once for each of them.", "quantifier": "all sources, all indentations, strict and lenient", "why_tests_cant": "A bound on the work for all inputs cannot be seen from samples, and the growth appears only for deep nesting before long lines.", "anchors": ["src/decode/decoders.rs:decode_object_fields_sync", "src/decode/decoders.rs:decode_list_array_sync", "src/decode/decoders.rs:decode_list_item_sync", "src/decode/scanner.rs:advance_sync", "src/decode/scanner.rs:next_sync"]}
{"id": "C89", "title": "A byte order mark is data", "statement": "A text that begins with the character U+FEFF, as some editors write it, is not read as the text without it, and no error says so. If it is accepted, the mark is the first character of the resulting string or of the resulting object's first key, whatever follows and whatever the options. An object keeps all its entries and only its first key gets the mark; a lone number, boolean, null or bare string becomes the string of the mark and the line; an array becomes an object whose only key is the mark. JSON text that begins with the mark is rejected by json_to_toon and by the command line tool.", "quantifier": "all texts after the mark, all decoding options (the exact results without path expansion)", "why_tests_cant": "The mark is invisible in editors and terminals; that it never disappears and changes nothing else must hold for every document.", "anchors": ["src/decode/scanner.rs:parse_line_incremental", "src/decode/parser.rs:parse_key_token", "src/decode/parser.rs:parse_array_header_line", "src/cli/mod.rs:run_decode", "src/cli/conversion.rs:encode_to_toon_lines"]}
{"id": "C90", "title": "A document inside a document", "statement": "TOON texts can be put together as text, without decoding them. With every line of a text indented by one unit and a line of a key and a colon before it, the result is accepted exactly when the text is accepted as an object, and is the object with this key whose value is that object; so for a path of keys. A key written before the header of an array gives the object with this key whose value is the array. Texts of objects written as list elements, a hyphen before the first line and the others indented by two units, under a header with their number, are the list of these objects, provided each is read to its end, has no blank line and no further line at the margin beginning with a hyphen.", "quantifier": "all texts, keys, paths and lists of texts, strict or not, all indents but 0, path expansion off", "why_tests_cant": "The texts are arbitrary: nested objects, tables and lists at any depth, quoted keys, mixed delimiters; a template that pastes one document into another relies on every one.", "anchors": ["src/decode/scanner.rs:parse_line_incremental", "src/decode/decoders.rs:decode_key_value_sync", "src/decode/decoders.rs:decode_list_item_sync", "src/decode/decoders.rs:decode_list_array_sync"]}
{"id": "C91", "title": "What a hostile string can do", "statement": "For every value, also one that does not survive, what writing and reading it gives is determined exactly: the text is accepted as w if and only if w is the value with NaN and infinities as null, negative zero as zero, the objects of tables in column order, and each string that looks like an array header under a key written without quotes replaced, with its key, by the array its line stands for; it is refused if such a line stands for no array, if an array has more than 100 000 000 elements, or if a table has a column name with a closing brace. Such a misread entry has a key beginning with the written key, a colon and a quote, and a value that is an array of primitives; so if the text is accepted, every other field under an unquoted key is read as if the string were not there. But one such string, at any key written without quotes, makes the whole object unreadable in strict mode, whatever the other entries are.", "quantifier": "all JSON values with arrays shorter than 2^64, all keys and strings, indents but 0, delimiters comma, tab and pipe, strict or not, key folding and path expansion off", "why_tests_cant": "The string is chosen by an adversary and stands anywhere in an arbitrary value; that the damage is confined to its own entry quantifies over all strings and all surroundings.", "anchors": ["src/encode/primitives.rs:encode_string_literal", "src/decode/parser.rs:parse_array_header_line", "src/decode/decoders.rs:decode_key_value_sync", "src/decode/decoders.rs:decode_inline_primitive_array_sync"]}
{"id": "C92", "title": "What a replacer hides stays hidden", "statement": "Encoding with a replacer that drops the entries with some keys and replaces the values of others by a fixed primitive, wherever they are, always ends, and writes exactly the lines of the value with these entries dropped and masked at every depth, in arrays too. So two values that differ only in the values of masked entries and in which dropped entries they have are written as the same text. In what is read back from that text no object at any depth has a dropped key, provided the key is one that is written without quotes (a misread string can make up other keys, C91). The replacer has to go by the path: one that goes by the key it is given also drops array elements at the index of that name, and treats the document itself as an entry with the empty key.", "quantifier": "all values, all sets of dropped and masked keys, all encoder options (for reading back: key folding and path expansion off)", "why_tests_cant": "It is a statement about pairs of values: that the text is a function of what is not hidden cannot be seen from any number of single encodings.", "anchors": ["src/encode/replacer.rs:apply_replacer", "src/encode/replacer.rs:transform_object", "src/encode/replacer.rs:transform_array", "src/encode/mod.rs:encode_lines"]}
{"id": "C93", "title": "Parsing takes time in proportion to the text", "statement": "The passes that scanning, parsing and checking a text make over its characters (searches, trims, copies of parts of a line, comparisons, reading numbers, taking escapes away) go over at most a hundred characters for every character of the text, whatever the text is, accepted or not, strict or lenient, and over at least two if it is accepted. No nesting, no header, no row and no list makes a line be parsed again and again: the line after a table is looked at twice more, and what follows a hyphen is read as a header up to three times.", "quantifier": "all sources and texts, all indentations, strict and lenient", "why_tests_cant": "A bound on the work for all inputs cannot be seen from samples; a hostile text need not look like any of them.", "anchors": ["src/decode/scanner.rs:parse_line_incremental", "src/decode/parser.rs:parse_array_header_line", "src/decode/parser.rs:parse_delimited_values", "src/decode/parser.rs:parse_primitive_token", "src/decode/parser.rs:parse_key_token", "src/decode/validation.rs:validate_no_extra_tabular_rows", "src/decode/decoders.rs:decode_list_item_sync", "src/decode/decoders.rs:decode_stream_sync"]}
{"id": "C94", "title": "What encoding spends on paths", "statement": "For every entry of an object that it writes the encoder puts together the dotted path of the keys above it, even if keys are not folded, where the path has no influence on the text. For a value without arrays the characters copied are exactly those of the dotted paths of all the entries (and of the dotted keys at the top); for every value they are at most twice, with key folding six times, the length of the longest path for every value in it. Encoding does therefore not take time in proportion to the text: for every factor there is a value of two levels with distinct keys for which the paths have more characters than the factor times the text.", "quantifier": "all values, all options, all stacks large enough", "why_tests_cant": "A bound on the work for all inputs cannot be seen from samples, and the growth that exceeds every factor shows only in a family of values.", "anchors": ["src/encode/encoders.rs:encode_key_value_pair_lines", "src/encode/encoders.rs:encode_object_lines", "src/encode/encoders.rs:encode_object_as_list_item_lines", "src/encode/folding.rs:try_fold_key_chain"]}
{"id": "C95", "title": "Writing takes time in proportion to the text", "statement": "The characters that encoding goes over to decide on quotes, to escape, and to put together tokens, rows, lines and the text are at most twenty-five for every character of the text it returns, whatever the value, the nesting, the delimiter, the indentation and the folding; and at least every line is written once and once more as a part of the text. Together with the bounds on copies of values, comparisons of keys and paths, nothing in encoding is worse than those.", "quantifier": "all values, all options, all stacks large enough for the value", "why_tests_cant": "A bound on the work for all inputs cannot be seen from samples: a pass repeated for every level or every column shows only for values of that shape.", "anchors": ["src/encode/mod.rs:encode", "src/encode/encoders.rs:encode_json_value", "src/encode/encoders.rs:encode_inline_array_line", "src/encode/encoders.rs:write_tabular_rows_lines", "src/encode/primitives.rs:encode_primitive", "src/encode/primitives.rs:format_header", "src/shared/validation.rs:is_safe_unquoted"]}
{"id": "C96", "title": "What a rejected text means for the caller", "statement": "If decoding in strict mode fails, trying again without strict mode can help only if the error is one that strict mode alone reports (indentation, counts, surplus elements, blank lines inside arrays, path conflicts): every other error comes back unchanged, and none of those is reported without strict mode; a path conflict is always cured, unless the depth cap of expansion is met. The error is of the variant Validation exactly in strict mode for a text with a badly indented line, whatever else is wrong with it, and of the variant Message otherwise; no other variant is returned. The entry points that panic do so exactly for the texts that are rejected, with the text of the error for the first fault as the message, and return the decoded value for all others.", "quantifier": "all texts, all options", "why_tests_cant": "Which faults a second attempt can cure, and in which order faults are found, depends on every combination of faults in a text.", "anchors": ["src/decode/mod.rs:decode", "src/decode/mod.rs:decode_from_lines", "src/decode/mod.rs:decode_stream_sync", "src/decode/mod.rs:try_decode", "src/error.rs:ToonError", "src/decode/scanner.rs:parse_line_incremental", "src/decode/validation.rs:assert_expected_count", "INTEGRATION_GUIDE.md:Troubleshooting Checklist"]}
{"id": "C97", "title": "What every value becomes, with folding and with path expansion", "statement": "For every value and all options of encoding, key folding included, what reading its text gives is determined exactly, whether the value survives or not: the text stands for a tree if and only if the layout of the value (which keys are joined, which arrays are tables) is read as that tree, entry by entry, with strings that look like array headers under unquoted keys, joined keys too, taken for the arrays their lines stand for. Without path expansion the result is the value of that tree, with path expansion its merged value, unless there are more than 256 levels or, in strict mode, a conflict. Every key that is read is a key of the value or some of its keys joined by dots, or has a colon inside; with path expansion it is a key of the value, a part of a dotted key of the value, or has a colon inside. So a dropped key that is an identifier (C92) does not come back by folding, and not by path expansion either if no key of the value is a dotted path; a dropped dotted key can come back by folding, and a dropped identifier by expansion of a dotted key. One hostile string inside objects at any depth makes the text unreadable in strict mode under all options.", "quantifier": "all JSON values with arrays shorter than 2^64, all encoder options with an indent but 0 and a delimiter of comma, tab and pipe, strict or not, path expansion on or off", "why_tests_cant": "The outcome depends on the interplay of folding, misread strings, tables and expansion in arbitrary values; tests show it for single values that were chosen to survive.", "anchors": ["src/encode/folding.rs:try_fold_key_chain", "src/encode/encoders.rs:encode_key_value_pair_lines", "src/decode/decoders.rs:decode_key_value_sync", "src/decode/parser.rs:parse_array_header_line", "src/decode/expand.rs:expand_paths_safe", "src/encode/replacer.rs:apply_replacer"]}
{"id": "C98", "title": "How many lines there are, and how much room is reserved for lines and cells", "statement": "The number of lines of every value is the number its layout has. An object has at least as many lines as entries, and without folding exactly as many if and only if each entry is a primitive, an array of primitives or an empty object. Folding never adds lines. Before encoding, room is reserved for at least one line and for at most as many lines as there are values; the lines are at most those reserved and one more for each object under a key, so the reservation is enough where no object stands under a key. It falls short by any factor for chains of objects (one line reserved for any number) and exceeds what is needed by any factor for arrays on one line. A row of a text has at most one cell more than delimiters, which is what is reserved for it, and exactly one more if it has no quotes and is not empty.", "quantifier": "all JSON values, all encoder options; all rows and delimiters", "why_tests_cant": "A reservation that is too small only costs reallocation and one that is too large only costs memory, so tests pass either way; how the two numbers compare is a statement about all nestings.", "anchors": ["src/encode/encoders.rs:estimate_line_count", "src/encode/encoders.rs:encode_json_value", "src/decode/parser.rs:parse_delimited_values", "EXISTING_TOON_RUST_STRUCTURE.md:4.9"]}
{"id": "C99", "title": "Folding is a change of the value, and folding twice is folding once", "statement": "Let the joined value be what the folded text shows to a reader who takes every key as it is written. Written without folding, the joined value never has more lines than the folded text, and it has exactly the same lines if and only if joining keys has not made some list of objects into a table. The joined value has nothing left to fold (writing it with folding gives the same as without), if the limit on joined keys is more than the depth of the value. So in that case folding the joined value gives the text back, if and only if no list has become a table. Without path expansion the folded text is read as the joined value exactly if the joined value is one whose own text is read back (C73). Where a list becomes a table the text changes the second time; with a smaller limit the rest of a chain may be folded the second time.", "quantifier": "all JSON values, all encoder options; for reading, an indent but 0 and a delimiter of comma, tab and pipe, strict or not, and joined values with distinct keys and arrays shorter than 2^64", "why_tests_cant": "Stability under a second pass depends on how every chain, list and table of an arbitrary value interacts; tests check single values, and the value that breaks it needs a chain behind the first entry of an object in a list.", "anchors": ["src/encode/folding.rs:try_fold_key_chain", "src/encode/encoders.rs:encode_key_value_pair_lines", "src/encode/encoders.rs:encode_array_lines", "src/encode/encoders.rs:extract_tabular_header", "src/decode/decoders.rs:decode_key_value_sync"]}
{"id": "C100", "title": "Which values have a text with path expansion", "statement": "A value nested at most 127 deep is the result of decoding some text with path expansion exactly if its objects have distinct keys, no number in it is NaN, infinite or negative zero and no array in it has more than 100 000 000 elements (when decoding is not strict, arrays of primitives may have any length): dotted keys, keys beside the parts of a dotted key and keys of any other form can all be had, by writing them in quotes. The same text is then read as the value without path expansion too, and if no array is too long in all four modes. For deeper values the levels decide: whatever takes at most 256 levels (two for every object, one for every array, one for a primitive) has a text, and for values with no identifier among their keys nothing else has; of the values with identifiers none has a text if it takes more than 256 levels when all objects that are the value of an identifier are left out. Although the depth of expansion is capped at 256, a value read with path expansion may be nested 16 132 deep, and no deeper.", "quantifier": "all JSON values, all texts, all indents above zero, both modes", "why_tests_cant": "That a value has no text is a statement about all texts, and that all values of a kind have one is a statement about all values; the greatest nesting is reached by a single shape of text that joins keys of 253, 251, 249 and so on segments.", "anchors": ["src/decode/expand.rs:expand_paths_safe", "src/decode/expand.rs:insert_path_entries", "src/decode/decoders.rs:decode_stream_sync", "src/decode/parser.rs:parse_key_token", "src/decode/event_builder.rs:node_to_json"]}
{"id": "C101", "title": "What the conversions and a replacer take", "statement": "Normalizing a value, converting it from and to the host's JSON type, turning the decoded tree into a value and turning a value into events make one call for every value, nested as deep as the value: exactly the stacks with fewer calls than there are values on the longest way down overflow. After path expansion 16 133 calls are always enough, and there is a text for which fewer than 16 132 overflow. With a replacer, whatever it does, a stack that is too small shows as an overflow only; some stack is large enough exactly if the transformation ends at all, and a replacer that wraps every value overflows every stack. If no reply is nested deeper than the value it replaces, encoding with the replacer takes no more stack than the bound of C77 for encoding without one. A replacer that keeps every value is called once for every value, but every reply is normalized as a whole, so each value is gone over once for every level it is at, and for each call the path is put together anew: for a chain of n+1 objects (n+2)·(n+3)/2 values are normalized and paths of (n+1)·(n+2)/2 segments built. If no reply is deeper or larger than the value it replaces, there are at most as many calls as values, and at most values times levels are normalized or copied and segments put together.", "quantifier": "all values, all stack sizes, all replacers (with state), all encode options; the bounds for replacers whose replies are not deeper (not larger)", "why_tests_cant": "a test runs in one stack and with one replacer; the exact stack, the never-wrong-only-overflow and the quadratic cost are statements about all values and replacers", "anchors": ["src/encode/normalize.rs:normalize_json_value", "src/encode/replacer.rs:apply_replacer", "src/encode/replacer.rs:transform_children", "src/lib.rs:From<serde_json::Value> for JsonValue", "src/lib.rs:From<JsonValue> for serde_json::Value", "src/decode/event_builder.rs:node_to_json", "src/encode/mod.rs:emit_events"]}
{"id": "C102", "title": "Parts of a text, with path expansion", "statement": "In strict mode with path expansion, two texts that decode to objects a and b, one after the other (the first read to its end, the second beginning without indentation, no dotted key quoted in one place and plain in another, both values nested at most 127 deep), decode to the deep merge of b into a, or to a conflict exactly if the merge would replace something; conversely, if they are accepted together, each is accepted alone and the value is the merge of the two. A text cut off after one of its lines that is still accepted has no primitive and no empty array that the whole does not have at the same place. Values nested at most 127 deep, dotted keys counted with all their segments, never get the depth error (128 objects do). In lax mode, with mixed quoting or beyond the depth none of this holds: there are two texts each whose joint value is not the merge, and two accepted ones that are too deep together.", "quantifier": "all pairs of texts and all cuts between lines; all indentations", "why_tests_cant": "the rule is about all pairs of texts and rests on the associativity of the merge where nothing is replaced; tests join a few", "anchors": ["src/decode/expand.rs:expand_paths_safe", "src/decode/expand.rs:merge_objects", "src/decode/expand.rs:insert_path_entries", "src/decode/expand.rs:expand_object"]}
{"id": "C103", "title": "The order of entries", "statement": "Two texts whose entries are the same up to the order in which they stand in their objects, at any depth, decode to values that are equal up to the order of keys, in both modes. With path expansion in strict mode the same holds, or both texts are refused for a conflict, whatever the order (for values nested at most 127 deep, dotted keys counted with all their segments); in particular two texts of objects can be put one after the other in either order. In lax mode the order decides, since the later entry wins, and close to the cap of 256 levels a text can be accepted in one order and be too deep in the other.", "quantifier": "all texts and all reorderings of the entries of all their objects", "why_tests_cant": "the claim is about all orders of all entries; it rests on the commutativity of merging, and a test tries a few orders", "anchors": ["src/decode/expand.rs:expand_object", "src/decode/expand.rs:merge_objects", "src/decode/expand.rs:insert_path_entries", "src/decode/expand.rs:insert_literal_entry"]}
{"id": "C104", "title": "What a path conflict is", "statement": "In strict mode with path expansion a well-formed text is refused for a conflict exactly if two entries of one of its objects, somewhere in it, have something at the same place that is not an object in both; otherwise it is accepted (for values nested at most 127 deep, dotted keys counted with all their segments). So a conflict is always between two entries and never comes from three or more together, and which of the two comes first does not matter. Two values that are not objects conflict exactly if the path of one begins with the path of the other.", "quantifier": "all texts, all pairs of entries of all their objects, all paths", "why_tests_cant": "the code compares each entry with all earlier ones merged; that this amounts to comparing pairs is a claim about any number of entries", "anchors": ["src/decode/expand.rs:expand_object", "src/decode/expand.rs:merge_objects", "src/decode/expand.rs:insert_path_entries", "src/decode/expand.rs:insert_literal_entry"]}
{"id": "C105", "title": "Which entry a decoded value comes from", "statement": "With path expansion, in both modes, whenever a text of an object is accepted: something that is not an object is at a place of the decoded value exactly if an entry of the text puts it there and no later entry has anything there or something that is not an object on the way there (the last one to say something wins, place by place). There is an object at a place exactly if an entry has one there and no later entry has something that is not an object there or on the way there. In strict mode it is enough that any entry puts it there, and no other entry, earlier or later, says anything about that place.", "quantifier": "all texts of objects, all places of the decoded value", "why_tests_cant": "the claim is about any number of entries merged into one another and about every place of the result", "anchors": ["src/decode/expand.rs:expand_object", "src/decode/expand.rs:merge_objects", "src/decode/expand.rs:insert_path_entries", "src/decode/expand.rs:insert_literal_entry"]}
{"id": "C106", "title": "An entry added at the end of a text", "statement": "With path expansion, adding an entry (a key, possibly dotted, with a scalar or an array) at the end of the text of an object sets the value at the end of its path: in lax mode whatever was there before; in strict mode the longer text is refused for a conflict exactly if there was anything at that place or something that is not an object on the way to it. When it is accepted the value is at the end of the path, there are objects on the way to it, and at every place that is neither on the way nor below there is exactly what was there before.", "quantifier": "all texts of objects, all entries added, all places of the decoded value; up to 127 levels; the key not quoted in one part and unquoted in the other", "why_tests_cant": "that nothing else changes is a claim about every other place of every value", "anchors": ["src/decode/expand.rs:expand_object", "src/decode/expand.rs:insert_path_entries", "src/decode/expand.rs:insert_literal_entry", "src/decode/expand.rs:merge_objects"]}
{"id": "C107", "title": "Writing a value in parts", "statement": "Any number of objects that are not empty can be written one after the other, each with its own delimiter and folding options (only the indentation must be the same), with a line break between the texts. Without path expansion the whole is accepted exactly if every part is, and is read as the entries of all parts in order. With path expansion in strict mode, if every part is accepted by itself (values nested at most 127 deep), the whole is read as the deep merge of what the parts are read as, or is refused for a conflict exactly if two of the parts have something at the same place that is not an object in both. In particular values that survive by themselves can be written in parts and are merged on reading.", "quantifier": "all lists of objects, all options for writing each of them, both modes", "why_tests_cant": "any number of parts, any options, any values; what one part leaves open at its end could change what the next one means", "anchors": ["src/encode/mod.rs:encode_lines", "src/encode/encoders.rs:encode_object_lines", "src/decode/decoders.rs:decode_stream_sync", "src/decode/expand.rs:expand_object"]}
{"id": "C108", "title": "Folding shortens the text", "statement": "Switching key folding on either leaves the text of a value exactly as it is or makes it shorter, both in lines and in characters; each line saved saves at least one character and the indentation of one level. This holds for every flatten depth, but the text does not get shorter and shorter as the depth grows: a larger depth can give a longer text than a smaller one, because a longer chain may spell the key of another entry and is then not folded at all.", "quantifier": "all values, all options for writing", "why_tests_cant": "any nesting, any keys, any depth of folding and width of indentation; what is below a folded key moves to the left, what is beside it may or may not be folded", "anchors": ["src/encode/folding.rs:try_fold_key_chain", "src/encode/encoders.rs:encode_key_value_pair_lines", "src/encode/mod.rs:encode"]}
{"id": "C109", "title": "No shorter text says the same", "statement": "Without key folding, among all texts that differ only in how each array is written (on one line, as a table, as a list, tables also behind a hyphen) and that strict decoding reads as the same value, the text the encoder writes has the fewest lines and the fewest characters, for the same indentation and delimiter. The one exception is an array that is itself an element of an array: it is never written as a table, although the decoder reads such a table, and the text is then longer than necessary.", "quantifier": "all values without the known defects, all choices for all their arrays, all indentations and delimiters", "why_tests_cant": "every combination of choices for every array of every value", "anchors": ["src/encode/encoders.rs:encode_array_lines", "src/encode/encoders.rs:extract_tabular_header", "src/encode/encoders.rs:encode_list_item_value_lines", "src/decode/decoders.rs:decode_array_from_header_sync"]}
{"id": "C110", "title": "What the choice of the delimiter costs", "statement": "Encoding one value with two delimiters gives texts with the same number of lines whose lengths differ exactly by what the delimiters cost: two quotes for each string that is quoted only because it contains the delimiter, and one character for each array unless the delimiter is the comma. So the tab is never longer than the pipe; the comma is longer than the tab exactly if twice the number of strings quoted only because of a comma exceeds the number of arrays; and if no string contains a comma no delimiter gives a shorter text.", "quantifier": "all values, all pairs of delimiters, all indentations, folding on or off", "why_tests_cant": "an exact law of lengths for every value and every pair of delimiters", "anchors": ["src/encode/primitives.rs:format_header", "src/encode/primitives.rs:encode_string_literal", "src/shared/validation.rs:is_safe_unquoted", "src/options.rs:EncodeOptions"]}
{"id": "C111", "title": "What the choice of the indentation costs", "statement": "The indentation never changes the number of lines, and the length of the text is a linear function of it: the length without indentation plus the indentation times the sum of the levels of all lines. Without key folding the indentation costs nothing exactly for values without nesting, those that survive being written without indentation; a primitive below n + 1 nested keys takes n (n + 1) / 2 characters for each space.", "quantifier": "all values, all indentations, all delimiters, folding on or off where not stated", "why_tests_cant": "an exact law of lengths for every value and every indentation", "anchors": ["src/encode/encoders.rs:encode_json_value", "src/encode/encoders.rs:indented_line", "src/options.rs:EncodeOptions"]}
{"id": "C112", "title": "Searching the text finds every string", "statement": "Every part of every string value and of every key of a value without repeated keys stands, with its special characters escaped, in one line of the encoded text, for all options: quoting, tables, lists and joined keys never tear a word apart. So a word without quotation mark, backslash, line feed, carriage return and tab that no line contains occurs nowhere in the value. A word with such a character is not found unescaped, and of two entries with the same key in a table row the second is not in the text at all.", "quantifier": "all values without repeated keys, all strings and keys in them at any depth, all parts of these, all options", "why_tests_cant": "every word of every value under every combination of options", "anchors": ["src/encode/encoders.rs:encode_json_value", "src/encode/primitives.rs:encode_key", "src/encode/primitives.rs:encode_string_literal", "src/encode/folding.rs:try_fold_key_chain"]}
{"id": "C113", "title": "Nothing in a decoded value that is not in the text", "statement": "Decoding does not invent text. For all options, every part of every string value and of every key of a decoded value that has no backslash, quotation mark, line feed, carriage return or tab stands in one piece in one line of the text: no string is glued together from two lines or cells, none is supplied by default, and path expansion only cuts keys apart. So a string without these five characters is a copy, and every other character of a decoded string occurs in the text. For the five characters this is false: a decoded line feed stands in no line.", "quantifier": "all texts that decode, strict or not, with or without path expansion, all strings and keys of the value at any depth, all parts of these", "why_tests_cant": "every word of the value of every text under every combination of options", "anchors": ["src/decode/mod.rs::decode_from_lines", "src/decode/decoders.rs::decode_stream_sync", "src/decode/parser.rs::parse_primitive_token", "src/decode/expand.rs::expand_paths_safe"]}
{"id": "C114", "title": "Every primitive of a decoded value is read from one word", "statement": "For all options, every number, truth value, null and string of a decoded value is what one word of one line of the text stands for, a word being bounded by the ends of the line, whitespace, a delimiter or a colon before it. So a number is the value of a numeral in the text, negative zero read as zero, and a truth value is spelled out. In strict mode this holds for nulls too; in lenient mode a missing cell of a table row becomes a null that is not in the text.", "quantifier": "all texts that decode, strict or not, with or without path expansion, all primitives of the value at any depth", "why_tests_cant": "every primitive of the value of every text under every combination of options", "anchors": ["src/decode/decoders.rs::decode_stream_sync", "src/decode/parser.rs::parse_primitive_token", "src/decode/parser.rs::parse_delimited_values", "src/decode/expand.rs::expand_paths_safe"]}
{"id": "C115", "title": "Every primitive of a value is a word of its text", "statement": "In the text of a value without repeated keys every number, truth value, null and string of the value, at any depth, stands as a word of one line: spelled as its token, with nothing, whitespace, a delimiter or a colon before it, and nothing, whitespace or a delimiter after it, for every delimiter and indentation, with or without joined keys. So a finite nonzero number is found in decimal notation, and if null is not a word of the text, the value has no null, NaN or infinity. With a repeated key in a table row this is false.", "quantifier": "all values without repeated keys, all primitives in them at any depth, all options", "why_tests_cant": "every primitive of every value under every combination of options", "anchors": ["src/encode/encoders.rs::encode_json_value", "src/encode/primitives.rs::encode_primitive", "src/encode/primitives.rs::encode_and_join_primitives", "src/encode/folding.rs::try_fold_key_chain"]}
{"id": "C116", "title": "A decoded value is read from left to right", "statement": "In strict mode and without path expansion the numbers, truth values, nulls and strings of a decoded value, taken from left to right at every depth, are the meanings of words that stand in the text in this order, line after line and without overlapping: nothing is read twice and no value changes places with another. In lenient mode this holds except that cells beyond the columns of a table are left out and nulls are put in for missing ones. The events of the decoder come in the same order. With path expansion entries with a common prefix are brought together, so the order is another; in strict mode the primitives are still exactly those read without path expansion, each from a word of its own and none lost (in lax mode a later entry may replace an earlier one, but no word is used twice). For the text of a value that survives the round trip exactly (C01: no joined keys, rows in column order) the same holds with the order of the value. For the text of every writable value, keys joined or not, every primitive has a word of its own in the text.", "quantifier": "all texts that decode, all options, all primitives of the value at any depth", "why_tests_cant": "the order of all primitives in every value of every text", "anchors": ["src/decode/decoders.rs::decode_stream_sync", "src/decode/parser.rs::parse_delimited_values", "src/decode/event_builder.rs", "src/decode/mod.rs::decode_from_lines", "src/decode/expand.rs::expand_paths_safe"]}
{"id": "C117", "title": "Strings are not copied", "statement": "Whatever the options, all strings of a decoded value together have no more characters than the text it is read from (line breaks not counted): no string of the text is copied to two places, so strings cannot be multiplied by a short text. The same holds of the events of the decoder. Keys can be multiplied: a table repeats the names of its columns in every row. Conversely the text of a value has room for all its strings, keys joined or not.", "quantifier": "all texts that decode, all options; all writable values", "why_tests_cant": "a bound on every output of every text", "anchors": ["src/decode/decoders.rs::decode_stream_sync", "src/decode/parser.rs::parse_string_literal", "src/decode/expand.rs::expand_paths_safe", "src/decode/event_builder.rs"]}
