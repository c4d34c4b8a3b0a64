# Formal model of toon_rust in Lean 4: design

The code under study is `/repo` (Rust crate `toon_rust`: JSON <-> TOON text).  The code is
never built or run here; the model in `lean/Verif/` was written by reading it.  Property ids
refer to `properties.jsonl`; theorem names are in `MANIFEST.json`.

## 1. Layout

| directory | content |
|---|---|
| `lean/Verif/Model/` | the model, one Lean definition per Rust function, each with a file/line citation |
| `lean/Verif/Spec/` | small specifications used in statements (JSON equality up to key order, class of round-trippable values, event list of a tree, numeric grammar, ...); no use of model helpers |
| `lean/Verif/Lemmas/` | helper lemmas |
| `lean/Verif/Props/` | the property theorems (and a non-vacuity `example` beside each) |
| `lean/Verif/Tests/` | tests of the model, not theorems: the repository's own test cases run against it |

## 2. Modelling decisions

* Text: `Str := List Char`.  The Rust code works on UTF-8 `&str` with byte offsets; every
  offset it slices at is the position of an ASCII character found by search, so the model uses
  character positions.  C44 justifies this: `Model/Utf8.lean` is the decoder again with byte offsets and
  panicking slices, proved equal to the character-level decoder for every text.
* `usize` is `Nat`; the only place where the 64-bit bound is observable (`parse::<usize>()` of
  a bracket length) has the bound explicitly.  Vec capacities, saturating additions used for
  capacities, and memory exhaustion are not modelled.
* `f64` is a parameter: a type `F` with a class `F64 F` (finite?, zero?, sign, zero, `display`,
  `parse`) and laws (class `LawfulF64`): `parse (display x) = x` for finite non-zero `x`,
  `display x` has the shape `-?digits(.digits)?` without superfluous leading zero, `parse` of
  "0" is zero.  These are the documented guarantees of `f64::to_string` and `str::parse::<f64>`
  in the Rust standard library and are part of the trusted base.  A concrete model instance
  (IEEE-754 binary64 with exact rational rounding and shortest output) satisfies the laws, lets the model be executed, and
  is what C67 and C68 are about.
* `char::is_whitespace` is the Unicode `White_Space` set, listed explicitly.
* `&mut Vec<..>` output parameters become returned lists; `?` is `Except` bind.
* The line cursor is (remaining lines, last consumed line); blank lines are constant context.
* Mutual recursion in the decoder is fuel-indexed; the fuel given by the entry point is
  `5 * lines + 5` and is proved never to run out (C13).
* The encoder produces lines as pairs (depth, content) and a separate function writes the
  indentation; in the Rust code each `out.push(indented_*(depth, ..))` does both.
* HashSet is a list used only through membership.
* Panics are explicit error values.

* `serde_json` (JSON text in and out) is an external crate.  Its reader is modelled by a recursive
  descent reader, proved equivalent to the grammar of RFC 8259 (`readJson_iff`), with the crate's nesting
  limit of 127 and its insertion-ordered map.  How a numeric token becomes an `f64` is a parameter `rd`: the
  project does not enable the feature `float_roundtrip`, so the crate may be off by one unit in the last
  place.  Its writer is modelled character by character; the text of a finite `f64` is a parameter with the
  law that it is a JSON number and reads back to the same `f64` (`LawfulJsonNum`, shown for the binary64
  model).

* The operating system of the command line tool (C57) is a `World`: file contents, standard input, whether a file
  can be created, and the fate of each writing operation (accepted, or failing after `k` bytes).  `BufWriter` and
  `LineWriter` are modelled from the source of the Rust standard library; a short write followed by an error counts
  as one failing operation.  Not modelled: several paths for one file, other processes, a closed standard output.

Error values carry the data of their messages, and `Model/Message.lean` gives the texts of all errors of decoding
(C60).  Not given are texts that contain the message of another crate (`serde_json`, `wasm-bindgen`) and those of the
event builder's error (one constructor for several texts; no input leads there, C14).

Standard error and the exit status of the tool are modelled (`Model/Stderr.lean`, C61).  The reasons given by the
operating system and by `serde_json` are parameters; the percentage of `--stats` is computed with division and
multiplication of the binary64 model, and `{:.1}` rounds the exact value to one place, ties to even.

Not modelled: `clap` argument parsing itself, a standard error that cannot be written to, the async runtime (polls are modelled as a step function), allocation (but
C85 has what the JSON printer reserves and C98 what is reserved for lines and cells), and the stack except for the decoder, the encoder, path expansion, the JSON printer, the conversions and the replacer (C75, C77,
C79, C85 and C101 count nested calls, not bytes; elsewhere, so in
`clone` and `drop`, every recursion over nesting is total in the model, and the program can exhaust its stack on very deep values).  The option objects of `wasm.rs` are modelled (`Model/Wasm.lean`) with 64-bit `usize`; on wasm32
`usize::MAX` is smaller, which C55 (`C55_unlimited`) shows to be unobservable.

## 3. Plan per property

* C01, C04, C39, C40, C41: one theorem: for every value in the class, the decoder run on the
  encoder's lines returns the events of the canonical form of the value.  Induction on the size
  of the value over the whole mutually recursive encoder; the decoder lemma is stated for
  arbitrary following lines of no greater depth.  The class is `RT` in `Spec/`, a decidable
  predicate.
* C02, C03: exact analysis of the header parser on key/value lines and table headers.
* C05-C10: list induction on strings / token lists with scanner invariants.
* C11, C12: induction on values along the encoder.
* C13: fuel adequacy by induction on fuel with the number of remaining lines as measure.
* C14, C16, C20: one induction over the decoder with a predicate on trees (`ETree`).
* C15: stack machine simulation, induction on trees.
* C17, C19: relational induction over two runs of the decoder.
* C18: scanner, list induction.
* C21: grammar given as an inductive/regular spec, both directions.
* C22: structural induction.
* C23-C25, C53: induction on values over the encoder's layout (`shape`): which keys are folded, which
  leaves the folded value has, and that expansion rebuilds the value.
* C26-C29: path expansion is compared with a functional specification (`Spec/Expansion.lean`): deep merge
  of the nested objects that the keys stand for, entry by entry; expansion is modelled with its depth
  counter.
* C30, C31: replacer with fuel; identity/termination by structural induction.
* C32, C33, C34: step machines; invariant relating the stack to the remaining events.
* C35, C36: the JSON grammar of RFC 8259 as an inductive relation (`Spec/JsonText.lean`); a reader proved
  equivalent to it (`readJson_iff`); both printers proved equal to one layout function.
* C37: simulation of the whole decoder (`Lemmas/Pad.lean`, `PadSim.lean`, `PadScan.lean`) on two documents whose
  lines differ only in trailing white space; concrete counterexamples for the exceptions.
* C38: proved part plus concrete counterexamples.
* C42: `Map::insert` folded over the entries equals "last value at the first position" (`Spec/Host.lean`).
* C43: path components by list splitting, against `HasExtension`; both directions.
* C55: induction over the encoder for the flatten depth; case analysis for the rest.
* C54: composition of C01/C23, C19, C20, C35, C36, C42.
* C45-C47: declarative grammars of cells, tokens and plain text; both directions (`iff`), over all
  texts.
* C48-C52: the array loops over lines of one depth return exactly the elements the lines stand for
  (`flatOut`), then an `iff` between acceptance of a whole document and the specification.
* C56: the layout of a value as an inductive relation and the lines of a layout as a printer; induction over the
  mutually recursive encoder, uniqueness by induction on the value.
* C44: byte-level model of the scanning functions and of the whole decoder (`Model/Utf8.lean`), related to the
  character-level model by `off s k`, the byte offset of character `k`; induction over the byte loops (a byte
  of a multi-byte character is never ASCII), then over the decoder's fuel.
* C57: the bytes accepted by the device followed by those in the buffer are the bytes handed over so far (invariant
  over the write operations); crash states of a list of file operations are an inductive relation; induction over the
  pieces written.
* C58: a grammar of documents as inductive relations on lines (`Spec/Grammar.lean`).  Each parser function is proved
  equivalent to its relation (`Lemmas/GrammarHeader.lean`, `GrammarLeaves`, `GrammarArrays`, `GrammarScan`); the
  mutually recursive decoder functions are proved sound (`GrammarSound`) and complete (`GrammarComplete`) by induction
  on the fuel, and the fuel never runs out (C13), so decoding succeeds exactly on the documents of the grammar.
* C59: bounds on nesting, number of values and number of characters, by induction over the derivations of C58 with a
  potential on the lines that are left (sum of the depths; characters plus a constant per line); path expansion and deep
  merge do not increase the volume.  Lower bounds by derivations for two explicit families of tables.
* C60: a grammar of first faults (`Spec/Faults.lean`), built on the grammar of C58: what precedes the fault is derivable
  there, the fault itself is a relation per parser function (`Lemmas/FaultLeaves.lean`, `FaultArrays`).  Soundness by
  induction over the derivations (`FaultSound`), completeness by induction on the fuel (`FaultComplete`, `FaultRoot`).
  What the error says (`Spec/Complaints.lean`) by induction over the derivations.  First conflict of path expansion
  (`Spec/Conflicts.lean`): the merge of C27, reporting.
* C61: case analysis of a run with C57; words as an inductive relation, proved equal to the splitting function; the
  relative error of a rounded quotient is at most 2^-53 (`Lemmas/Percent.lean`), so for estimates below 2^40 two
  roundings do not move the percentage past the middle between two tenths.
* C62: the length of the JSON printer's text as a recursive function of the lengths of the primitives, monotone in them and
  in the depth; the characters of the rows of a layout (C56) compared with it by mutual induction on the layout relation;
  rows of tables are permutations of the columns, so their lengths add up.
* C63: the list of hurdles (levels and conflicts) in the order of the walk as a separate specification; every function of
  `expand.rs` meets its list: it fails with the first hurdle that cannot be passed and not otherwise.  Runs are composed by
  two lemmas (one run after the other, a check before a run), so that the induction follows the model once for both modes.
  The first conflict among the hurdles is that of C60; for trees without dotted paths the levels are those of C29.
* C64: the reader as a relation between a stage (before the first line, in the flat object, keeping lines, done), a line and
  what it yields, over the grammar of C58 and the faults of C60; the stream is related to the stage between two lines
  (`AtStage`) and a line is processed as the relation says, so that polls, observed together with the number of lines still
  unread, are the items of the relation.  Totality (every line has a rule at every stage) makes the description complete.
* C65: the indentation of lines enters the meaning of a text only through comparisons of depths.  Two scans of the same lines
  with units i and j give depths that are proportional (`Proportional`: i·d = j·d'), and by induction over the grammar of C58
  a document and its proportional image have the same tree (`document_proportional`); the only rule that mentions a depth
  difference other than one is excluded because both derivations exist.  The exact condition of acceptance: the rows of the
  layout of C56 with scaled depths (`document_scaled`), where arrays of rows or items need depth exactly one more
  (`document_sparse`).  Unit 0 gives depth 0 everywhere (`document_flat`).
* C66: the first line of a written array, as far as the closing bracket, is fixed by C56; no header of the grammar of C58
  begins this way (`foreign_noHeader`), and without a header the grammar has no array document.
* C67: `Spec/Numbers.lean` says what the nearest double of a quotient and the shortest decimal of a double are, without an
  algorithm.  `Model/Float64.lean` computes both (long division with remainder; search for the first number of digits at which
  one of the two neighbouring decimals is read back).  `ofUnits_rounded` shows the first to be the nearest, `shortest_min` and
  `shortest_near` the second to be the shortest and nearest; `rounded_unique` makes the specification determinate.
* C68: the cast of an `f64` to `usize` (`B64.toUsize`) against the exact value in units of 2^-1074, for every width; the
  consequences for an indent below one come from C65.
* C69: inductive descriptions of the sequences (`Builds`, `Prints`).  That they are accepted is by induction on the
  derivation; that nothing else is, by an invariant that relates the events read so far to the stack of open containers
  (`Reached`, `PReached`).
* C70: `Cut`/`ValueCut` in `Spec/Cut.lean`.  Over the grammar of C58, by induction on the number of lines, for two
  derivations at once, one on some lines and one on these lines followed by more: the outcomes are the same and so is
  what is left, or the first used up all its lines and its tree is a cut of the second.  In strict mode the declared
  length leaves no choice for tables and lists, so a cut can only be in the last element.
* C71: over the grammar of C58: a derivation stays one when its lines are renumbered and lines without indentation follow,
  or any lines if it had left lines unread (`Renumbers`, `join_all`, by induction on the number of lines).  The blank lines
  of the other text have numbers outside the range of the lines at hand and so do no harm.
* C72: over the layouts of C56, which without key folding are free of the context an entry stands in: the rows of the
  entries of an object are those of each entry, in order, and a row one level down is the same row pushed to the right.
  For arrays, the header and the lines of each element are read off the equations of the encoder.
* C73: the decoder is run over the encoder's lines without assuming that they are readable (`KVRun`, `ItemRun`, `ArrRun`:
  the outcome of a part of the text is an error or some events, whatever follows).  A table with a brace and an array over
  the cap are errors; an entry that is misread as an array is an error or has a longer key, and takes one line as before,
  so that the rest is read as it is without the defect.  The total length of the keys of the decoded value is therefore at
  least that of the written one, and equal only if there was no defect; it does not depend on the order of keys.
* C74: for the existence of a text a writer that avoids the encoder's defects is run through the same lemmas as C73
  (`KVRun`, `ItemRun`, `ArrRun`): keys of primitives always in quotes, arrays always as lists, and arrays of primitives
  that are too long as a line that declares no elements (readable when not strict).  The bound on arrays is proved by
  induction over the grammar of C58, the condition on numbers is C20.
* C75: `Model/Frames.lean` writes the decoder once more, with an event vector, a cursor by index, loops and a stack that
  can overflow; a simulation (induction on the fuel of the other model, one claim for each function) shows both equal
  when there are four frames for every level of indentation left; a text in which each line opens the next level shows
  that fewer do not suffice.
* C76: the same machine counts its steps; the bound is an amortised one (every line pays for seven steps and one
  comparison with every blank line), by induction on the stack; a text of many short arrays before many blank lines is
  run symbolically for the lower bound.
* C77: `Model/EncFrames.lean` writes the encoder once more, with the output vector and a stack that can overflow; induction
  on the stack shows that it writes what the other model writes when there are three frames for every level of the value.
  Arrays of pairs of an object and a scalar show that fewer do not suffice.  Not counted: the drop of the values, the
  conversions into `JsonValue`, the replacer.
* C78: the same machine counts the values that are copied.  The bound is an induction on the stack over a rate per value;
  the lower bounds are symbolic runs.
* C79: `Model/ExpandFrames.lean` writes path expansion once more, with a stack that can overflow and a count of the keys that
  are compared and the values that are copied.  Every call passes on a greater depth and stops at 256, so induction on the
  stack gives the bound; the work is bounded by an invariant on the volume of what has been collected.  The lower bound is a
  symbolic run for a text whose tree is given by the grammar of C58.
* C80: the converse of C23.  `Lemmas/OutcomeFold.lean` repeats the induction of C73 with folding and with the tree that is read
  instead of its keys: each written entry is read as itself, as the dotted key of its chain, or misread under a longer key.
  `Lemmas/EquivInv.lean` inverts equality up to the order of keys and shows that an object can only come back if every path
  starts with its own key: as many merged entries as written ones means that nothing met anything, and the total length of the
  first keys rules out the misread ones.  The levels are those of C63, computed for trees whose paths start with different keys.
* C81: the states of the three streams after any number of polls.  For the encoder an invariant counts, along the events told,
  the values begun and the containers open (`Lemmas/Held.lean`).  For the decoder an invariant of one step is carried through the
  loop of a poll (`Lemmas/HeldDecode.lean`); the cases of one line are those of C64.
* C82: `Spec/Draft.lean` has layouts with declared lengths, their lines, and what is true of honest ones.  By induction over the
  draft the decoder either tells the events of its value or fails, according to its honesty (`Lemmas/Draft.lean`,
  `Lemmas/DraftRead.lean`).  The layouts of C56 are honest drafts, and a draft that lost elements is not (`Lemmas/DraftLayout.lean`).
* C83: `Spec/Salvage.lean` says what has been read of a draft when reading stops.  By induction over the draft its lines mean that
  value in the grammar of C58 with `strict := false`; the lines left over begin with one that is deeper than every block that is
  still open, so no block goes on (`Lemmas/Salvage.lean`).  C58 gives the value the decoder returns.
* C84: `Spec/Script.lean` has texts in any spelling: words with spaces around them, keys, columns, the text between the brackets.
  `Lemmas/ScriptText.lean` shows what the grammar of C58 makes of the parts of a line (cells are cut at the right places, a header
  is a header and a key line is none), `Lemmas/Script.lean` by induction that the lines mean the value.
* C85: `Model/JsonFrames.lean` is the JSON printer with its buffer, a bounded call stack and the estimate of the size.
  `Lemmas/JsonFrames.lean` shows by induction on the stack that it prints what `Model/JsonText.lean` prints when there are enough
  frames and overflows when there are too few, `Lemmas/JsonFramesCost.lean` counts the calls, and `Lemmas/JsonReserve.lean` compares
  the estimate with the bytes of the text by induction on the value.
* C86: `Spec/HashOrder.lean` lets an adversary lay out every set anew after every event (`Shaken`) and choose the list that stands for
  the dotted root keys.  Alike states are shown to stay alike, and expansion, conversion and folding to read sets through membership only.
* C87: `Model/Compares.lean` gives for every function of the encoder the number of key comparisons, along the machine of
  `Model/EncFrames.lean`.  The bound is an induction on the stack with a credit of one comparison per entry and key of the widest object;
  the exact counts for tables use that the positions of different keys add up to `w·(w + 1) / 2` in any order.
* C88: `Model/LineCopies.lean` is the decoder once more with a count of the copies of lines (`peek_sync().cloned()`, `advance_sync`,
  `next_sync`), with a weight for each line as a parameter.  The result is proved to be the decoder's.  The bound is an induction on the
  decoder's recursion: a call that works below depth `b` may look at the line that ends it at most `2·(levels deeper than b) + 1` times.
  The power comes from `levels` different depths taking at least `levels²/2` units of indentation; the witness is `k` nested objects
  before one line of `k²` characters.
* C89: nothing new is modelled.  Through the grammar of C58: with the mark before it, a line has the same header, key and colon, one
  place further on, and it is never the header of a root array; the rest of the document is read by the same rules.  With path expansion
  the first key is not a dotted path (U+FEFF is not a letter) and merging never changes the first key of an object.
* C90: nothing new is modelled.  `Spec/Nest.lean` builds the texts line by line.  Through the grammar of C58: the rules of entries, blocks,
  arrays and items are carried over to the same lines at another depth, with other line numbers and with lines after them (`Moves`); the
  scanner reads lines indented by `n` units more as the same lines `n` deeper, in strict mode too.
* C91: nothing new is modelled.  `ReadsBack` (`Spec/Misread.lean`) is a relation by recursion on the value that says what it becomes, with
  `MisreadAs` for the line of a header-like string by the grammar of C58.  The induction of C02 is repeated for a decoder that may fail
  or read something else (`Yields`: every outcome is described and every description is an outcome).
* C92: nothing new is modelled.  `Spec/Redact.lean` has the replacer, the hidden value by recursion, and `SameBut`.  The transformation gives
  the hidden value by induction on the value with depth to spare; what is read back is by C91, with the keys of `ReadsBack`.
* C93: `Model/Passes.lean` is the decoder once more with the characters that each pass goes over, function by function (`headerPasses`,
  `tokenPasses`, ..).  It agrees with the decoder by the induction on the budget of C88, and the bound is by the same accounting: a line
  that is taken pays for what is parsed of it and for the two passes of the table before it.
* C94: `Model/PathCopies.lean` counts the characters of the paths function by function, in the manner of C87.  The bounds are by
  induction on the stack with the longest path as the allowance; that the path does not matter is by C39's canonical form, whose
  encoding holds for all paths; the family `longLabel` has an object of n entries under a key of n² characters.
* C95: `Model/Writes.lean` is the stack-bounded encoder of C77 with the characters counted.  One predicate (`Puts`) says of a part of
  the run which lines it adds and that its steps lie between their length and 24 times it, with something to spare for a key that is
  encoded twice; it is closed under sequence and loops, and the induction on the stack follows that of C77.
* C96: the simulation of C17 (`Lemmas/Sim.lean`) has a predicate on errors: errors of which it holds are errors of the second run too.
  With `strictOnly` for its complement, strict and lax runs fail alike.  Variants and panics are `Model/Panicking.lean`; that
  `Validation` stands for bad indentation is C60's description of the errors and C18.
* C97: nothing new is modelled.  `Layout.Means` (`Spec/LayoutMeans.lean`) is the relation of C91 on layouts (C56) and trees (C58); the
  induction is that of C91 along the encoder, which at each step also gives the layout.  Keys are by induction on the layout, and through
  the merge of C27.
* C98: `Model/LineEstimate.lean` models `estimate_line_count`; `Layout.lines` (`Spec/LineCount.lean`) counts the lines of a layout, which is
  the number of lines by C56.  All comparisons are inductions on the layout.
* C99: nothing new is modelled.  `Layout.joined` (`Spec/Joined.lean`) reads the value off a layout; by induction the layout is again the layout
  of that value, without folding, where `Layout.ListsStay` holds, and elsewhere the count of lines (C98) is smaller.  That no chain is left
  uses that a joined key is no identifier and that keys with dots are never folded.
* C100: nothing new is modelled.  The writer of C74 is repeated with every key in quotes, which makes the tree one to which C63 applies with
  two levels per object; for the converse `leastLevels` (`Spec/Levels.lean`) is shown not to grow under merging, by induction on the tree.
  The greatest nesting is the solution of a recurrence over the levels, and a text that reaches it is built line by line.
* C101: `Model/ConvFrames.lean` has the conversions and the replacer with loops that append, a stack, and steps whose prices are chosen
  (calls of the replacer, values normalized or copied, path segments).  One lemma about loops (fits: exact steps and result; does not fit:
  overflow) gives all the conversions; the replacer is compared with `Model/Replacer.lean` in both directions by induction on the stack
  and on the fuel.
* C102: deep merging is associative if the third value replaces nothing of the second (`Lemmas/MergeAssoc.lean`), and a merged value meets
  a conflict exactly if one of its parts does, one after the other.  So the entries of a second text can be merged among themselves first.  The
  levels of `Spec/Hurdles.lean` are at most two per unit of nesting.  Cuts: C70 on trees, with the leaves of C27.
* C103: values agree if they have the same keys with values that agree (`Lemmas/Accord.lean`); merging respects this and is commutative up to it
  where nothing is replaced.  With C102's associativity two neighbouring entries can be swapped, in every object of the tree.
* C104: something can be merged into a merged object exactly if it can be merged into both parts (`clashEntries_both`), so a conflict is
  between two entries; two values collide exactly if some path of keys leads in both to values that are not both objects.
* C105: what is at a path of a merged value, by induction on the path (`follow_merge`, `follow_mergeObject`), then along the entries.
* C106: merging a single path, by induction on it: what is at its end, on the way and elsewhere (`Lemmas/Override.lean`); when it collides.
* C107: how the lines of an object are read does not depend on what follows at the same depth (`KVRuns.append`), so the readings of the parts
  follow one another (`parts_means`); written dotted keys are never quoted (C97), and C104's pairs give the conflicts (`expanded_flatten`).
* C108: the layouts with and without folding (C56) are compared part by part: a folded entry against the chain of objects it stands for
  (`chain_size`), everything else against itself, less deep (`entryRows_deeper`); the rows saved and the characters saved are counted together.
* C109: a freely chosen text is a draft (C82).  What the encoder writes is *tight*: no list consists of primitives or has the shape of a table
  (`value_tight`); a tight draft is compared, part by part, with any draft of the same value (`entryRows_fewer`).
* C110: the layout is the same for all delimiters; row by row the size with a delimiter is compared with the size with the tab, for which a string
  is quoted under the weakest condition (`documentRows_cost`).
* C111: the levels of the rows are added up along the layout (`documentRows_levels`); values without nesting are those of C65.
* C112: escaping works character by character, and a string or key that is written bare needs none, so that a part of a string is a part of its
  token; a token is a part of a row in every layout (`document_found`), in a table because the cells of a row are a permutation of its entries.
* C113: in the grammar of C58 every key, column name and token is a part of its line (`headerMeans_drawn`, `keyLineMeans_drawn`, `cells_infix`), and an
  escape yields only one of the five characters (`quotedDenotes_drawn`); induction over the grammar (`document_drawn`), then through expansion.
* C114: in the grammar of C58 a token is a trimmed cell or the trimmed rest of a line after a colon or hyphen, and being a word is transitive
  (`WordOf.trans`); induction over the grammar (`document_readings`), then `expandInner_prims`.
* C115: as C112, along the layout, with words instead of parts (`document_spelled`); normalizing a number does not change its token
  (`tokenText_plain`).
* C116: every production of the grammar of C58 uses up a run of lines, and its primitives are words of these lines in order
  (`document_sequence`); the words of two runs follow each other (`WordsIn.append`).
  With path expansion in strict mode the primitives are the leaves of C27 without their paths, which expansion permutes (`inside_expanded`);
  in any mode a merge uses no primitive twice (`deepMerge_among`).
* C117: the words of C116 do not overlap, so their lengths add up to at most the length of the text (`wordsIn_length`), and no string is
  longer than its word (`stringChars_token`).

## 4. Places where the code does not do what one expects

(kept current; each has a machine-checked witness)

* F1 (C02).  A string under an unquoted key that looks like an array header does not round
  trip: `{"key":"x[1]: y"}` encodes to `key: "x[1]: y"`, and the header parser looks for `[`
  inside the quoted value.  With a large length the decoder returns the length-cap error.
* F2 (C03).  Column names containing `}` make the encoded table undecodable.
* F3.  Duplicate keys in objects of an array: table layout stores the first value twice.
  Table rows whose keys are in another order than the first row's come back reordered
  (`C73_duplicates`, `C73_reordered`).
* F4 (C65, C66).  Indent 0 loses nesting (`C65_zero_loses`, exactly `C65_zero_written`); arrays written with delimiters other
  than `,` `|` tab (possible through the library API and from JavaScript) are never read as arrays (`C66_foreign`,
  `C66_root_witness`, `C66_key_witness`), without an error.
* F5.  Arrays longer than the cap encode but do not decode; a declared length of 2^64 or more
  is not rejected by the cap but read as a key (`C73_over_cap`, `C73_huge_length`).
* F6 (C38).  Strict decoding silently ignores trailing lines in several situations; an extra
  bare `-` item is not reported (see F12).
* F7 (C37).  A bare `-` line followed by CR is not an empty object
  (`LineEndsExample.C37_bare_hyphen`); this is the only line on which CRLF endings matter (`C37_crlf`).
* F8 (C23).  A key that is literally a dotted identifier path is written unquoted and hence
  expanded by `expandPaths=safe` (`C23_dotted_key`).
* F13 (C23, C29).  The depth counter of path expansion goes up by two per object, so values nested deeper
  than 127 objects fail although the cap is 256 (`ExpandDeep.C29_half_cap`); on the other hand the segments
  of a key are counted only while this key is inserted, so the result can be nested deeper than 256
  (`ExpandDeep.C29_deeper_than_cap`), up to 16132 (`C29_cap`, `C100_deepest`).
* F15 (C27, C28).  One quoted occurrence of a dotted key makes every entry of the object with this key
  literal, also unquoted ones (`quotedIn` in `Spec/Expansion.lean`).
* F14 (C24).  The first key of an object that is a list item is not compared with folded siblings:
  `[{"a.b":1,"a":{"b":2}}]` is written with two entries `a.b` (`FoldCollision.C24_collision`).
* F9 (C31).  A growing replacer never terminates (`C31_diverges`).
* F10 (C34).  The incremental async decoder (`AsyncDecodeStream`) differs from the batch decoder.  All
  are theorems in `Props/AsyncDecode.lean`:
  - nested object in an object: the root `StartObject` is emitted twice and closed once
    (`C34_nested_differs`, for every document of flat lines followed by `key:`);
  - array in an object (`a[2]: 1,2`): emitted as the string `1,2` under the key `a[2]`;
  - blank lines inside arrays are accepted in strict mode (the buffer drops them before decoding);
  - two lines without a colon: the first is the root value, the second is ignored;
  - a line indented too far is read as an entry of the root object;
  - after an error the stream goes on with the next line, and a key can be left without a value;
  - an array document the batch decoder rejects gives the same error on every poll, so a consumer
    that polls until `None` never stops (`C34_error_forever`).
* F12 (C52).  Strict mode does not notice a surplus element that is a hyphen alone, a row starting
  with a hyphen and a space, or a row with a colon before the first delimiter
  (`C52_hyphen_dropped`, `C52_dash_row_dropped`, `C52_colon_row_dropped`); these lines are dropped.
* F11 (C36).  The two JSON printers differ in the escapes used for some control characters
  (`C36_bytes_differ`; exactly U+0008, U+000C and U+007F to U+009F, `C36_same_bytes`).
* F16 (C36).  The event printer accepts some malformed event lists and writes text that is not JSON: no
  event, several roots, a key without value, a container without key (`C36_malformed_accepted`).  The
  decoder never produces such lists (C14), the incremental stream can (F10).
* F17 (C54).  Duplicate keys: `toon_to_json` keeps the last value at the first position, `toon --decode`
  prints all members (`C54_duplicates_differ`).
* F18 (C54).  All numbers of the JSON output are floats (`1` becomes `1.0`); integers beyond 2^53 may change
  (`C54_integers`).
* F19 (C54).  JSON nested 128 deep is refused as input but can be produced as output (`C54_nesting`).
* F20 (C57).  Output files are written through a `BufWriter` that is dropped without `flush`: errors of the last
  write are ignored.  Texts under 8192 bytes are reported as written even when the device accepts nothing
  (`C57_silent_loss`); longer ones can lose up to 8192 bytes at the end (`C57_file_nearly_complete`).  Standard
  output and `--stats` are not affected.  The output file is truncated first, so an interrupted in-place conversion
  loses the input (`C57_not_atomic`).
* F21 (C58).  Strict decoding lets pass: any text between the closing bracket of a header, the column list and the
  colon; a plus sign before the length; an opening brace without a closing one; an object indented by more than one
  level (`C58_lenient`).
* F22 (C59).  Quadratic amplification: a strict text of length w + 8n + 8 decodes to a value with n·w characters of keys
  (`C59_repeated_names`); without strict mode n·w values from 2w + 8n + 8 characters (`C59_filled_rows`).  Nothing in the
  library limits the width of a table; the limit of 10^8 is on the declared number of rows only.
* F23 (C60).  Most messages of decoding name no line: only bad indentation and blank lines inside arrays do.  The same
  fault on different lines has the same message (`C60_no_line`); `ToonError::Validation` has a field for the line.
* F24 (C61).  The estimates of `--stats` count words and characters, so the reported saving depends on the white space of
  the JSON text: for `[true,true,true]` no saving, for `[ true , true , true ]` 42.9 percent, with the same output
  (`C61_layout_matters`).  With F20 the note "Encoded … → …" appears although the file is empty (`C61_note_untrue`).
* F25 (C62).  The README presents the format as shorter than JSON.  It is not in general: n empty arrays in an array take 3n
  characters more than indented JSON (`C62_empties`); an empty array inside n arrays takes more than n² characters against
  2n + 2 of compact JSON (`C62_nested`); a table of one row and one column is longer than compact JSON (`C62_small`); the
  JSON number `1e308` is written in 309 characters (`C62_number`).
* F26 (C64).  The README says that decoding processes large inputs "without full buffering" and "with constant memory
  overhead".  The batch decoder collects all lines and all events; the incremental stream does so from the first array
  header, key without a value or list item on: no event of an array comes before its last line is taken (`C64_waits`,
  `C64_array_waits`).  Only flat objects are streamed (`C64_entries_stream`).  Also, a key whose quote is not closed is
  reported as such (`unterminatedKey`) only by this stream: the batch decoder reports an unterminated string.
* F27 (C65).  Lax decoding with another unit than the writer's silently gives another value (`C65_lax_differs`).  On the command
  line `--indent` is both the unit of the TOON text and the indentation of the printed JSON: `--decode --indent 4` on text of
  the default unit fails for nested values (`C65_cli`) and `--indent 0`, the only way to compact JSON, prints values without
  nesting only (`C65_cli_zero`).
* F28 (C67).  `From<i64>` (and JSON integers) silently lose precision beyond 2^53: 2^53 and 2^53 + 1 give the same document and
  `i64::MAX` is written `9223372036854776000` (`C67_integers_sharp`).  Up to 2^53 integers are exact (`C67_integers`).
* F29 (C68).  An `indent` of NaN, a negative one or one below one is taken as 0 by the JavaScript interface without an error;
  then nesting is lost (`C68_js_indent_written`, `C68_js_indent_read`).  A very large `indent` (Rust or JavaScript) lets
  `" ".repeat` panic for want of memory at the first nested line; the model has no such bound.  On wasm32 array lengths are
  refused from 2^32 on instead of 2^64.
* F30 (C70).  The format has no mark for its end: a text cut between two entries of an object, or after the line of a key,
  is accepted in strict mode with the entries lost, and a cut inside a line may change a value (`C70_silent`,
  `C70_unnoticed`).  Only missing elements of arrays are always noticed (`C70_value`).
* F31 (C71).  Of two texts one after the other the second may be lost or changed without an error in strict mode: after an
  array it is lost, and an array after an object becomes an entry whose key is the header (`C71_silent`).
* F32 (C72).  "Deterministic output | Stable diffs" (README) is not so in two cases: with key folding a second entry in an
  inner object changes the line of the first, and when one cell of a table becomes a container all lines of the table
  change (`C72_unstable`).  The README's own example of key folding (`config.database.host: …` and
  `config.database.port: …` from one object `config`) is not what the encoder writes: it folds chains of single keys only.
* F33 (C35, C56).  Further places where the README differs from the program: the JSON printed by `--decode` is shown compact
  and with integers (it is indented by two, and `1` is printed `1.0`, F18), and a table is said to need "identical keys in
  the same order" (the order of the keys does not matter, and is lost, F3).  Checked by running the model in
  `Tests/Units.lean`.
* F34 (C76).  In strict mode every array that has an element compares the numbers of all blank lines of the document with
  its range (`validate_no_blank_lines_in_range`), wherever the blank lines are.  A text of `13·k` characters, `k` arrays of
  one element and `k` blank lines after them, takes more than `k²` comparisons (`C76_blank_lines`, `C76_quadratic`); in
  lenient mode decoding takes at most seven steps for every line.
* F35 (C78).  `collect_single_key_chain` copies the start value and then, at each key, the rest of the chain.  A chain that is
  folded into one short line costs quadratically many copies (`C78_chain`).  When the chain cannot be folded because of its
  last key, the attempt is repeated at each of its keys, and the cost is cubic (`C78_cubic`).  The copies could all be
  avoided: the function only reads the chain.  `encode_object_as_list_item_lines` copies every object in a list before writing
  it, which is quadratic for nested lists (`C78_lists`).
* F36 (C79).  `insert_literal_entry` and `merge_objects` copy the value that is already there before they look whether it
  will be merged, replaced or reported (`expand.rs:142` and `175`).  A key that is repeated `n` times beside an array of `n` elements costs `n·(n + 3)` steps for a text of linear
  length (`C79_quadratic`).  A reference would do.
* F37 (C81).  "The streaming design allows processing arbitrarily large TOON files with constant memory overhead" (README).  In
  the incremental decoder `parse_line_incremental` adds a record for each blank line, which this decoder never reads or drops
  (`C81_blanks`).  A document with an array or a nested object is held whole, first all remaining lines, then all remaining events
  (`C81_array`; for arrays the documentation of the type says so).  If such a document is rejected its
  lines are kept and decoded again at every poll (`C81_array_rejected`; the endless error is F10).  `AsyncEncodeStream` encodes
  everything when it is created and holds all lines to the end (`C81_lines`).
* F38 (C82).  What F12 drops is not only the surplus line: after an empty object (`-`) beyond the declared length of a list the
  rest of the document is not read.  Of "a[1]:\n  - x: y\n  -\nb: z" strict decoding loses the entry `b` without an error
  (`C82_empty_object_added`).
* F39 (C83).  In non-strict mode a surplus row or list element does not only go unnoticed.  The decoder leaves the line where it
  is, no enclosing block accepts a line so deep, and all of them end: the rest of the document is lost without an error
  (`C83_rest_lost`).  "a:\n  l[1]:\n    - x\n    - y\n  m: true\nb: true" is read as `{"a":{"l":["x"]}}`.
* F40 (C87).  Writing a table takes `w·(w + 1)` key comparisons per row of `w` columns, also when all rows have their keys in the same
  order (`C87_table`): each cell is searched from the front of its row, once for the test and once for writing.
* F41 (C88).  `decoders.rs` copies the whole next line (`peek_sync().cloned()`, both `raw`, which nothing reads, and `content`) at every pass of
  every loop, also at the pass that only finds the line too shallow and ends the loop; a line after `n` nested objects is copied `n + 1`
  times, and a text of about `k²` characters makes about `k³` copied characters (`C88_nested`, `C88_reached`).  The comment in
  `scanner.rs:171` says "Store index instead of cloning" above a line that clones.  References would do in all these places.
* F42: neither the library nor the command line tool removes a byte order mark (`fs::read_to_string` keeps it, and U+FEFF is not white
  space).  A TOON file saved with a mark decodes without an error to a value with a changed first key, an array to an object
  (`C89_object`, `C89_array`), and a first key in quotes is no longer one in quotes; a JSON file with a mark cannot be encoded (`C89_json`).
* F43: a line that begins with a hyphen is an entry of an object in a document (its key has the hyphen) but ends the object in a list
  element, so the same lines mean different things in the two places (last example of `Props/Nest.lean`).  Outside strict mode nothing
  says so: the rest is left unread.
* F44: the strings of F1 are a hazard where strings come from outside: `{"name": "[2]: x", …}` makes the whole document unreadable in
  strict mode whatever else it holds (`C91_denied`), and `{"name": "see [1] of: y", "admin": false}` is read without complaint as
  `{"name: \"see": ["y\""], "admin": false}`, without a `name`.  A string cannot reach another field under an unquoted key
  (`C91_field`), but it can take the key of an entry whose key needs quotes (second example of `Props/Misread.lean`).
* F45: a replacer is given the index of an array element as its key and the empty key for the document, so a replacer written for keys
  alone also acts on elements (`"0"`) and on the document (`""`); dropping the document leaves it as it was (last example of
  `Props/Redact.lean`).
* F46 (C94).  `encode_key_value_pair_lines` begins with `current_path`, the path of the entry with all the keys above it, before it
  looks whether keys are folded at all, and uses it only for the entries of an object that was not folded.  Without key folding (the
  default) the path is never read.  It makes encoding quadratic: n entries under a key of n characters copy n² characters
  (`C94_not_linear`).
* F47 (C96).  `INTEGRATION_GUIDE.md:117` has "Library errors are `ToonError::Message { message: String }`".  Errors of indentation are
  `ToonError::Validation`, and only those: wrong counts, surplus elements and blank lines, which are validation by the name of the module
  that finds them (`validation.rs`), are `Message` (`C96_validation`, `C96_not_message`).  `Parse`, `EventStream` and `PathExpansion`,
  which `error.rs` describes as the errors of parsing, events and expansion, are never returned by decoding (`C96_kind`).
* F48 (C97).  Hiding entries by their keys, with a replacer, is undone by the other options: with `a.b` dropped
  everywhere, `{"a": {"b": true}}` is written with folding as `a.b: true` and read as an entry with the key `a.b` (`C97_dotted_back`); with
  `token` dropped everywhere, `{"x.token": true}` keeps its entry, and is read with path expansion as `{"x": {"token": true}}`
  (`C97_segment_back`).
* F49 (C98, C56).  Rules of `EXISTING_TOON_RUST_STRUCTURE.md` that the program does not follow: the number of lines is not the number of keys at
  the top (4.9, `C98_not_keys`, `C98_entries_exact`); an array of primitives in a list is written `- [3]: a,b,c`, not `- a,b,c`, which
  would be read as a string (4.5, C56); a header with an invalid length is not an error but part of a key (6.2, `Tests/Units.lean`); and
  numbers are not written as JavaScript writes them, but without exponents (4.2, C67).  A reservation for lines is too small where objects
  stand under keys, although the comment says that each entry has at least one line, because the line of the key is not counted (`C98_short`).
* F50 (C99).  Folding is not stable: `[{"x": null, "a": {"b": true}}]` is written as a list, because the value of `a` is an object, although its
  text then shows only primitives (`x` and `a.b`).  What is read from it without path expansion is written as a table
  (`C99_becomes_table`).  So whether the compact form is used is decided before the keys are joined, and the compact form is missed.
* F51 (C100).  The cap of 256 on path expansion, which the code calls a protection of the stack, does not bound the nesting of the result by
  256 but by 16 132, and this is reached (`C100_deepest`): keys of 253, 251, 249, ... segments inside each other.  Whoever walks the decoded
  value recursively (the printing of JSON text does, two calls per level by C85) needs a stack for 16 132 levels.
* F52 (C101).  `transform_object` and `transform_array` normalize every reply as a whole before they descend into it, and then do the same for
  its parts, which are normal already: with a replacer that changes nothing, a value at level d is gone over d times, and a chain of n objects
  takes about n²/2 visits (`C101_quadratic`).  The path is copied for every call, which takes as many segments.
* F53 (C102).  With path expansion, what a line means depends on lines far away in both directions: a dotted key is left alone if it
  occurs in quotes anywhere in its object, also later, so appending `"a.b":` to a text takes back the expansion of an earlier `a.b:`
  (`C102_quotes`); in lax mode appending a text is not merging its value (`C102_lax`); and two accepted texts without conflict can together
  be too deep (`C102_deep`).
  Near the cap even the order of two entries decides whether the text is too deep (`C103_deep`), because a path of two segments takes a
  level more than one.
* F54 (C108).  A larger flatten depth can make the text longer: the chain is first taken as long as the depth allows and then given up as a
  whole when its key is in use, instead of being tried again one key shorter.  `{"a":{"b":{"c":null}},"a.b.c":null}` is folded to `a.b:` with a
  depth of two and not folded at all with three.
* F55 (C109).  An array that is an element of an array is written as a list even if it could be a table, which is longer and which the decoder
  would read: `[[{"a":null,"b":null}]]` takes a line more than `[1]:`, `  - [1]{a,b}:`, `    null,null`.

## 5. Trusted base

Lean's kernel; the three standard axioms `propext`, `Classical.choice`, `Quot.sound` (no
others); the faithfulness of the model to the code (by citation and reading); the float laws
above.

The axioms of each theorem in `MANIFEST.json` (from `#print axioms`): `propext`, `Classical.choice` and `Quot.sound`, except that

* only `propext` is used by
  `C07_unescape_iff`, `C07_escape`, `C07_unescape_escape`, `C15_build_emit`, `C15_build_tree`, `C22_plain`,
  `C22_identity`, `C22_idempotent`, `C22_shape`, `C36_malformed_built`, `C42_back`, `C69_build`, `C69_build_kept`,
  `C104_symm`
* only `propext` and `Quot.sound` are used by
  `C07_closing_quote`, `C12_no_panic`, `C32_polls`, `C32_collect`, `C42_object`, `C42_value`, `C42_distinct`,
  `C42_identity`, `C42_round_trip`, `C44_bytes`, `C45_cells`, `C45_unique`, `C46_quoted_key`, `C46_bare_key`,
  `C63_conflicts`, `C68_below_one`, `C79_needed`, `C79_steps`, `C81_events_end`, `C82_honest`, `C87_bound`,
  `C87_tight`, `C87_siblings`, `C94_exact`, `C94_plain`, `C94_fold`, `C98_values`, `C98_cells`, `C101_way`,
  `C104_paths`
* none is used by `C57_after`.

What is modelled, file by file (modules of `lean/Verif/Model/`; several modules for one file are the same code observed differently:
values, calls, copies, comparisons, bytes):

| file | modules | remarks |
|---|---|---|
| `src/cli/args.rs` | `Cli` | what the parsed arguments mean; `clap` itself is not modelled |
| `src/cli/conversion.rs` | `Cli`, `JsonRead` |  |
| `src/cli/json_stream.rs` | `JsonText` |  |
| `src/cli/json_stringify.rs` | `JsonFrames`, `JsonText` |  |
| `src/cli/mod.rs` | `Cli`, `FileOutput`, `Stderr` |  |
| `src/decode/async_decode.rs` | `AsyncDecode`, `Panicking`, `Wasm` | polls as a step function; batch and incremental |
| `src/decode/decoders.rs` | `Decoder`, `Frames`, `LineCopies`, `Message`, `Passes`, `Utf8`, `Wasm` |  |
| `src/decode/event_builder.rs` | `Builder`, `ConvFrames`, `Panicking` |  |
| `src/decode/expand.rs` | `Basic`, `Expand`, `ExpandFrames`, `Message` |  |
| `src/decode/mod.rs` | `Api`, `Panicking`, `Utf8`, `Wasm` |  |
| `src/decode/parser.rs` | `Parser`, `Passes`, `Utf8` |  |
| `src/decode/scanner.rs` | `AsyncDecode`, `Frames`, `LineCopies`, `Passes`, `Scanner`, `Utf8` |  |
| `src/decode/validation.rs` | `Basic`, `Decoder`, `Frames`, `Passes`, `Utf8` |  |
| `src/encode/async_encode.rs` | `AsyncEncode` | polls as a step function |
| `src/encode/encoders.rs` | `Compares`, `EncFrames`, `Encoder`, `LineEstimate`, `PathCopies`, `Writes` |  |
| `src/encode/folding.rs` | `Compares`, `EncFrames`, `Encoder`, `PathCopies` |  |
| `src/encode/mod.rs` | `Api`, `Compares`, `ConvFrames`, `EncFrames`, `Encoder`, `LineEstimate`, `PathCopies`, `Replacer`, `Wasm`, `Writes` |  |
| `src/encode/normalize.rs` | `ConvFrames`, `EncFrames`, `Encoder` |  |
| `src/encode/primitives.rs` | `Encoder`, `Writes` |  |
| `src/encode/replacer.rs` | `ConvFrames`, `Replacer` |  |
| `src/error.rs` | `Basic`, `Message`, `Panicking`, `Stderr` | the texts and kinds of errors; not the unused constructors |
| `src/lib.rs` | `Basic`, `ConvFrames`, `Host`, `Numbers` | the value type and its conversions; re-exports have no content |
| `src/main.rs` | `FileOutput`, `Stderr` | exit status and message |
| `src/options.rs` | `Api`, `Basic`, `Cli`, `Replacer`, `Wasm` |  |
| `src/shared/constants.rs` | `Decoder` | the characters and the length limit are written out where they are used |
| `src/shared/literal_utils.rs` | `Passes`, `Shared`, `Utf8` |  |
| `src/shared/string_utils.rs` | `Shared`, `Utf8` |  |
| `src/shared/validation.rs` | `Shared`, `Writes` |  |
| `src/wasm.rs` | `Host`, `Numbers`, `Wasm` | all but `init_panic_hook` |

`build.rs`, `benches/` and the `mod.rs` files without code are not modelled; section 2 has what is left out of the modelled files.

The faithfulness of the model is tested, not proved.  `lean/Verif/Tests/` runs the repository's own test cases against
it: the 349 fixtures of `/repo/tests/fixtures/spec` (202 for decoding, 147 for encoding), the recorded messages of
`/repo/tests/snapshots` except the one whose text comes from `serde_json`, and the assertions of the unit and
integration tests that speak about modelled functions.  All of them hold.  Cases marked `example` are evaluated by the
kernel; cases marked `#guard` are evaluated by the elaborator, because `encode` is defined by recursion on the size of
its argument, which the kernel does not unfold.  No theorem depends on these modules.
