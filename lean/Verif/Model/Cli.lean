import Verif.Model.Host

/-!
# Options and the command line tool: `/repo/src/options.rs`, `/repo/src/cli/args.rs`,
`/repo/src/cli/conversion.rs`, `/repo/src/cli/mod.rs`

Not modelled: `clap` (the parsed arguments are given), files and terminals (the text read is an argument,
the text written to the output file or to standard output is the result), messages on standard error.
-/

namespace Toon

/-- `/repo/src/options.rs:9-16` `EncodeOptions` without the replacer. -/
structure EncodeOptions where
  indent : Option Nat
  delimiter : Option Char
  keyFolding : Option Bool
  flattenDepth : Option Nat
deriving DecidableEq, Repr

/-- `/repo/src/options.rs:24-29` `DecodeOptions`. -/
structure DecodeOptions where
  indent : Option Nat
  strict : Option Bool
  expandPaths : Option Bool
deriving DecidableEq, Repr

/-- `/repo/src/options.rs:65-82` `resolve_encode_options`. -/
def resolveEncodeOptions (options : Option EncodeOptions) : EncOpts :=
  let options := options.getD ⟨none, none, none, none⟩
  { indent := options.indent.getD 2
    delim := options.delimiter.getD ','
    fold := options.keyFolding.getD false
    flattenDepth := options.flattenDepth.getD (2 ^ 64 - 1) }

/-- `/repo/src/options.rs:84-97` `resolve_decode_options`. -/
def resolveDecodeOptions (options : Option DecodeOptions) : DecOpts :=
  let options := options.getD ⟨none, none, none⟩
  { indent := options.indent.getD 2
    strict := options.strict.getD true
    expand := options.expandPaths.getD false }

/-! ## `args.rs` -/

/-- `/repo/src/cli/args.rs:15-59` `Args`; `keyFolding` and `expandPaths` are "is `safe`".  A path is its
text (a path that is not UTF-8 is not modelled). -/
structure Args where
  input : Option Str
  output : Option Str
  encode : Bool
  decode : Bool
  delimiter : Char
  indent : Nat
  noStrict : Bool
  keyFolding : Bool
  flattenDepth : Option Nat
  expandPaths : Bool
  stats : Bool
deriving DecidableEq, Repr

/-- `/repo/src/cli/args.rs:120-124` `Mode`. -/
inductive Mode where
  | encode
  | decode
deriving DecidableEq, Repr

/-- `/repo/src/cli/args.rs:73-82` `parse_delimiter`; `none` is the error. -/
def parseDelimiter (s : Str) : Option Char :=
  if s = ",".toList ∨ s = "comma".toList then some ','
  else if s = "|".toList ∨ s = "pipe".toList then some '|'
  else if s = "\\t".toList ∨ s = "\t".toList ∨ s = "tab".toList then some '\t'
  else none

/-- `Path::file_name` (Rust std, Unix): the last component that is neither empty nor `.`; `none` when
there is none or it is `..`. -/
def fileName (path : Str) : Option Str :=
  match (splitOn '/' path).reverse.filter (fun c => c != [] && c != ['.']) with
  | [] => none
  | name :: _ => if name = ['.', '.'] then none else some name

/-- `Path::extension` (Rust std): the part of the file name after its last dot; `none` without a dot or
when the only dot is the first character. -/
def pathExtension (path : Str) : Option Str :=
  match fileName path with
  | none => none
  | some name =>
    match (splitOn '.' name).reverse with
    | ext :: before => if before = [] ∨ before = [[]] then none else some ext
    | [] => none

/-- `str::to_lowercase`, on ASCII letters.  Simplification: other characters are left alone; the result is
compared only with `json` and `toon`, and no other character has a lower case containing one of their
letters. -/
def toLowercase (s : Str) : Str := s.map Char.toLower

/-- `/repo/src/cli/args.rs:85-111` `detect_mode`. -/
def Args.detectMode (args : Args) : Mode :=
  if args.encode then .encode
  else if args.decode then .decode
  else
    match args.input.bind pathExtension with
    | some ext =>
      if toLowercase ext = "json".toList then .encode
      else if toLowercase ext = "toon".toList then .decode
      else .encode
    | none => .encode

/-- `/repo/src/cli/args.rs:113-117` `is_stdin`. -/
def Args.isStdin (args : Args) : Bool := args.input.isNone || args.input == some ['-']

/-! ## `conversion.rs` -/

section
variable {F : Type} [F64 F] [JsonNum F]

/-- `/repo/src/cli/conversion.rs:17-25` `encode_to_toon_lines`. -/
def encodeToToonLines (rd : Str → Option F) (inputJson : Str) (options : Option EncodeOptions) :
    Except Err (List Str) :=
  match hostFromStr rd inputJson with
  | .error e => .error e
  | .ok value => .ok (encodeLines (resolveEncodeOptions options) (fromHost value))

/-- `/repo/src/cli/conversion.rs:44-57` `decode_events`. -/
def decodeEvents (F : Type) [F64 F] (input : Str) (indent : Nat) (strict : Bool) : Except Err (List (Ev F)) :=
  decodeStream indent strict (splitOn '\n' input)

/-- `/repo/src/cli/conversion.rs:59-71` `decode_to_value`. -/
def decodeToValue (F : Type) [F64 F] (input : Str) (options : DecOpts) : Except Err (Json F) := do
  let events ← decodeEvents F input options.indent options.strict
  let node ← buildNode events
  let node ← if options.expand then expandPathsSafe options.strict node else pure node
  return nodeToJson node

/-- `/repo/src/cli/conversion.rs:32-42` `decode_to_json_chunks`. -/
def decodeToJsonChunks (F : Type) [F64 F] [JsonNum F] (input : Str) (options : Option DecodeOptions) :
    Except Err (List Str) :=
  let resolved := resolveDecodeOptions options
  if resolved.expand then
    match decodeToValue F input resolved with
    | .error e => .error e
    | .ok value => .ok (jsonStringifyLines value resolved.indent)
  else
    match decodeEvents F input resolved.indent resolved.strict with
    | .error e => .error e
    | .ok events => jsonStreamFromEvents events resolved.indent

/-- `/repo/src/cli/conversion.rs:73-79` `json_stringify_null`. -/
def jsonStringifyNull (F : Type) [F64 F] [JsonNum F] (indent : Nat) : List Str :=
  jsonStringifyLines (.prim .null : Json F) indent

/-! ## `mod.rs` -/

/-- `/repo/src/cli/mod.rs:156-191` `write_lines`: the text written (`i` is the index of the first line). -/
def writeLinesFrom (i : Nat) : List Str → Str
  | [] => ['\n']
  | line :: rest => (if i > 0 then ['\n'] else []) ++ (line ++ writeLinesFrom (i + 1) rest)

/-- `/repo/src/cli/mod.rs:139-154` `write_output`: the text written. -/
def writeOutput (data : Str) : Str := data ++ ['\n']

/-- `/repo/src/cli/mod.rs:193-220` `write_chunks`: the text written. -/
def writeChunks : List Str → Str
  | [] => ['\n']
  | chunk :: rest => chunk ++ writeChunks rest

/-- `/repo/src/cli/mod.rs:29-83` `run_encode`: the text written for the text read. -/
def runEncode (rd : Str → Option F) (args : Args) (input : Str) : Except Err Str :=
  let options : EncodeOptions :=
    { indent := some args.indent, delimiter := some args.delimiter, keyFolding := some args.keyFolding,
      flattenDepth := args.flattenDepth }
  match encodeToToonLines rd input (some options) with
  | .error e => .error e
  | .ok lines => .ok (if args.stats then writeOutput (joinWith '\n' lines) else writeLinesFrom 0 lines)

/-- `/repo/src/cli/mod.rs:85-113` `run_decode`: the text written for the text read. -/
def runDecode (F : Type) [F64 F] [JsonNum F] (args : Args) (input : Str) : Except Err Str :=
  let options : DecodeOptions :=
    { indent := some args.indent, strict := some (!args.noStrict), expandPaths := some args.expandPaths }
  match decodeToJsonChunks F input (some options) with
  | .error e => .error e
  | .ok chunks => .ok (writeChunks chunks)

/-- `/repo/src/cli/mod.rs:19-27` `run`, on the text read. -/
def runCli (rd : Str → Option F) (args : Args) (input : Str) : Except Err Str :=
  match args.detectMode with
  | .encode => runEncode rd args input
  | .decode => runDecode F args input

end

end Toon
