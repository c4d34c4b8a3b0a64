import Verif.Model.FileOutput
import Verif.Model.Message
import Verif.Model.Float64

/-!
# What the command line tool says: standard error and the exit status

`/repo/src/main.rs`, the messages of `/repo/src/cli/mod.rs`, the messages of `/repo/src/error.rs` for input and output.
Not modelled: a standard error that cannot be written to, paths that are not UTF-8.
-/

namespace Toon

/-- `str::split(char::is_whitespace)` (Rust std). -/
def splitWhite : Str → List Str
  | [] => [[]]
  | c :: cs =>
    if isWs c then [] :: splitWhite cs
    else
      match splitWhite cs with
      | [] => [[c]]
      | w :: ws => (c :: w) :: ws

/-- `str::split_whitespace` (Rust std): the pieces that are not empty. -/
def splitWhitespace (s : Str) : List Str := (splitWhite s).filter (!·.isEmpty)

/-- `/repo/src/cli/mod.rs:232-240` `estimate_tokens`. -/
def estimateTokens (text : Str) : Nat :=
  let charEstimate := (text.filter (!isWs ·)).length / 4
  let wordEstimate := (splitWhitespace text).length
  max (max charEstimate wordEstimate) 1

namespace B64

/-- `n as f64`. -/
def ofNat (n : Nat) : B64 := ofUnits false (n * 2 ^ 1074) 1

/-- `x / y` for finite `x ≥ 0`, `y > 0`. -/
def divide (x y : B64) : B64 := ofUnits false (x.units * 2 ^ 1074) y.units

/-- `x * y` for finite `x, y ≥ 0`. -/
def times (x y : B64) : B64 := ofUnits false (x.units * y.units) (2 ^ 1074)

/-- `format!("{x:.1}")` for finite `x ≥ 0`: the exact value rounded to one place, ties to even. -/
def fixed1 (x : B64) : Str :=
  let tenths := roundDiv (x.units * 10) (2 ^ 1074)
  natDigits (tenths / 10) ++ '.' :: natDigits (tenths % 10)

end B64

/-- `percent` of `/repo/src/cli/mod.rs:57-62`. -/
def savedPercent (diff jsonTokens : Nat) : B64 :=
  if jsonTokens > 0 then (B64.divide (B64.ofNat diff) (B64.ofNat jsonTokens)).times (B64.ofNat 100) else B64.zeroB false

/-- The texts printed by `/repo/src/cli/mod.rs:53-69`. -/
def statsText (input toonOutput : Str) : Str :=
  let jsonTokens := estimateTokens input
  let toonTokens := estimateTokens toonOutput
  let diff := jsonTokens - toonTokens
  '\n' :: "Token estimates: ~".toList ++ natDigits jsonTokens ++ " (JSON) → ~".toList ++ natDigits toonTokens ++
      " (TOON)\n".toList ++
    (if diff > 0 then
      "Saved ~".toList ++ natDigits diff ++ " tokens (-".toList ++ (savedPercent diff jsonTokens).fixed1 ++ "%)\n".toList
    else [])

/-- `/repo/src/cli/mod.rs:222-230` `format_input_label`. -/
def inputLabel (args : Args) : Str :=
  if args.isStdin then "stdin".toList
  else
    match args.input with
    | some path => path
    | none => "stdin".toList

/-- The message of `/repo/src/cli/mod.rs:75-80, 105-110`. -/
def successNote (verb : Str) (args : Args) : Str :=
  match args.output with
  | some path => verb ++ " `".toList ++ inputLabel args ++ "` → `".toList ++ path ++ "`\n".toList
  | none => []

/-- Texts that come from outside: of the failures of the operating system and of `serde_json`. -/
structure Reasons where
  io : Str
  json : Str

/-- `Display` of `ToonError::Io` (`/repo/src/error.rs:23-24`). -/
def ioText (operation : Str) (path : Option Str) (reason : Str) : Str :=
  operation ++ (match path with
    | some p => " '".toList ++ p ++ "'".toList
    | none => []) ++ ": ".toList ++ reason

/-- The text of a failure: `/repo/src/error.rs:174-222` with the places of `/repo/src/cli/mod.rs:115-220`.  `none`: there
is no text in the model (`Err.text`). -/
def CliErr.text (reasons : Reasons) (args : Args) : CliErr → Option Str
  | .read =>
    some (if args.isStdin then ioText "Failed to read stdin".toList none reasons.io
      else ioText "Failed to read file".toList args.input reasons.io)
  | .convert .jsonParse => some ("JSON error: Failed to parse JSON: ".toList ++ reasons.json)
  | .convert e => e.text
  | .create => some (ioText "Failed to create file".toList args.output reasons.io)
  | .write =>
    some (match args.output with
      | some p => ioText "Failed to write to file".toList (some p) reasons.io
      | none => ioText "Failed to write to stdout".toList none reasons.io)

section
variable {F : Type} [F64 F] [JsonNum F]

/-- What `run_encode` and `run_decode` (`/repo/src/cli/mod.rs:29-113`) print after the output has been written. -/
def successText (rd : Str → Option F) (args : Args) (input : Str) : Str :=
  match args.detectMode with
  | .encode =>
    let options : EncodeOptions :=
      { indent := some args.indent, delimiter := some args.delimiter, keyFolding := some args.keyFolding,
        flattenDepth := args.flattenDepth }
    match encodeToToonLines rd input (some options) with
    | .error _ => []
    | .ok lines =>
      (if args.stats then statsText input (joinWith '\n' lines) else []) ++ successNote "Encoded".toList args
  | .decode => successNote "Decoded".toList args

/-- What the run writes to standard error: `/repo/src/main.rs:1-7` on failure, `successText` on success.  `none`: a
failure without text. -/
def toolStderr (rd : Str → Option F) (reasons : Reasons) (args : Args) (world : World) : Option Str :=
  match (runTool rd args world).result with
  | .error e => (e.text reasons args).map (· ++ ['\n'])
  | .ok () =>
    match readInput args world with
    | none => some []
    | some input => some (successText rd args input)

/-- The exit status, `/repo/src/main.rs:1-7`. -/
def exitStatus (rd : Str → Option F) (args : Args) (world : World) : Nat :=
  match (runTool rd args world).result with
  | .ok () => 0
  | .error _ => 1

end

end Toon
