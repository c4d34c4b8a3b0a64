/-!
# Basic types of the model

`/repo/src/lib.rs`, `/repo/src/error.rs`, `/repo/src/options.rs`.
-/

namespace Toon

/-- Rust `String`/`&str`, as the list of its characters (Unicode scalar values).
Simplification: byte offsets of the code become character offsets here. -/
abbrev Str := List Char

/-- The operations on `f64` used by the code, as parameters of the model.

* `isFinite`: `f64::is_finite`
* `isZero`: `value == 0.0` (true for `0.0` and `-0.0`)
* `isNeg`: `f64::is_sign_negative`
* `zero`: the literal `0.0`
* `display`: `f64::to_string` (`Display`)
* `parse`: `str::parse::<f64>().ok()` -/
class F64 (F : Type) where
  isFinite : F → Bool
  isZero : F → Bool
  isNeg : F → Bool
  zero : F
  display : F → Str
  parse : Str → Option F

/-- `/repo/src/lib.rs:68-74` `StringOrNumberOrBoolOrNull` (alias `JsonPrimitive`). -/
inductive Prim (F : Type) where
  | null
  | bool (b : Bool)
  | num (x : F)
  | str (s : Str)
deriving DecidableEq, Repr

/-- `/repo/src/lib.rs:51-56` `JsonValue`: an object is a vector of pairs, so duplicate keys
are possible and the order of keys is kept. -/
inductive Json (F : Type) where
  | prim (p : Prim F)
  | arr (items : List (Json F))
  | obj (entries : List (Str × Json F))

/-- `/repo/src/lib.rs:58-66` `JsonStreamEvent`. -/
inductive Ev (F : Type) where
  | startObj
  | endObj
  | startArr (length : Nat)
  | endArr
  | key (k : Str) (quoted : Bool)
  | prim (p : Prim F)
deriving DecidableEq, Repr

/-- What is counted by `/repo/src/decode/validation.rs:12-24` (`item_type`). -/
inductive Counted where
  | inlineItems             -- decoders.rs:212, 222
  | rowValues               -- decoders.rs:269
  | rows                    -- decoders.rs:282
  | listItems               -- decoders.rs:344
deriving DecidableEq, Repr

/-- `/repo/src/decode/expand.rs:215-221` `node_type_name`. -/
inductive NodeKind where
  | primitive
  | array
  | object
deriving DecidableEq, Repr

/-- The conflicts of path expansion. -/
inductive Conflict where
  | segment (key : Str) (found : NodeKind)        -- expand.rs:100
  | merge (key : Str) (left right : NodeKind)     -- expand.rs:149, 182
deriving DecidableEq, Repr

/-- Errors.  `/repo/src/error.rs` has one type with message texts; the model keeps one
constructor per place where the code creates an error, with the data that go into the text
(the texts are in `Model/Message.lean`). -/
inductive Err where
  | unterminatedString      -- parser.rs:42, 289
  | trailingChars           -- parser.rs:291
  | badEscape (c : Option Char)      -- string_utils.rs:48 (`none`), 56
  | missingColon            -- parser.rs:314, 334
  | unterminatedKey         -- parser.rs:329
  | lengthCap (length : Nat)         -- parser.rs:109
  | tabsInIndent (line : Nat)      -- scanner.rs:82
  | badIndent (line size found : Nat)      -- scanner.rs:87 (`size = 0`), 95
  | countMismatch (expected : Nat) (what : Counted) (actual : Nat)      -- validation.rs:19
  | extraItems (expected : Nat)      -- validation.rs:42
  | extraRows (expected : Nat)       -- validation.rs:66
  | blankLine (line : Nat) (table : Bool)      -- validation.rs:94
  | expectedListItem        -- decoders.rs:377
  | expectedHyphen          -- decoders.rs:388
  | missingFields           -- decoders.rs:265
  | badEvent                -- event_builder.rs (malformed event stream)
  | pathConflict (c : Conflict)      -- expand.rs:100, 149, 182
  | expandDepth             -- expand.rs:13
  | expectedObject          -- expand.rs:208
  | jsonParse               -- lib.rs:30-31, cli/conversion.rs:21-22
  | badOptions              -- wasm.rs:172-173, 224-225
  | panicMissingKey         -- encoders.rs:286 (`expect`)
  | panicNotPrimitive       -- encoders.rs:290 (`panic!`)
  | fuel                    -- model artefact: the recursion budget ran out
deriving DecidableEq, Repr

/-- `/repo/src/options.rs:43-50` `ResolvedEncodeOptions` without the replacer (the replacer is
applied before the encoder proper, see `Model/Api.lean`).  `fold` is `key_folding == Safe`. -/
structure EncOpts where
  indent : Nat
  delim : Char
  fold : Bool
  flattenDepth : Nat
deriving DecidableEq, Repr

/-- `/repo/src/options.rs:52-57` `ResolvedDecodeOptions`; `expand` is `expand_paths == Safe`. -/
structure DecOpts where
  indent : Nat
  strict : Bool
  expand : Bool
deriving DecidableEq, Repr

end Toon
