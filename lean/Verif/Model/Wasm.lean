import Verif.Model.Cli

/-!
# Options and the JavaScript interface: `/repo/src/wasm.rs`, `/repo/src/options.rs`

Not modelled: `wasm_bindgen` (strings arrive as Unicode texts), property getters with side effects.  The cast of a
number to `usize` is a parameter.  In `wasm32` an omitted flatten depth is `2^32 - 1`, not `2^64 - 1`; by
`C55_unlimited` this makes no difference.
-/

namespace Toon

/-- `/repo/src/encode/mod.rs:22-36` `encode` and `encode_lines` with options (no replacer). -/
def encodeWith {F : Type} [F64 F] (options : Option EncodeOptions) (v : Json F) : Str :=
  encode (resolveEncodeOptions options) v

/-- `/repo/src/decode/mod.rs:31-78` `try_decode` with options. -/
def tryDecode (F : Type) [F64 F] (input : Str) (options : Option DecodeOptions) : Except Err (Json F) :=
  decode (resolveDecodeOptions options) input

/-- `/repo/src/options.rs:37-41` `DecodeStreamOptions`. -/
structure DecodeStreamOptions where
  indent : Option Nat
  strict : Option Bool
deriving DecidableEq, Repr

/-- `/repo/src/decode/decoders.rs:30-41` `decode_stream_sync`: resolution of the options
(`/repo/src/decode/async_decode.rs:97-121` does the same). -/
def tryDecodeStream (F : Type) [F64 F] (lines : List Str) (options : Option DecodeStreamOptions) :
    Except Err (List (Ev F)) :=
  let options := options.getD ⟨none, none⟩
  decodeStream (options.indent.getD 2) (options.strict.getD true) lines

/-- A JavaScript value read from a property; `other` is an object, a function, a symbol or a big integer. -/
inductive JsValue (F : Type) where
  | undefined
  | null
  | bool (b : Bool)
  | num (x : F)
  | str (s : Str)
  | other

/-- The `options` argument: `undefined`, `null`, an object given by `Reflect::get` (a property whose getter
throws counts as `undefined`), or anything else. -/
inductive JsOptions (F : Type) where
  | undefined
  | null
  | object (get : Str → JsValue F)
  | other

section
variable {F : Type}

/-- `JsValue::as_f64`. -/
def JsValue.asF64 : JsValue F → Option F
  | .num x => some x
  | _ => none

/-- `JsValue::as_string`. -/
def JsValue.asString : JsValue F → Option Str
  | .str s => some s
  | _ => none

/-- `JsValue::as_bool`. -/
def JsValue.asBool : JsValue F → Option Bool
  | .bool b => some b
  | _ => none

/-- The `match` of `/repo/src/wasm.rs:188-192`, `239-243`. -/
def parseMode (s : Str) : Option Bool :=
  if s = "off".toList then some false
  else if s = "safe".toList then some true
  else none

/-- `/repo/src/wasm.rs:163-207` `parse_encode_options`; `cast` is `v as usize`. -/
def parseEncodeOptions (cast : F → Nat) (options : JsOptions F) : Except Err (Option EncodeOptions) :=
  match options with
  | .undefined => .ok none
  | .null => .ok none
  | .other => .error .badOptions
  | .object get => .ok (some
      { indent := (get "indent".toList).asF64.map cast
        delimiter := (get "delimiter".toList).asString.bind (·.head?)
        keyFolding := (get "keyFolding".toList).asString.bind parseMode
        flattenDepth := (get "flattenDepth".toList).asF64.map cast })

/-- `/repo/src/wasm.rs:214-250` `parse_decode_options`. -/
def parseDecodeOptions (cast : F → Nat) (options : JsOptions F) : Except Err (Option DecodeOptions) :=
  match options with
  | .undefined => .ok none
  | .null => .ok none
  | .other => .error .badOptions
  | .object get => .ok (some
      { indent := (get "indent".toList).asF64.map cast
        strict := (get "strict".toList).asBool
        expandPaths := (get "expandPaths".toList).asString.bind parseMode })

variable [F64 F] [JsonNum F]

/-- `/repo/src/wasm.rs:79-86` `encode_with_options`. -/
def encodeWithOptions (rd : Str → Option F) (cast : F → Nat) (json : Str) (options : JsOptions F) : Except Err Str :=
  match hostFromStr rd json with
  | .error e => .error e
  | .ok value =>
    match parseEncodeOptions cast options with
    | .error e => .error e
    | .ok o => .ok (encodeWith o (fromHost value))

/-- `/repo/src/wasm.rs:125-132` `decode_with_options`. -/
def decodeWithOptions (cast : F → Nat) (toon : Str) (options : JsOptions F) : Except Err Str :=
  match parseDecodeOptions cast options with
  | .error e => .error e
  | .ok o =>
    match tryDecode F toon o with
    | .error e => .error e
    | .ok value => .ok (serdeWrite false 0 (toHost value))

end

end Toon
