import Verif.Model.Encoder
import Verif.Model.Decoder
import Verif.Model.Expand

/-!
# Library entry points: `/repo/src/encode/mod.rs`, `/repo/src/decode/mod.rs`,
`/repo/src/options.rs`
-/

namespace Toon

/-- `/repo/src/options.rs:65-82` `resolve_encode_options(None)`: the defaults
(`usize::MAX` on a 64-bit target). -/
def defaultEnc : EncOpts := { indent := 2, delim := ',', fold := false, flattenDepth := 2 ^ 64 - 1 }

/-- `/repo/src/options.rs:84-97` `resolve_decode_options(None)`: the defaults. -/
def defaultDec : DecOpts := { indent := 2, strict := true, expand := false }

section
variable {F : Type} [F64 F]

/-- `/repo/src/encode/mod.rs:27-36` `encode_lines` without a replacer. -/
def encodeLines (opts : EncOpts) (v : Json F) : List Str := encodeJsonValue opts (normalize v)

/-- `/repo/src/encode/mod.rs:22-25` `encode` without a replacer. -/
def encode (opts : EncOpts) (v : Json F) : Str := joinWith '\n' (encodeLines opts v)

/-- `/repo/src/encode/mod.rs:42-58` `encode_stream_events` without a replacer. -/
def encodeStreamEvents (v : Json F) : List (Ev F) := emitEvents (normalize v)

/-- `/repo/src/decode/mod.rs:58-78` `try_decode_from_lines`. -/
def decodeFromLines (opts : DecOpts) (lines : List Str) : Except Err (Json F) := do
  let events ← decodeStream (F := F) opts.indent opts.strict lines
  let node ← buildNode events
  let node ← if opts.expand then expandPathsSafe opts.strict node else pure node
  return nodeToJson node

/-- `/repo/src/decode/mod.rs:31-37` `try_decode`. -/
def decode (opts : DecOpts) (input : Str) : Except Err (Json F) :=
  decodeFromLines opts (splitOn '\n' input)

end

end Toon
