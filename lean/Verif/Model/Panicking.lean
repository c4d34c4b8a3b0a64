import Verif.Model.Api
import Verif.Model.Message

/-!
# Which variant an error has, and the entry points that panic
-/

namespace Toon

/-- `/repo/src/error.rs:6-41` `ToonError`: the variants, without their data. -/
inductive ErrKind where
  | parse
  | validation
  | eventStream
  | pathExpansion
  | io
  | json
  | message
deriving DecidableEq, Repr

/-- The variant that is made at the place that creates the error.  `none`: there is no error value (panics, fuel), or the event builder
uses several (`badEvent`, `/repo/src/decode/event_builder.rs:83-208`; no input leads there, C14). -/
def Err.kind : Err → Option ErrKind
  | .tabsInIndent _ => some .validation               -- scanner.rs:82, error.rs:99-101
  | .badIndent _ _ _ => some .validation              -- scanner.rs:87, 95, error.rs:105-112
  | .unterminatedString => some .message              -- parser.rs:42, 289
  | .trailingChars => some .message                   -- parser.rs:291
  | .badEscape _ => some .message                     -- parser.rs:296, 331
  | .missingColon => some .message                    -- parser.rs:314, 334
  | .unterminatedKey => some .message                 -- parser.rs:329
  | .lengthCap _ => some .message                     -- parser.rs:109
  | .countMismatch _ _ _ => some .message             -- validation.rs:19
  | .extraItems _ => some .message                    -- validation.rs:42
  | .extraRows _ => some .message                     -- validation.rs:66
  | .blankLine _ _ => some .message                   -- validation.rs:94
  | .expectedListItem => some .message                -- decoders.rs:377
  | .expectedHyphen => some .message                  -- decoders.rs:388
  | .missingFields => some .message                   -- decoders.rs:265
  | .pathConflict _ => some .message                  -- expand.rs:100, 149, 182
  | .expandDepth => some .message                     -- expand.rs:14
  | .expectedObject => some .message                  -- expand.rs:208
  | .jsonParse => some .json                          -- lib.rs:30-31
  | .badEvent => none
  | .badOptions => none
  | .panicMissingKey => none
  | .panicNotPrimitive => none
  | .fuel => none

/-- What a call that may panic comes to. -/
inductive Panicking (α : Type) where
  | returns (a : α)
  | panics (message : Str)

/-- `.unwrap_or_else(|err| panic!("{err}"))`: the message of the panic is the text of the error. -/
def orPanic {α : Type} : Except Err α → Panicking α
  | .ok a => .returns a
  | .error e => .panics (e.text.getD [])

section
variable {F : Type} [F64 F]

/-- `/repo/src/decode/mod.rs:46-48` `decode`. -/
def decodeOrPanic (opts : DecOpts) (input : Str) : Panicking (Json F) := orPanic (decode opts input)

/-- `/repo/src/decode/mod.rs:87-92` `decode_from_lines`. -/
def decodeFromLinesOrPanic (opts : DecOpts) (lines : List Str) : Panicking (Json F) := orPanic (decodeFromLines opts lines)

/-- `/repo/src/decode/mod.rs:116-121` `decode_stream_sync`, 165-173 `decode_stream` and
`/repo/src/decode/async_decode.rs:416-423` `decode_stream_async`. -/
def decodeStreamOrPanic (indent : Nat) (strict : Bool) (lines : List Str) : Panicking (List (Ev F)) := orPanic (decodeStream indent strict lines)

end

end Toon
