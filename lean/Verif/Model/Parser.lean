import Verif.Model.Shared

/-!
# `/repo/src/decode/parser.rs`
-/

namespace Toon

/-- `/repo/src/decode/parser.rs:17-21` `FieldName`. -/
structure FieldName where
  name : Str
  quoted : Bool
deriving DecidableEq, Repr

/-- `/repo/src/decode/parser.rs:8-27` `ArrayHeaderInfo` together with the `inline_values` of
`ArrayHeaderParseResult` (one structure here instead of two). -/
structure Header where
  key : Option Str
  keyQuoted : Bool
  length : Nat
  delim : Char
  fields : Option (List FieldName)
  inline : Option Str
deriving DecidableEq, Repr

/-- `/repo/src/decode/parser.rs:156` `MAX_DECLARED_ARRAY_LENGTH`. -/
def maxDeclaredLength : Nat := 100000000

/-- `/repo/src/decode/parser.rs:167-184` `parse_bracket_segment`; `none` is the error (its only
caller discards the error value). -/
def parseBracketSegment (seg : Str) (defaultDelim : Char) : Option (Nat × Char) :=
  match seg.getLast? with
  | some '\t' => (parseUsize seg.dropLast).map (·, '\t')
  | some '|' => (parseUsize seg.dropLast).map (·, '|')
  | _ => (parseUsize seg).map (·, defaultDelim)

/-- The loop of `/repo/src/decode/parser.rs:195-223` with its state
(`values`, `buffer`, `in_quotes`). -/
def delimitedAux (delim : Char) : Str → List Str → Str → Bool → List Str
  | [], values, buffer, _ =>
    if !buffer.isEmpty || !values.isEmpty then values ++ [trim buffer] else values
  | ch :: rest, values, buffer, inQ =>
    if ch = '\\' && inQ then
      match rest with
      | [] => delimitedAux delim [] values (buffer ++ [ch]) inQ
      | next :: rest' => delimitedAux delim rest' values (buffer ++ [ch, next]) inQ
    else if ch = '"' then delimitedAux delim rest values (buffer ++ [ch]) (!inQ)
    else if ch = delim && !inQ then delimitedAux delim rest (values ++ [trim buffer]) [] inQ
    else delimitedAux delim rest values (buffer ++ [ch]) inQ

/-- `/repo/src/decode/parser.rs:186-224` `parse_delimited_values`. -/
def parseDelimitedValues (input : Str) (delim : Char) : List Str :=
  delimitedAux delim input [] [] false

/-- `/repo/src/decode/parser.rs:284-300` `parse_string_literal`. -/
def parseStringLiteral (token : Str) : Except Err Str :=
  let trimmed := trim token
  if trimmed.head? = some '"' then
    match findClosingQuote trimmed 0 with
    | none => .error .unterminatedString
    | some closing =>
      if closing ≠ trimmed.length - 1 then .error .trailingChars
      else unescapeString (slice trimmed 1 closing)
  else .ok trimmed

/-- The `.map(|field| ..).collect::<Result<Vec<_>>>()` of
`/repo/src/decode/parser.rs:122-130`. -/
def parseFields : List Str → Except Err (List FieldName)
  | [] => .ok []
  | field :: rest =>
    match parseStringLiteral (trim field) with
    | .error e => .error e
    | .ok name =>
      match parseFields rest with
      | .error e => .error e
      | .ok fs => .ok ({ name := name, quoted := (trim field).head? == some '"' } :: fs)

/-- The search for the opening bracket, `/repo/src/decode/parser.rs:38-58`. -/
def findBracketStart (content : Str) : Except Err (Option Nat) :=
  let trimmed := trimStart content
  if trimmed.head? = some '"' then
    match findClosingQuote trimmed 0 with
    | none => .error .unterminatedString
    | some closing =>
      if (trimmed.drop (closing + 1)).head? ≠ some '[' then .ok none
      else
        let leadingWs := content.length - trimmed.length
        .ok (findFrom '[' content (leadingWs + closing + 1))
  else .ok (findChar '[' content)

/-- The search for the end of the brace list, `/repo/src/decode/parser.rs:65-79`: the position
from which the colon is searched. -/
def findBraceEnd (content : Str) (bracketEnd : Nat) : Nat :=
  match findFrom '{' content (bracketEnd + 1), findFrom ':' content (bracketEnd + 1) with
  | some braceStart, some colonAfter =>
    if braceStart < colonAfter then
      match findFrom '}' content braceStart with
      | some foundEnd => foundEnd + 1
      | none => bracketEnd + 1
    else bracketEnd + 1
  | _, _ => bracketEnd + 1

/-- The key in front of the bracket, `/repo/src/decode/parser.rs:86-96`. -/
def parseHeaderKey (content : Str) (bracketStart : Nat) : Except Err (Option Str × Bool) :=
  if bracketStart > 0 then
    let rawKey := trim (content.take bracketStart)
    if rawKey.head? = some '"' then
      match parseStringLiteral rawKey with
      | .error e => .error e
      | .ok k => .ok (some k, true)
    else if rawKey.isEmpty then .ok (none, false)
    else .ok (some rawKey, false)
  else .ok (none, false)

/-- The column list, `/repo/src/decode/parser.rs:114-133`. -/
def parseHeaderFields (content : Str) (bracketEnd colonIndex : Nat) (delim : Char) :
    Except Err (Option (List FieldName)) :=
  match findFrom '{' content (bracketEnd + 1) with
  | none => .ok none
  | some braceStart =>
    if braceStart < colonIndex then
      match findFrom '}' content braceStart with
      | none => .ok none
      | some foundEnd =>
        if foundEnd < colonIndex then
          match parseFields (parseDelimitedValues (slice content (braceStart + 1) foundEnd) delim) with
          | .error e => .error e
          | .ok fs => .ok (some fs)
        else .ok none
    else .ok none

/-- `/repo/src/decode/parser.rs:34-149` `parse_array_header_line`. -/
def parseArrayHeaderLine (content : Str) (defaultDelim : Char) : Except Err (Option Header) :=
  match findBracketStart content with
  | .error e => .error e
  | .ok none => .ok none
  | .ok (some bracketStart) =>
    match findFrom ']' content bracketStart with
    | none => .ok none
    | some bracketEnd =>
      match findFrom ':' content (findBraceEnd content bracketEnd) with
      | none => .ok none
      | some colonIndex =>
        match parseHeaderKey content bracketStart with
        | .error e => .error e
        | .ok (key, keyQuoted) =>
          let afterColon := trim (content.drop (colonIndex + 1))
          match parseBracketSegment (slice content (bracketStart + 1) bracketEnd) defaultDelim with
          | none => .ok none
          | some (length, delim) =>
            if length > maxDeclaredLength then .error (.lengthCap length)
            else
              match parseHeaderFields content bracketEnd colonIndex delim with
              | .error e => .error e
              | .ok fields =>
                .ok (some {
                  key := key, keyQuoted := keyQuoted, length := length, delim := delim,
                  fields := fields,
                  inline := if afterColon.isEmpty then none else some afterColon })

section
variable {F : Type} [F64 F]

/-- `/repo/src/decode/parser.rs:243-277` `parse_primitive_token`.  The `unwrap_or(NAN)` of line
265 is unreachable (`is_numeric_literal` has just parsed the same text); the model keeps the
text as a string there. -/
def parsePrimitiveToken (token : Str) : Except Err (Prim F) :=
  let trimmed := trim token
  if trimmed.isEmpty then .ok (.str [])
  else if trimmed.head? = some '"' then
    match parseStringLiteral trimmed with
    | .error e => .error e
    | .ok s => .ok (.str s)
  else if isBoolOrNull trimmed then
    if trimmed = "true".toList then .ok (.bool true)
    else if trimmed = "false".toList then .ok (.bool false)
    else .ok .null
  else if isNumericLiteral F trimmed then
    match (F64.parse trimmed : Option F) with
    | some x => .ok (.num (if F64.isZero x && F64.isNeg x then F64.zero else x))
    | none => .ok (.str trimmed)
  else .ok (.str trimmed)

/-- `/repo/src/decode/parser.rs:231-236` `map_row_values_to_primitives`. -/
def mapRowValues : List Str → Except Err (List (Prim F))
  | [] => .ok []
  | v :: vs =>
    match parsePrimitiveToken v with
    | .error e => .error e
    | .ok p =>
      match mapRowValues vs with
      | .error e => .error e
      | .ok ps => .ok (p :: ps)

end

/-- `/repo/src/decode/parser.rs:307-320` `parse_unquoted_key` with `start = 0`: the key and the
position after the colon. -/
def parseUnquotedKey (content : Str) : Except Err (Str × Nat) :=
  match findChar ':' content with
  | none => .error .missingColon
  | some pos => .ok (trim (content.take pos), pos + 1)

/-- `/repo/src/decode/parser.rs:327-338` `parse_quoted_key` with `start = 0`. -/
def parseQuotedKey (content : Str) : Except Err (Str × Nat) :=
  match findClosingQuote content 0 with
  | none => .error .unterminatedKey
  | some closing =>
    match unescapeString (slice content 1 closing) with
    | .error e => .error e
    | .ok key =>
      if (content.drop (closing + 1)).head? = some ':' then .ok (key, closing + 2)
      else .error .missingColon

/-- `/repo/src/decode/parser.rs:345-353` `parse_key_token` with `start = 0`:
key, end position, quoted flag. -/
def parseKeyToken (content : Str) : Except Err (Str × Nat × Bool) :=
  if content.head? = some '"' then
    match parseQuotedKey content with
    | .error e => .error e
    | .ok (k, e) => .ok (k, e, true)
  else
    match parseUnquotedKey content with
    | .error e => .error e
    | .ok (k, e) => .ok (k, e, false)

/-- `/repo/src/decode/parser.rs:355-359` `is_array_header_content`. -/
def isArrayHeaderContent (content : Str) : Bool :=
  (trimStart content).head? == some '[' && (findUnquotedChar content ':').isSome

/-- `/repo/src/decode/parser.rs:361-364` `is_key_value_content`. -/
def isKeyValueContent (content : Str) : Bool := (findUnquotedChar content ':').isSome

end Toon
