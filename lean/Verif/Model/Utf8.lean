import Verif.Model.Api

/-!
# The decoder on UTF-8 text

A second model of the decoder in which positions are byte offsets, as in the code: searching
goes over the bytes of the text, and taking a substring panics when an offset lies inside a
character, past the end, or when the offsets are in the wrong order.  `Model/Parser.lean` and
`Model/Decoder.lean` use character positions and cannot panic; `Props/Utf8.lean` proves that
the two agree.  Definitions have the names of their counterparts there.
-/

namespace Toon.Utf8

/-- How a call ends when it does not return `Ok`: a panic, or `Err(e)`. -/
inductive Stop where
  | panic
  | fail (e : Err)
deriving DecidableEq, Repr

/-- A `Result` of a function without byte offsets, inside a function that may panic. -/
def lift {α : Type} : Except Err α → Except Stop α
  | .ok a => .ok a
  | .error e => .error (.fail e)

/-- `str::as_bytes`. -/
def bytes (s : Str) : List UInt8 := s.flatMap String.utf8EncodeChar

/-- `str::len`: the number of bytes. -/
def len (s : Str) : Nat := (bytes s).length

/-- `str::split_at_checked(i)` (Rust std): the text before and after byte offset `i`, `none` when
`i` is not a character boundary (`str::is_char_boundary`). -/
def splitAt : Str → Nat → Option (Str × Str)
  | s, 0 => some ([], s)
  | [], _ + 1 => none
  | c :: cs, i + 1 =>
    if (String.utf8EncodeChar c).length ≤ i + 1 then
      (splitAt cs (i + 1 - (String.utf8EncodeChar c).length)).map fun p => (c :: p.1, p.2)
    else none

/-- `&s[i..]`; panics off a character boundary. -/
def sliceFrom (s : Str) (i : Nat) : Except Stop Str :=
  match splitAt s i with
  | some (_, b) => .ok b
  | none => .error .panic

/-- `&s[..i]`; panics off a character boundary. -/
def sliceTo (s : Str) (i : Nat) : Except Stop Str :=
  match splitAt s i with
  | some (a, _) => .ok a
  | none => .error .panic

/-- `&s[i..j]`; panics off a character boundary and when `i > j`. -/
def sliceRange (s : Str) (i j : Nat) : Except Stop Str :=
  if i ≤ j then
    match splitAt s i, splitAt s j with
    | some (_, b), some _ => sliceTo b (j - i)
    | _, _ => .error .panic
  else .error .panic

/-- `str::find(c)` (Rust std): the byte offset of the first occurrence of the character. -/
def find (c : Char) : Str → Option Nat
  | [] => none
  | x :: xs => if x = c then some 0 else (find c xs).map (· + (String.utf8EncodeChar x).length)

/-- The loop of `/repo/src/shared/string_utils.rs:75-86`; the list is `bytes[i..]`. -/
def closingQuoteAux : List UInt8 → Nat → Option Nat
  | [], _ => none
  | [b], i => if b = 0x22 then some i else none
  | b :: b' :: rest, i =>
    if b = 0x5C then closingQuoteAux rest (i + 2)
    else if b = 0x22 then some i
    else closingQuoteAux (b' :: rest) (i + 1)

/-- `/repo/src/shared/string_utils.rs:67-87` `find_closing_quote`. -/
def findClosingQuote (content : Str) (start : Nat) : Option Nat :=
  if start ≥ (bytes content).length then none
  else closingQuoteAux ((bytes content).drop (start + 1)) (start + 1)

/-- The loop of `/repo/src/shared/string_utils.rs:101-119`; the list is `bytes[i..]`. -/
def unquotedCharAux (target : UInt8) : List UInt8 → Nat → Bool → Option Nat
  | [], _, _ => none
  | [b], i, inQ => if b = 0x22 then none else if b == target && !inQ then some i else none
  | b :: b' :: rest, i, inQ =>
    if inQ && b == 0x5C then unquotedCharAux target rest (i + 2) inQ
    else if b = 0x22 then unquotedCharAux target (b' :: rest) (i + 1) (!inQ)
    else if b == target && !inQ then some i
    else unquotedCharAux target (b' :: rest) (i + 1) inQ

/-- `/repo/src/shared/string_utils.rs:89-120` `find_unquoted_char` with `start = 0`. -/
def findUnquotedChar (content : Str) (target : Char) : Option Nat :=
  if target.toNat < 128 then
    unquotedCharAux (UInt8.ofNat target.toNat) (bytes content) 0 false
  else none

/-- `u8::is_ascii_digit`. -/
def isDigit (b : UInt8) : Bool := 0x30 ≤ b && b ≤ 0x39

/-- The loop `while i < len && bytes[i].is_ascii_digit() { i += 1 }`: the digits and the rest. -/
def spanDigits (bs : List UInt8) : List UInt8 × List UInt8 :=
  (bs.takeWhile isDigit, bs.dropWhile isDigit)

/-- Common tail of the two numeric scanners, `/repo/src/shared/literal_utils.rs:43-74` and
`113-142`; the list is `bytes[i..]`. -/
def numTail (bs : List UInt8) : Bool :=
  let afterFrac : Option (List UInt8) := match bs with
    | [] => some bs
    | b :: r =>
      if b = 0x2E then
        if (spanDigits r).1.isEmpty then none else some (spanDigits r).2
      else some bs
  match afterFrac with
  | none => false
  | some r =>
    match r with
    | [] => true
    | b :: r1 =>
      if b = 0x65 || b = 0x45 then
        let r2 := match r1 with
          | [] => r1
          | s :: r2 => if s = 0x2B || s = 0x2D then r2 else r1
        !(spanDigits r2).1.isEmpty && (spanDigits r2).2.isEmpty
      else false

/-- Optional leading minus sign (`literal_utils.rs:18-26`, `93-98`); `none` when there is no byte
after it, or no byte at all. -/
def stripMinus : List UInt8 → Option (List UInt8)
  | [] => none
  | b :: r =>
    if b = 0x2D then
      if r.isEmpty then none else some r
    else some (b :: r)

/-- The grammar part of `/repo/src/shared/literal_utils.rs:84-142` `is_numeric_literal`, on the
bytes of the trimmed text. -/
def isNumericSyntax (bs : List UInt8) : Bool :=
  match stripMinus bs with
  | none => false
  | some body =>
    match body with
    | [] => false
    | b :: r =>
      if b = 0x30 then
        match r with
        | [] => numTail r
        | d :: _ => if isDigit d then false else numTail r
      else if isDigit b then numTail (spanDigits body).2
      else false

/-- `/repo/src/shared/literal_utils.rs:84-145` `is_numeric_literal`. -/
def isNumericLiteral (F : Type) [F64 F] (value : Str) : Bool :=
  let trimmed := trim value
  isNumericSyntax (bytes trimmed) &&
    match (F64.parse trimmed : Option F) with
    | some x => F64.isFinite x
    | none => false

/-- `/repo/src/shared/literal_utils.rs:8-82` `is_numeric_like`. -/
def isNumericLike (value : Str) : Bool :=
  match stripMinus (bytes (trim value)) with
  | none => false
  | some body =>
    let ds := (spanDigits body).1
    if ds.isEmpty then false
    else if ds.length > 1 && ds.head? == some 0x30 then true
    else numTail (spanDigits body).2

/-- `/repo/src/decode/parser.rs:284-300` `parse_string_literal`. -/
def parseStringLiteral (token : Str) : Except Stop Str :=
  let trimmed := trim token
  if trimmed.head? = some '"' then
    match findClosingQuote trimmed 0 with
    | none => .error (.fail .unterminatedString)
    | some closing =>
      if closing ≠ len trimmed - 1 then .error (.fail .trailingChars)
      else do
        let content ← sliceRange trimmed 1 closing
        lift (unescapeString content)
  else .ok trimmed

/-- The `.map(|field| ..).collect::<Result<Vec<_>>>()` of
`/repo/src/decode/parser.rs:122-130`. -/
def parseFields : List Str → Except Stop (List FieldName)
  | [] => .ok []
  | field :: rest => do
    let name ← parseStringLiteral (trim field)
    let fs ← parseFields rest
    return { name := name, quoted := (trim field).head? == some '"' } :: fs

/-- The search for the opening bracket, `/repo/src/decode/parser.rs:38-58`. -/
def findBracketStart (content : Str) : Except Stop (Option Nat) :=
  let trimmed := trimStart content
  if trimmed.head? = some '"' then
    match findClosingQuote trimmed 0 with
    | none => .error (.fail .unterminatedString)
    | some closing => do
      let afterQuote ← sliceFrom trimmed (closing + 1)
      if afterQuote.head? ≠ some '[' then .ok none
      else do
        let leadingWs := len content - len trimmed
        let keyEnd := leadingWs + closing + 1
        let t ← sliceFrom content keyEnd
        return (find '[' t).map (keyEnd + ·)
  else .ok (find '[' content)

/-- `content[start..].find(c).map(|i| start + i)`. -/
def findFrom (c : Char) (s : Str) (start : Nat) : Except Stop (Option Nat) := do
  let t ← sliceFrom s start
  return (find c t).map (start + ·)

/-- The search for the end of the brace list, `/repo/src/decode/parser.rs:72-79`: the position
from which the colon is searched. -/
def findBraceEnd (content : Str) (bracketEnd : Nat) (braceStart colonAfter : Option Nat) :
    Except Stop Nat :=
  match braceStart, colonAfter with
  | some braceStart, some colonAfter =>
    if braceStart < colonAfter then do
      match (← findFrom '}' content braceStart) with
      | some foundEnd => return foundEnd + 1
      | none => return bracketEnd + 1
    else .ok (bracketEnd + 1)
  | _, _ => .ok (bracketEnd + 1)

/-- The key in front of the bracket, `/repo/src/decode/parser.rs:86-96`. -/
def parseHeaderKey (content : Str) (bracketStart : Nat) : Except Stop (Option Str × Bool) :=
  if bracketStart > 0 then do
    let before ← sliceTo content bracketStart
    let rawKey := trim before
    if rawKey.head? = some '"' then do
      let k ← parseStringLiteral rawKey
      return (some k, true)
    else if rawKey.isEmpty then .ok (none, false)
    else .ok (some rawKey, false)
  else .ok (none, false)

/-- The column list, `/repo/src/decode/parser.rs:114-133`. -/
def parseHeaderFields (content : Str) (braceStart : Option Nat) (colonIndex : Nat) (delim : Char) :
    Except Stop (Option (List FieldName)) :=
  match braceStart with
  | none => .ok none
  | some braceStart =>
    if braceStart < colonIndex then do
      match (← findFrom '}' content braceStart) with
      | none => return none
      | some foundEnd =>
        if foundEnd < colonIndex then do
          let fieldsContent ← sliceRange content (braceStart + 1) foundEnd
          let fs ← parseFields (parseDelimitedValues fieldsContent delim)
          return some fs
        else return none
    else .ok none

/-- `/repo/src/decode/parser.rs:34-149` `parse_array_header_line`. -/
def parseArrayHeaderLine (content : Str) (defaultDelim : Char) :
    Except Stop (Option Header) := do
  match (← findBracketStart content) with
  | none => return none
  | some bracketStart =>
    match (← findFrom ']' content bracketStart) with
    | none => return none
    | some bracketEnd =>
      let braceStart ← findFrom '{' content (bracketEnd + 1)
      let colonAfter ← findFrom ':' content (bracketEnd + 1)
      let braceEnd ← findBraceEnd content bracketEnd braceStart colonAfter
      match (← findFrom ':' content braceEnd) with
      | none => return none
      | some colonIndex =>
        let (key, keyQuoted) ← parseHeaderKey content bracketStart
        let after ← sliceFrom content (colonIndex + 1)
        let afterColon := trim after
        let bracketContent ← sliceRange content (bracketStart + 1) bracketEnd
        match parseBracketSegment bracketContent defaultDelim with
        | none => return none
        | some (length, delim) =>
          if length > maxDeclaredLength then throw (.fail (.lengthCap length))
          else do
            let fields ← parseHeaderFields content braceStart colonIndex delim
            return some {
              key := key, keyQuoted := keyQuoted, length := length, delim := delim,
              fields := fields,
              inline := if afterColon.isEmpty then none else some afterColon }

/-- The loop of `/repo/src/decode/parser.rs:309-311`: the position of the first colon byte in
`bytes[pos..]`. -/
def colonByte : List UInt8 → Nat → Option Nat
  | [], _ => none
  | b :: rest, pos => if b = 0x3A then some pos else colonByte rest (pos + 1)

/-- `/repo/src/decode/parser.rs:307-320` `parse_unquoted_key` with `start = 0`. -/
def parseUnquotedKey (content : Str) : Except Stop (Str × Nat) :=
  match colonByte (bytes content) 0 with
  | none => .error (.fail .missingColon)
  | some pos => do
    let key ← sliceRange content 0 pos
    return (trim key, pos + 1)

/-- `/repo/src/decode/parser.rs:327-338` `parse_quoted_key` with `start = 0`. -/
def parseQuotedKey (content : Str) : Except Stop (Str × Nat) :=
  match findClosingQuote content 0 with
  | none => .error (.fail .unterminatedKey)
  | some closing => do
    let keyContent ← sliceRange content 1 closing
    let key ← lift (unescapeString keyContent)
    if (bytes content)[closing + 1]? = some 0x3A then return (key, closing + 2)
    else throw (.fail .missingColon)

/-- `/repo/src/decode/parser.rs:345-353` `parse_key_token` with `start = 0`. -/
def parseKeyToken (content : Str) : Except Stop (Str × Nat × Bool) :=
  if (bytes content)[0]? = some 0x22 then do
    let (k, e) ← parseQuotedKey content
    return (k, e, true)
  else do
    let (k, e) ← parseUnquotedKey content
    return (k, e, false)

/-- `/repo/src/decode/parser.rs:355-359` `is_array_header_content`. -/
def isArrayHeaderContent (content : Str) : Bool :=
  (trimStart content).head? == some '[' && (findUnquotedChar content ':').isSome

/-- `/repo/src/decode/parser.rs:361-364` `is_key_value_content`. -/
def isKeyValueContent (content : Str) : Bool := (findUnquotedChar content ':').isSome

/-- `/repo/src/decode/scanner.rs:42-110` `parse_line_incremental`. -/
def parseLine (raw : Str) (num indentSize : Nat) (strict : Bool) : Except Stop Scanned := do
  let indent := ((bytes raw).takeWhile (· == 0x20)).length
  let content ← sliceFrom raw indent
  if (trim content).isEmpty then return .blank
  else
    let line := Scanned.line { depth := computeDepth indent indentSize, content := content, num := num }
    if strict then
      let whitespaceEnd := ((bytes raw).takeWhile (fun b => b == 0x20 || b == 0x09)).length
      let ws ← sliceTo raw whitespaceEnd
      if ws.contains '\t' then throw (.fail (.tabsInIndent num))
      else if indentSize = 0 then
        if indent > 0 then throw (.fail (.badIndent num indentSize indent)) else return line
      else if indent > 0 && indent % indentSize != 0 then throw (.fail (.badIndent num indentSize indent))
      else return line
    else return line

/-- `/repo/src/decode/scanner.rs:117-130` `parse_lines_sync`. -/
def parseLines (indentSize : Nat) (strict : Bool) :
    List Str → Nat → Except Stop (List Line × List Nat)
  | [], _ => .ok ([], [])
  | raw :: rest, num => do
    let sc ← parseLine raw (num + 1) indentSize strict
    let (ls, bs) ← parseLines indentSize strict rest (num + 1)
    match sc with
    | .blank => return (ls, (num + 1) :: bs)
    | .line l => return (l :: ls, bs)

/-- `/repo/src/decode/validation.rs:103-121` `is_data_row`. -/
def isDataRow (content : Str) (delim : Char) : Bool :=
  match findUnquotedChar content ':', findUnquotedChar content delim with
  | none, _ => true
  | some c, some d => d < c
  | some _, none => false

/-- `/repo/src/decode/validation.rs:54-72` `validate_no_extra_tabular_rows`. -/
def noExtraRows (next : Option Line) (rowDepth expected : Nat) (delim : Char) (strict : Bool) :
    Except Err Unit :=
  match next with
  | none => .ok ()
  | some line =>
    if strict && line.depth == rowDepth && !startsWithDash line.content && isDataRow line.content delim
    then .error (.extraRows expected)
    else .ok ()

/-- `/repo/src/decode/decoders.rs:503-512` `is_key_value_line_sync`. -/
def isKeyValueLine (content : Str) : Except Stop Bool :=
  if content.head? = some '"' then
    match findClosingQuote content 0 with
    | some closing => do
      let after ← sliceFrom content (closing + 1)
      return after.contains ':'
    | none => .ok false
  else .ok (content.contains ':')

/-- The root array test, `/repo/src/decode/decoders.rs:56-58`. -/
def rootHeader (content : Str) : Except Stop (Option Header) :=
  if isArrayHeaderContent content then parseArrayHeaderLine content ',' else .ok none

section
variable {F : Type} [F64 F]

/-- `/repo/src/decode/parser.rs:243-277` `parse_primitive_token`. -/
def parsePrimitiveToken (token : Str) : Except Stop (Prim F) :=
  let trimmed := trim token
  if trimmed.isEmpty then .ok (.str [])
  else if trimmed.head? = some '"' then do
    let s ← parseStringLiteral trimmed
    return .str s
  else if isBoolOrNull trimmed then
    if trimmed = "true".toList then .ok (.bool true)
    else if trimmed = "false".toList then .ok (.bool false)
    else .ok .null
  else if isNumericLiteral F trimmed then
    match (F64.parse trimmed : Option F) with
    | some x => .ok (.num (if F64.isZero x && F64.isNeg x then F64.zero else x))
    | none => .ok (.str trimmed)
  else .ok (.str trimmed)

/-- `/repo/src/decode/parser.rs:231-236` `map_row_values_to_primitives`. -/
def mapRowValues : List Str → Except Stop (List (Prim F))
  | [] => .ok []
  | v :: vs => do
    let p ← parsePrimitiveToken v
    let ps ← mapRowValues vs
    return p :: ps

/-- `/repo/src/decode/decoders.rs:205-231` `decode_inline_primitive_array_sync`. -/
def decodeInline (h : Header) (inline : Str) (strict : Bool) : Except Stop (List (Ev F)) :=
  if (trim inline).isEmpty then do
    lift (assertCount 0 h.length .inlineItems strict)
    return []
  else do
    let prims ← mapRowValues (F := F) (parseDelimitedValues inline h.delim)
    lift (assertCount prims.length h.length .inlineItems strict)
    return prims.map .prim

/-- The row loop of `/repo/src/decode/decoders.rs:245-280`. -/
def tabularLoop (ctx : Ctx) (fields : List FieldName) (delim : Char) (length rowDepth : Nat) :
    (rest : List Line) → (last : Option Line) → (count : Nat) → (start «end» : Option Nat) →
    Except Stop (LoopOut F)
  | [], last, count, start, «end» => .ok ⟨[], ⟨[], last⟩, count, start, «end»⟩
  | line :: rest, last, count, start, «end» =>
    if count < length then
      if line.depth < rowDepth then .ok ⟨[], ⟨line :: rest, last⟩, count, start, «end»⟩
      else if line.depth = rowDepth then do
        let start' := match start with
          | none => some line.num
          | some s => some s
        let values := parseDelimitedValues line.content delim
        lift (assertCount values.length fields.length .rowValues ctx.strict)
        let prims ← mapRowValues (F := F) values
        let out ← tabularLoop ctx fields delim length rowDepth rest (some line) (count + 1) start'
          (some line.num)
        return { out with evs := .startObj :: fieldEvents fields prims ++ .endObj :: out.evs }
      else .ok ⟨[], ⟨line :: rest, last⟩, count, start, «end»⟩
    else .ok ⟨[], ⟨line :: rest, last⟩, count, start, «end»⟩

/-- `/repo/src/decode/decoders.rs:233-298` `decode_tabular_array_sync`. -/
def decodeTabular (ctx : Ctx) (h : Header) (fields : List FieldName) (cur : Cur) (base : Nat) :
    Except Stop (List (Ev F) × Cur) := do
  let out ← tabularLoop (F := F) ctx fields h.delim h.length (base + 1) cur.rest cur.last 0 none none
  lift (assertCount out.count h.length .rows ctx.strict)
  lift (checkBlanks ctx true out.start out.end)
  lift (noExtraRows out.cur.rest.head? (base + 1) h.length h.delim ctx.strict)
  return (out.evs, out.cur)

mutual

/-- `/repo/src/decode/decoders.rs:92-138` `decode_key_value_sync`. -/
def decodeKV (ctx : Ctx) : Nat → Str → Cur → Nat → Except Stop (List (Ev F) × Cur)
  | 0, _, _, _ => .error (.fail .fuel)
  | fuel + 1, content, cur, base => do
    let hdr ← parseArrayHeaderLine content ','
    match keyedHeader hdr with
    | some (key, h) =>
      let (evs, cur') ← decodeArray ctx fuel h cur base
      return (.key key h.keyQuoted :: evs, cur')
    | none =>
      let (key, e, quoted) ← parseKeyToken content
      let after ← sliceFrom content e
      let rest := trim after
      if rest.isEmpty then
        match cur.rest with
        | next :: _ =>
          if base < next.depth then
            let (evs, cur') ← decodeFields ctx fuel cur (base + 1) none
            return (.key key quoted :: .startObj :: evs ++ [.endObj], cur')
          else
            return ([.key key quoted, .startObj, .endObj], cur)
        | [] => return ([.key key quoted, .startObj, .endObj], cur)
      else
        let p ← parsePrimitiveToken (F := F) rest
        return ([.key key quoted, .prim p], cur)

/-- `/repo/src/decode/decoders.rs:140-170` `decode_object_fields_sync`. -/
def decodeFields (ctx : Ctx) : Nat → Cur → Nat → Option Nat → Except Stop (List (Ev F) × Cur)
  | 0, _, _, _ => .error (.fail .fuel)
  | fuel + 1, cur, base, computed =>
    match cur.rest with
    | [] => .ok ([], cur)
    | line :: rest =>
      if line.depth < base then .ok ([], cur)
      else if computed.getD line.depth = line.depth then do
        let (evs, cur') ← decodeKV ctx fuel line.content ⟨rest, some line⟩ line.depth
        let (evs', cur'') ← decodeFields ctx fuel cur' base (some line.depth)
        return (evs ++ evs', cur'')
      else .ok ([], cur)

/-- `/repo/src/decode/decoders.rs:172-203` `decode_array_from_header_sync` (and the part of
`decode_list_array_sync`, lines 341-366, after its loop). -/
def decodeArray (ctx : Ctx) : Nat → Header → Cur → Nat → Except Stop (List (Ev F) × Cur)
  | 0, _, _, _ => .error (.fail .fuel)
  | fuel + 1, h, cur, base =>
    match h.inline with
    | some inline => do
      let evs ← decodeInline (F := F) h inline ctx.strict
      return (.startArr h.length :: evs ++ [.endArr], cur)
    | none =>
      if (h.fields.getD []).isEmpty then do
        let out ← listLoop ctx fuel h.length (base + 1) cur 0 none none
        lift (assertCount out.count h.length .listItems ctx.strict)
        lift (checkBlanks ctx false out.start out.end)
        lift (noExtraItems out.cur.rest.head? (base + 1) h.length ctx.strict)
        return (.startArr h.length :: out.evs ++ [.endArr], out.cur)
      else do
        let (evs, cur') ← decodeTabular (F := F) ctx h (h.fields.getD []) cur base
        return (.startArr h.length :: evs ++ [.endArr], cur')

/-- The item loop of `/repo/src/decode/decoders.rs:312-339` (`decode_list_array_sync`). -/
def listLoop (ctx : Ctx) : Nat → (length itemDepth : Nat) → Cur → (count : Nat) →
    (start «end» : Option Nat) → Except Stop (LoopOut F)
  | 0, _, _, _, _, _, _ => .error (.fail .fuel)
  | fuel + 1, length, itemDepth, cur, count, start, «end» =>
    match cur.rest with
    | [] => .ok ⟨[], cur, count, start, «end»⟩
    | line :: _ =>
      if count < length then
        if line.depth < itemDepth then .ok ⟨[], cur, count, start, «end»⟩
        else if line.depth == itemDepth && isListItem line.content then do
          let start' := match start with
            | none => some line.num
            | some s => some s
          let (evs, cur') ← decodeItem ctx fuel cur itemDepth
          let end' := match cur'.last with
            | some l => some l.num
            | none => some line.num
          let out ← listLoop ctx fuel length itemDepth cur' (count + 1) start' end'
          return { out with evs := evs ++ out.evs }
        else .ok ⟨[], cur, count, start, «end»⟩
      else .ok ⟨[], cur, count, start, «end»⟩

/-- `/repo/src/decode/decoders.rs:369-477` `decode_list_item_sync`; line 386 slices at the byte
length 2 of `"- "`. -/
def decodeItem (ctx : Ctx) : Nat → Cur → Nat → Except Stop (List (Ev F) × Cur)
  | 0, _, _ => .error (.fail .fuel)
  | fuel + 1, cur, base =>
    match cur.rest with
    | [] => .error (.fail .expectedListItem)
    | line :: rest =>
      let cur1 : Cur := ⟨rest, some line⟩
      if line.content = ['-'] then .ok ([.startObj, .endObj], cur1)
      else if startsWithDash line.content then do
        let after ← sliceFrom line.content 2
        if (trim after).isEmpty then return ([.startObj, .endObj], cur1)
        else
          let isHdr := isArrayHeaderContent after
          let hdr ← parseArrayHeaderLine after ','
          match isHdr, hdr with
          | true, some h => decodeArray ctx fuel h cur1 base
          | _, _ =>
            match keyedHeader hdr with
            | some (key, h) =>
              if h.fields.isSome then
                let (evs, cur2) ← decodeArray ctx fuel h cur1 (base + 1)
                let (evs', cur3) ← followLoop ctx fuel cur2 (base + 1)
                return (.startObj :: .key key h.keyQuoted :: evs ++ evs' ++ [.endObj], cur3)
              else decodeItemRest ctx fuel after cur1 base
            | none => decodeItemRest ctx fuel after cur1 base
      else .error (.fail .expectedHyphen)

/-- `/repo/src/decode/decoders.rs:448-476`, the end of `decode_list_item_sync`. -/
def decodeItemRest (ctx : Ctx) : Nat → Str → Cur → Nat → Except Stop (List (Ev F) × Cur)
  | 0, _, _, _ => .error (.fail .fuel)
  | fuel + 1, after, cur1, base =>
    if isKeyValueContent after then do
      let (evs, cur2) ← decodeKV ctx fuel after cur1 (base + 1)
      let (evs', cur3) ← followLoop ctx fuel cur2 (base + 1)
      return (.startObj :: evs ++ evs' ++ [.endObj], cur3)
    else do
      let p ← parsePrimitiveToken (F := F) after
      return ([.prim p], cur1)

/-- `/repo/src/decode/decoders.rs:428-442` and `453-467`. -/
def followLoop (ctx : Ctx) : Nat → Cur → Nat → Except Stop (List (Ev F) × Cur)
  | 0, _, _ => .error (.fail .fuel)
  | fuel + 1, cur, followDepth =>
    match cur.rest with
    | [] => .ok ([], cur)
    | line :: rest =>
      if line.depth < followDepth then .ok ([], cur)
      else if line.depth == followDepth && !startsWithDash line.content then do
        let (evs, cur') ← decodeKV ctx fuel line.content ⟨rest, some line⟩ followDepth
        let (evs', cur'') ← followLoop ctx fuel cur' followDepth
        return (evs ++ evs', cur'')
      else .ok ([], cur)

end

/-- The root loop of `/repo/src/decode/decoders.rs:76-86`. -/
def rootLoop (ctx : Ctx) : Nat → Cur → Except Stop (List (Ev F) × Cur)
  | 0, _ => .error (.fail .fuel)
  | fuel + 1, cur =>
    match cur.rest with
    | [] => .ok ([], cur)
    | line :: rest =>
      if line.depth ≠ 0 then .ok ([], cur)
      else do
        let (evs, cur') ← decodeKV ctx fuel line.content ⟨rest, some line⟩ 0
        let (evs', cur'') ← rootLoop ctx fuel cur'
        return (evs ++ evs', cur'')

/-- `/repo/src/decode/decoders.rs:47-90`, the body of `decode_stream_sync` after scanning. -/
def decodeLines (ctx : Ctx) (lines : List Line) : Except Stop (List (Ev F)) :=
  let fuel := 5 * lines.length + 5
  match lines with
  | [] => .ok [.startObj, .endObj]
  | first :: rest => do
    let hdr ← rootHeader first.content
    match hdr with
    | some h =>
      let (evs, _) ← decodeArray ctx fuel h ⟨rest, some first⟩ 0
      return evs
    | none =>
      let isKV ← if rest.isEmpty then isKeyValueLine first.content else pure true
      if !isKV then
        let p ← parsePrimitiveToken (F := F) (trim first.content)
        return [.prim p]
      else
        let (evs, cur) ← decodeKV ctx fuel first.content ⟨rest, some first⟩ 0
        let (evs', _) ← rootLoop ctx fuel cur
        return .startObj :: evs ++ evs' ++ [.endObj]

/-- `/repo/src/decode/decoders.rs:30-90` `decode_stream_sync` with resolved options. -/
def decodeStream (indent : Nat) (strict : Bool) (source : List Str) :
    Except Stop (List (Ev F)) := do
  let (lines, blanks) ← parseLines indent strict source 0
  decodeLines ⟨strict, blanks⟩ lines

/-- `/repo/src/decode/mod.rs:58-78` `try_decode_from_lines`. -/
def decodeFromLines (opts : DecOpts) (lines : List Str) : Except Stop (Json F) := do
  let events ← decodeStream (F := F) opts.indent opts.strict lines
  let node ← lift (buildNode events)
  let node ← if opts.expand then lift (expandPathsSafe opts.strict node) else pure node
  return nodeToJson node

/-- `/repo/src/decode/mod.rs:31-37` `try_decode`. -/
def decode (opts : DecOpts) (input : Str) : Except Stop (Json F) :=
  decodeFromLines opts (splitOn '\n' input)

end

end Toon.Utf8
