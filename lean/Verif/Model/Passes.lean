import Verif.Model.Frames

/-!
# The passes that decoding makes over the characters of a text

The functions of `/repo/src/decode/scanner.rs`, `/repo/src/decode/parser.rs`, `/repo/src/decode/validation.rs` and
`/repo/src/decode/decoders.rs` once more, with the number of characters that they go over.  A pass over a text (a search, a trim, a
copy, a comparison, reading a number, taking escapes away) counts the characters of the text, even when it ends early, so what is
counted is never less than what is looked at.  Where several passes go over parts of one line, each counts the whole line.  Looks at a
fixed number of characters (`starts_with`) are not counted, and neither are the copies of whole lines (`Model/LineCopies.lean`), the
search for blank lines (`Model/Frames.lean`) and the names that are put into the events of every row of a table.
-/

namespace Toon

/-- A function that goes over `n` characters, with `?`. -/
def Run.spend {α : Type} (n : Nat) (x : Except Err α) : Run α := ⟨n, liftErr x⟩

/-- `/repo/src/decode/scanner.rs:42-110` `parse_line_incremental`: the spaces at the front and the trim; for a line that is not blank
also the copies `content` and `raw`, and in strict mode the spaces and tabs at the front and the search for a tab among them. -/
def linePasses (raw : Str) (strict : Bool) : Nat :=
  2 * raw.length +
    if (trim (raw.drop (raw.takeWhile (· == ' ')).length)).isEmpty then 0
    else 2 * raw.length + if strict then 2 * raw.length else 0

/-- `/repo/src/decode/scanner.rs:117-130` `parse_lines_sync`. -/
def lookScan (indentSize : Nat) (strict : Bool) : List Str → Nat → Run (List Line × List Nat)
  | [], _ => pure ([], [])
  | raw :: rest, num => do
    let sc ← Run.spend (linePasses raw strict) (parseLine raw (num + 1) indentSize strict)
    let (ls, bs) ← lookScan indentSize strict rest (num + 1)
    match sc with
    | .blank => return (ls, (num + 1) :: bs)
    | .line l => return (l :: ls, bs)

/-- `/repo/src/decode/parser.rs:284-300` `parse_string_literal`: the trim; the search for the closing quote and taking the escapes
away, or the copy. -/
def literalPasses (token : Str) : Nat :=
  let trimmed := trim token
  token.length +
    if trimmed.head? = some '"' then
      trimmed.length +
        match findClosingQuote trimmed 0 with
        | none => 0
        | some closing => if closing ≠ trimmed.length - 1 then 0 else (slice trimmed 1 closing).length
    else trimmed.length

/-- `/repo/src/decode/parser.rs:186-224` `parse_delimited_values`: counting the delimiters, cutting, trimming the pieces and copying
them; the pieces together have no more characters than the input. -/
def delimitedPasses (input : Str) : Nat := 4 * input.length

/-- The columns, `/repo/src/decode/parser.rs:122-130`: each is trimmed and read as a literal.  Counted as if no column were at fault. -/
def fieldsPasses (cells : List Str) : Nat := (cells.map fun cell => cell.length + literalPasses (trim cell)).sum

/-- The key in front of the bracket, `/repo/src/decode/parser.rs:86-96`: the trim; the literal or the copy. -/
def headerKeyPasses (content : Str) (bracketStart : Nat) : Nat :=
  if bracketStart > 0 then
    let rawKey := trim (content.take bracketStart)
    content.length + if rawKey.head? = some '"' then literalPasses rawKey else rawKey.length
  else 0

/-- The column list, `/repo/src/decode/parser.rs:114-133`; `brace_start` is known by then. -/
def headerFieldsPasses (content : Str) (bracketEnd colonIndex : Nat) (delim : Char) : Nat :=
  match findFrom '{' content (bracketEnd + 1) with
  | none => 0
  | some braceStart =>
    if braceStart < colonIndex then
      content.length +
        match findFrom '}' content braceStart with
        | none => 0
        | some foundEnd =>
          if foundEnd < colonIndex then
            let columns := slice content (braceStart + 1) foundEnd
            delimitedPasses columns + fieldsPasses (parseDelimitedValues columns delim)
          else 0
    else 0

/-- `/repo/src/decode/parser.rs:34-149` `parse_array_header_line`: the trim, the closing quote, the opening bracket; the closing
bracket; the opening brace, the colon and the closing brace after it, and the colon again; the key; the trim and the copy of what
follows; the copy of the length and reading it; the columns. -/
def headerPasses (content : Str) (defaultDelim : Char) : Nat :=
  3 * content.length +
    match findBracketStart content with
    | .error _ => 0
    | .ok none => 0
    | .ok (some bracketStart) =>
      content.length +
        match findFrom ']' content bracketStart with
        | none => 0
        | some bracketEnd =>
          4 * content.length +
            match findFrom ':' content (findBraceEnd content bracketEnd) with
            | none => 0
            | some colonIndex =>
              headerKeyPasses content bracketStart + 4 * content.length +
                match parseBracketSegment (slice content (bracketStart + 1) bracketEnd) defaultDelim with
                | none => 0
                | some (_, delim) => headerFieldsPasses content bracketEnd colonIndex delim

/-- `/repo/src/decode/parser.rs:307-353` `parse_key_token`: the closing quote and taking the escapes away, or the colon, the trim and the
copy. -/
def keyPasses (content : Str) : Nat := if content.head? = some '"' then 2 * content.length else 3 * content.length

/-- `/repo/src/decode/parser.rs:355-359` `is_array_header_content`: the trim and the colon. -/
def arrayTestPasses (content : Str) : Nat := 2 * content.length

/-- `/repo/src/decode/parser.rs:361-364` `is_key_value_content`: the colon. -/
def keyTestPasses (content : Str) : Nat := content.length

/-- `/repo/src/decode/decoders.rs:503-512` `is_key_value_line_sync`: the closing quote and the colon, or the colon. -/
def keyLineTestPasses (content : Str) : Nat := if content.head? = some '"' then 2 * content.length else content.length

/-- `/repo/src/decode/validation.rs:54-72` `validate_no_extra_tabular_rows`: the colon and the delimiter in the next line, if it is
looked at. -/
def extraRowPasses (next : Option Line) (rowDepth : Nat) (strict : Bool) : Nat :=
  match next with
  | none => 0
  | some line => if strict && line.depth == rowDepth && !startsWithDash line.content then 2 * line.content.length else 0

/-- `/repo/src/decode/decoders.rs:99-101`: the copy of the key of the header, counted as one of the line. -/
def headerCloned (hdr : Option Header) (content : Str) : Nat :=
  match keyedHeader hdr with
  | some _ => content.length
  | none => 0

/-- `/repo/src/decode/parser.rs:243-277` `parse_primitive_token`: the trim; the literal; or the comparison with `true`, `false` and
`null` and what the text is; or that comparison, the three passes of `is_numeric_literal`
(`/repo/src/shared/literal_utils.rs:85-142`: the trim, the digits, the number), and reading the number or copying the text. -/
def tokenPasses (token : Str) : Nat :=
  let trimmed := trim token
  token.length +
    if trimmed.isEmpty then 0
    else if trimmed.head? = some '"' then literalPasses trimmed
    else if isBoolOrNull trimmed then 2 * trimmed.length
    else 5 * trimmed.length

/-- A row: `parse_delimited_values` and `map_row_values_to_primitives` (`/repo/src/decode/parser.rs:186-236`).  Counted as if no cell
were at fault. -/
def rowPasses (text : Str) (delim : Char) : Nat :=
  delimitedPasses text + ((parseDelimitedValues text delim).map (tokenPasses)).sum

/-- `/repo/src/decode/decoders.rs:205-231` `decode_inline_primitive_array_sync`: the trim and the row. -/
def inlinePasses (h : Header) (inline : Str) : Nat :=
  inline.length + if (trim inline).isEmpty then 0 else rowPasses inline h.delim

section
variable {F : Type} [F64 F] (ctx : Ctx)

/-- The row loop of `/repo/src/decode/decoders.rs:245-280`. -/
def lookRows (fields : List FieldName) (delim : Char) (length rowDepth : Nat) :
    (rest : List Line) → (last : Option Line) → Nat → Option Nat → Option Nat → Run (LoopOut F)
  | [], last, count, start, «end» => pure ⟨[], ⟨[], last⟩, count, start, «end»⟩
  | line :: rest, last, count, start, «end» =>
    if count < length then
      if line.depth < rowDepth then pure ⟨[], ⟨line :: rest, last⟩, count, start, «end»⟩
      else if line.depth = rowDepth then do
        let start' := match start with
          | none => some line.num
          | some s => some s
        tick (rowPasses line.content delim)
        let values := parseDelimitedValues line.content delim
        Run.lift (assertCount values.length fields.length .rowValues ctx.strict)
        let prims ← Run.lift (mapRowValues (F := F) values)
        let out ← lookRows fields delim length rowDepth rest (some line) (count + 1) start' (some line.num)
        return { out with evs := .startObj :: fieldEvents fields prims ++ .endObj :: out.evs }
      else pure ⟨[], ⟨line :: rest, last⟩, count, start, «end»⟩
    else pure ⟨[], ⟨line :: rest, last⟩, count, start, «end»⟩

/-- `/repo/src/decode/decoders.rs:233-298` `decode_tabular_array_sync`. -/
def lookTabular (h : Header) (fields : List FieldName) (cur : Cur) (base : Nat) : Run (List (Ev F) × Cur) := do
  let out ← lookRows (F := F) ctx fields h.delim h.length (base + 1) cur.rest cur.last 0 none none
  Run.lift (assertCount out.count h.length .rows ctx.strict)
  Run.lift (checkBlanks ctx true out.start out.end)
  Run.spend (extraRowPasses out.cur.rest.head? (base + 1) ctx.strict)
    (noExtraRows out.cur.rest.head? (base + 1) h.length h.delim ctx.strict)
  return (out.evs, out.cur)

mutual

/-- `/repo/src/decode/decoders.rs:92-138` `decode_key_value_sync`; the trim of what follows the key counts the line. -/
def lookKV : Nat → Str → Cur → Nat → Run (List (Ev F) × Cur)
  | 0, _, _, _ => Run.lift (.error .fuel)
  | fuel + 1, content, cur, base => do
    let hdr ← Run.spend (headerPasses content ',') (parseArrayHeaderLine content ',')
    tick (headerCloned hdr content)
    match keyedHeader hdr with
    | some (key, h) =>
      let (evs, cur') ← lookArray fuel h cur base
      return (.key key h.keyQuoted :: evs, cur')
    | none =>
      let (key, e, quoted) ← Run.spend (keyPasses content) (parseKeyToken content)
      tick content.length
      let rest := trim (content.drop e)
      if rest.isEmpty then
        match cur.rest with
        | next :: _ =>
          if base < next.depth then
            let (evs, cur') ← lookFields fuel cur (base + 1) none
            return (.key key quoted :: .startObj :: evs ++ [.endObj], cur')
          else
            return ([.key key quoted, .startObj, .endObj], cur)
        | [] => return ([.key key quoted, .startObj, .endObj], cur)
      else
        let p ← Run.spend (tokenPasses rest) (parsePrimitiveToken (F := F) rest)
        return ([.key key quoted, .prim p], cur)

/-- `/repo/src/decode/decoders.rs:140-170` `decode_object_fields_sync`, the loop. -/
def lookFields : Nat → Cur → Nat → Option Nat → Run (List (Ev F) × Cur)
  | 0, _, _, _ => Run.lift (.error .fuel)
  | fuel + 1, cur, base, computed =>
    match cur.rest with
    | [] => pure ([], cur)
    | line :: rest =>
      if line.depth < base then pure ([], cur)
      else if computed.getD line.depth = line.depth then do
        let (evs, cur') ← lookKV fuel line.content ⟨rest, some line⟩ line.depth
        let (evs', cur'') ← lookFields fuel cur' base (some line.depth)
        return (evs ++ evs', cur'')
      else pure ([], cur)

/-- `/repo/src/decode/decoders.rs:172-203` `decode_array_from_header_sync` (and the part of
`decode_list_array_sync`, lines 341-366, after its loop). -/
def lookArray : Nat → Header → Cur → Nat → Run (List (Ev F) × Cur)
  | 0, _, _, _ => Run.lift (.error .fuel)
  | fuel + 1, h, cur, base =>
    match h.inline with
    | some inline => do
      let evs ← Run.spend (inlinePasses h inline) (decodeInline (F := F) h inline ctx.strict)
      return (.startArr h.length :: evs ++ [.endArr], cur)
    | none =>
      if (h.fields.getD []).isEmpty then do
        let out ← lookItems fuel h.length (base + 1) cur 0 none none
        Run.lift (assertCount out.count h.length .listItems ctx.strict)
        Run.lift (checkBlanks ctx false out.start out.end)
        Run.lift (noExtraItems out.cur.rest.head? (base + 1) h.length ctx.strict)
        return (.startArr h.length :: out.evs ++ [.endArr], out.cur)
      else do
        let (evs, cur') ← lookTabular (F := F) ctx h (h.fields.getD []) cur base
        return (.startArr h.length :: evs ++ [.endArr], cur')

/-- The item loop of `/repo/src/decode/decoders.rs:312-339` (`decode_list_array_sync`). -/
def lookItems : Nat → Nat → Nat → Cur → Nat → Option Nat → Option Nat → Run (LoopOut F)
  | 0, _, _, _, _, _, _ => Run.lift (.error .fuel)
  | fuel + 1, length, itemDepth, cur, count, start, «end» =>
    match cur.rest with
    | [] => pure ⟨[], cur, count, start, «end»⟩
    | line :: _ =>
      if count < length then
        if line.depth < itemDepth then pure ⟨[], cur, count, start, «end»⟩
        else if line.depth == itemDepth && isListItem line.content then do
          let start' := match start with
            | none => some line.num
            | some s => some s
          let (evs, cur') ← lookItem fuel cur itemDepth
          let end' := match cur'.last with
            | some l => some l.num
            | none => some line.num
          let out ← lookItems fuel length itemDepth cur' (count + 1) start' end'
          return { out with evs := evs ++ out.evs }
        else pure ⟨[], cur, count, start, «end»⟩
      else pure ⟨[], cur, count, start, «end»⟩

/-- `/repo/src/decode/decoders.rs:369-477` `decode_list_item_sync`: what follows the hyphen is copied and trimmed, and it is tested and
read as a header up to two times (lines 399-406); the key of a table is copied (413). -/
def lookItem : Nat → Cur → Nat → Run (List (Ev F) × Cur)
  | 0, _, _ => Run.lift (.error .fuel)
  | fuel + 1, cur, base =>
    match cur.rest with
    | [] => Run.lift (.error .expectedListItem)
    | line :: rest =>
      let cur1 : Cur := ⟨rest, some line⟩
      if line.content = ['-'] then pure ([.startObj, .endObj], cur1)
      else if startsWithDash line.content then
        let after := line.content.drop 2
        do
        tick (2 * after.length)
        if (trim after).isEmpty then pure ([.startObj, .endObj], cur1)
        else do
          tick (arrayTestPasses after + headerPasses after ',')
          let hdr ← Run.lift (parseArrayHeaderLine after ',')
          match isArrayHeaderContent after, hdr with
          | true, some h => lookArray fuel h cur1 base
          | _, _ =>
            tick (headerPasses after ',')
            match keyedHeader hdr with
            | some (key, h) =>
              if h.fields.isSome then
                tick after.length
                let (evs, cur2) ← lookArray fuel h cur1 (base + 1)
                let (evs', cur3) ← lookFollow fuel cur2 (base + 1)
                return (.startObj :: .key key h.keyQuoted :: evs ++ evs' ++ [.endObj], cur3)
              else lookItemRest fuel after cur1 base
            | none => lookItemRest fuel after cur1 base
      else Run.lift (.error .expectedHyphen)

/-- `/repo/src/decode/decoders.rs:448-476`, the end of `decode_list_item_sync`. -/
def lookItemRest : Nat → Str → Cur → Nat → Run (List (Ev F) × Cur)
  | 0, _, _, _ => Run.lift (.error .fuel)
  | fuel + 1, after, cur1, base => do
    tick (keyTestPasses after)
    if isKeyValueContent after then do
      let (evs, cur2) ← lookKV fuel after cur1 (base + 1)
      let (evs', cur3) ← lookFollow fuel cur2 (base + 1)
      return (.startObj :: evs ++ evs' ++ [.endObj], cur3)
    else do
      let p ← Run.spend (tokenPasses after) (parsePrimitiveToken (F := F) after)
      return ([.prim p], cur1)

/-- The loop over the remaining fields of a list-item object, `/repo/src/decode/decoders.rs:428-442` and `453-467`. -/
def lookFollow : Nat → Cur → Nat → Run (List (Ev F) × Cur)
  | 0, _, _ => Run.lift (.error .fuel)
  | fuel + 1, cur, followDepth =>
    match cur.rest with
    | [] => pure ([], cur)
    | line :: rest =>
      if line.depth < followDepth then pure ([], cur)
      else if line.depth == followDepth && !startsWithDash line.content then do
        let (evs, cur') ← lookKV fuel line.content ⟨rest, some line⟩ followDepth
        let (evs', cur'') ← lookFollow fuel cur' followDepth
        return (evs ++ evs', cur'')
      else pure ([], cur)

end

/-- The root loop of `/repo/src/decode/decoders.rs:76-86`. -/
def lookRoot : Nat → Cur → Run (List (Ev F) × Cur)
  | 0, _ => Run.lift (.error .fuel)
  | fuel + 1, cur =>
    match cur.rest with
    | [] => pure ([], cur)
    | line :: rest =>
      if line.depth ≠ 0 then pure ([], cur)
      else do
        let (evs, cur') ← lookKV ctx fuel line.content ⟨rest, some line⟩ 0
        let (evs', cur'') ← lookRoot fuel cur'
        return (evs ++ evs', cur'')

/-- `/repo/src/decode/decoders.rs:47-90`, the body of `decode_stream_sync` after scanning.  The root header is counted as if it were
always read, and the test for a key as if it were always made. -/
def lookLines (lines : List Line) : Run (List (Ev F)) :=
  let fuel := 5 * lines.length + 5
  match lines with
  | [] => pure [.startObj, .endObj]
  | first :: rest => do
    let hdr ← Run.spend (arrayTestPasses first.content + headerPasses first.content ',') (rootHeader first.content)
    match hdr with
    | some h =>
      let (evs, _) ← lookArray ctx fuel h ⟨rest, some first⟩ 0
      return evs
    | none =>
      tick (keyLineTestPasses first.content)
      if rest.isEmpty && !isKeyValueLine first.content then
        let p ← Run.spend (first.content.length + tokenPasses (trim first.content))
          (parsePrimitiveToken (F := F) (trim first.content))
        return [.prim p]
      else
        let (evs, cur) ← lookKV ctx fuel first.content ⟨rest, some first⟩ 0
        let (evs', _) ← lookRoot ctx fuel cur
        return .startObj :: evs ++ evs' ++ [.endObj]

end

/-- `/repo/src/decode/decoders.rs:30-90` `decode_stream_sync` with resolved options; the characters that it goes over. -/
def lookStream {F : Type} [F64 F] (indent : Nat) (strict : Bool) (source : List Str) : Run (List (Ev F)) := do
  let (lines, blanks) ← lookScan indent strict source 0
  lookLines ⟨strict, blanks⟩ lines

end Toon
