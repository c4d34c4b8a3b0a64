import Verif.Model.Parser
import Verif.Model.Scanner

/-!
# `/repo/src/decode/decoders.rs` and `/repo/src/decode/validation.rs`

The functions append to an event vector and advance a cursor; here they return the list of
appended events and the new cursor.  The mutual recursion takes a budget (`fuel`); the entry
point passes `5 * lines + 5`, which is proved sufficient.
-/

namespace Toon

/-- `/repo/src/decode/decoders.rs:18-22` `DecoderContext` plus the numbers of the blank lines
(`StreamingLineCursor::get_blank_lines`). -/
structure Ctx where
  strict : Bool
  blanks : List Nat

/-- `/repo/src/decode/validation.rs:12-24` `assert_expected_count`. -/
def assertCount (actual expected : Nat) (what : Counted) (strict : Bool) : Except Err Unit :=
  if strict && actual != expected then .error (.countMismatch expected what actual) else .ok ()

/-- The list item prefix `"- "` (`/repo/src/shared/constants.rs:2`). -/
def startsWithDash : Str → Bool
  | '-' :: ' ' :: _ => true
  | _ => false

/-- `/repo/src/decode/validation.rs:31-47` `validate_no_extra_list_items`. -/
def noExtraItems (next : Option Line) (itemDepth expected : Nat) (strict : Bool) : Except Err Unit :=
  match next with
  | none => .ok ()
  | some line =>
    if strict && line.depth == itemDepth && startsWithDash line.content then .error (.extraItems expected)
    else .ok ()

/-- `/repo/src/decode/validation.rs:103-121` `is_data_row`. -/
def isDataRow (content : Str) (delim : Char) : Bool :=
  match findUnquotedChar content ':', findUnquotedChar content delim with
  | none, _ => true
  | some c, some d => d < c
  | some _, none => false

/-- `/repo/src/decode/validation.rs:54-72` `validate_no_extra_tabular_rows`. -/
def noExtraRows (next : Option Line) (rowDepth expected : Nat) (delim : Char) (strict : Bool) :
    Except Err Unit :=
  match next with
  | none => .ok ()
  | some line =>
    if strict && line.depth == rowDepth && !startsWithDash line.content && isDataRow line.content delim
    then .error (.extraRows expected)
    else .ok ()

/-- `/repo/src/decode/validation.rs:79-101` `validate_no_blank_lines_in_range`. -/
def noBlankInRange (start «end» : Nat) (blanks : List Nat) (strict table : Bool) : Except Err Unit :=
  if strict then
    match blanks.find? (fun b => start < b && b < «end») with
    | some b => .error (.blankLine b table)
    | none => .ok ()
  else .ok ()

/-- The guarded call of `validate_no_blank_lines_in_range`,
`/repo/src/decode/decoders.rs:284-294`, `348-358`. -/
def checkBlanks (ctx : Ctx) (table : Bool) (start «end» : Option Nat) : Except Err Unit :=
  match start, «end» with
  | some s, some e => noBlankInRange s e ctx.blanks ctx.strict table
  | _, _ => .ok ()

section
variable {F : Type} [F64 F]

/-- `/repo/src/decode/decoders.rs:479-501` `yield_object_from_fields`, the field loop; missing
values are null. -/
def fieldEvents : List FieldName → List (Prim F) → List (Ev F)
  | [], _ => []
  | f :: fs, [] => .key f.name f.quoted :: .prim .null :: fieldEvents fs []
  | f :: fs, p :: ps => .key f.name f.quoted :: .prim p :: fieldEvents fs ps

/-- `/repo/src/decode/decoders.rs:205-231` `decode_inline_primitive_array_sync`. -/
def decodeInline (h : Header) (inline : Str) (strict : Bool) : Except Err (List (Ev F)) :=
  if (trim inline).isEmpty then do
    assertCount 0 h.length .inlineItems strict
    return []
  else do
    let prims ← mapRowValues (F := F) (parseDelimitedValues inline h.delim)
    assertCount prims.length h.length .inlineItems strict
    return prims.map .prim

/-- Result of an array body loop: events, cursor, number of items, first and last line. -/
structure LoopOut (F : Type) where
  evs : List (Ev F)
  cur : Cur
  count : Nat
  start : Option Nat
  «end» : Option Nat

/-- The row loop of `/repo/src/decode/decoders.rs:245-280`.  `header.fields` is `Some` at the
only call, so the "missing header fields" error cannot occur and `fields` is passed
directly. -/
def tabularLoop (ctx : Ctx) (fields : List FieldName) (delim : Char) (length rowDepth : Nat) :
    (rest : List Line) → (last : Option Line) → (count : Nat) → (start «end» : Option Nat) →
    Except Err (LoopOut F)
  | [], last, count, start, «end» => .ok ⟨[], ⟨[], last⟩, count, start, «end»⟩
  | line :: rest, last, count, start, «end» =>
    if count < length then
      if line.depth < rowDepth then .ok ⟨[], ⟨line :: rest, last⟩, count, start, «end»⟩
      else if line.depth = rowDepth then do
        let start' := match start with
          | none => some line.num
          | some s => some s
        let values := parseDelimitedValues line.content delim
        assertCount values.length fields.length .rowValues ctx.strict
        let prims ← mapRowValues (F := F) values
        let out ← tabularLoop ctx fields delim length rowDepth rest (some line) (count + 1) start'
          (some line.num)
        return { out with evs := .startObj :: fieldEvents fields prims ++ .endObj :: out.evs }
      else .ok ⟨[], ⟨line :: rest, last⟩, count, start, «end»⟩
    else .ok ⟨[], ⟨line :: rest, last⟩, count, start, «end»⟩

/-- `/repo/src/decode/decoders.rs:233-298` `decode_tabular_array_sync`. -/
def decodeTabular (ctx : Ctx) (h : Header) (fields : List FieldName) (cur : Cur) (base : Nat) :
    Except Err (List (Ev F) × Cur) := do
  let out ← tabularLoop (F := F) ctx fields h.delim h.length (base + 1) cur.rest cur.last 0 none none
  assertCount out.count h.length .rows ctx.strict
  checkBlanks ctx true out.start out.end
  noExtraRows out.cur.rest.head? (base + 1) h.length h.delim ctx.strict
  return (out.evs, out.cur)

/-- The condition `if let Some(header_info) = .. && let Some(key) = ..` of
`/repo/src/decode/decoders.rs:99-101`. -/
def keyedHeader : Option Header → Option (Str × Header)
  | none => none
  | some h =>
    match h.key with
    | none => none
    | some k => some (k, h)

/-- `is_list_item`, `/repo/src/decode/decoders.rs:321-322`. -/
def isListItem (content : Str) : Bool := startsWithDash content || content == ['-']

mutual

/-- `/repo/src/decode/decoders.rs:92-138` `decode_key_value_sync`. -/
def decodeKV (ctx : Ctx) : Nat → Str → Cur → Nat → Except Err (List (Ev F) × Cur)
  | 0, _, _, _ => .error .fuel
  | fuel + 1, content, cur, base => do
    let hdr ← parseArrayHeaderLine content ','
    match keyedHeader hdr with
    | some (key, h) =>
      let (evs, cur') ← decodeArray ctx fuel h cur base
      return (.key key h.keyQuoted :: evs, cur')
    | none =>
      let (key, e, quoted) ← parseKeyToken content
      let rest := trim (content.drop e)
      if rest.isEmpty then
        match cur.rest with
        | next :: _ =>
          if base < next.depth then
            let (evs, cur') ← decodeFields ctx fuel cur (base + 1) none
            return (.key key quoted :: .startObj :: evs ++ [.endObj], cur')
          else
            return ([.key key quoted, .startObj, .endObj], cur)
        | [] => return ([.key key quoted, .startObj, .endObj], cur)
      else
        let p ← parsePrimitiveToken (F := F) rest
        return ([.key key quoted, .prim p], cur)

/-- `/repo/src/decode/decoders.rs:140-170` `decode_object_fields_sync`, the loop; `computed` is
`computed_depth`. -/
def decodeFields (ctx : Ctx) : Nat → Cur → Nat → Option Nat → Except Err (List (Ev F) × Cur)
  | 0, _, _, _ => .error .fuel
  | fuel + 1, cur, base, computed =>
    match cur.rest with
    | [] => .ok ([], cur)
    | line :: rest =>
      if line.depth < base then .ok ([], cur)
      else if computed.getD line.depth = line.depth then do
        let (evs, cur') ← decodeKV ctx fuel line.content ⟨rest, some line⟩ line.depth
        let (evs', cur'') ← decodeFields ctx fuel cur' base (some line.depth)
        return (evs ++ evs', cur'')
      else .ok ([], cur)

/-- `/repo/src/decode/decoders.rs:172-203` `decode_array_from_header_sync` (and the part of
`decode_list_array_sync`, lines 341-366, after its loop). -/
def decodeArray (ctx : Ctx) : Nat → Header → Cur → Nat → Except Err (List (Ev F) × Cur)
  | 0, _, _, _ => .error .fuel
  | fuel + 1, h, cur, base =>
    match h.inline with
    | some inline => do
      let evs ← decodeInline (F := F) h inline ctx.strict
      return (.startArr h.length :: evs ++ [.endArr], cur)
    | none =>
      if (h.fields.getD []).isEmpty then do
        let out ← listLoop ctx fuel h.length (base + 1) cur 0 none none
        assertCount out.count h.length .listItems ctx.strict
        checkBlanks ctx false out.start out.end
        noExtraItems out.cur.rest.head? (base + 1) h.length ctx.strict
        return (.startArr h.length :: out.evs ++ [.endArr], out.cur)
      else do
        let (evs, cur') ← decodeTabular (F := F) ctx h (h.fields.getD []) cur base
        return (.startArr h.length :: evs ++ [.endArr], cur')

/-- The item loop of `/repo/src/decode/decoders.rs:312-339` (`decode_list_array_sync`). -/
def listLoop (ctx : Ctx) : Nat → (length itemDepth : Nat) → Cur → (count : Nat) →
    (start «end» : Option Nat) → Except Err (LoopOut F)
  | 0, _, _, _, _, _, _ => .error .fuel
  | fuel + 1, length, itemDepth, cur, count, start, «end» =>
    match cur.rest with
    | [] => .ok ⟨[], cur, count, start, «end»⟩
    | line :: _ =>
      if count < length then
        if line.depth < itemDepth then .ok ⟨[], cur, count, start, «end»⟩
        else if line.depth == itemDepth && isListItem line.content then do
          let start' := match start with
            | none => some line.num
            | some s => some s
          let (evs, cur') ← decodeItem ctx fuel cur itemDepth
          let end' := match cur'.last with
            | some l => some l.num
            | none => some line.num
          let out ← listLoop ctx fuel length itemDepth cur' (count + 1) start' end'
          return { out with evs := evs ++ out.evs }
        else .ok ⟨[], cur, count, start, «end»⟩
      else .ok ⟨[], cur, count, start, «end»⟩

/-- `/repo/src/decode/decoders.rs:369-477` `decode_list_item_sync`. -/
def decodeItem (ctx : Ctx) : Nat → Cur → Nat → Except Err (List (Ev F) × Cur)
  | 0, _, _ => .error .fuel
  | fuel + 1, cur, base =>
    match cur.rest with
    | [] => .error .expectedListItem
    | line :: rest =>
      let cur1 : Cur := ⟨rest, some line⟩
      if line.content = ['-'] then .ok ([.startObj, .endObj], cur1)
      else if startsWithDash line.content then
        let after := line.content.drop 2
        if (trim after).isEmpty then .ok ([.startObj, .endObj], cur1)
        else do
          -- lines 399-404; `parse_array_header_line` is pure, so one call stands for both
          let isHdr := isArrayHeaderContent after
          let hdr ← parseArrayHeaderLine after ','
          match isHdr, hdr with
          | true, some h => decodeArray ctx fuel h cur1 base
          | _, _ =>
            match keyedHeader hdr with
            | some (key, h) =>
              if h.fields.isSome then
                -- lines 406-446
                let (evs, cur2) ← decodeArray ctx fuel h cur1 (base + 1)
                let (evs', cur3) ← followLoop ctx fuel cur2 (base + 1)
                return (.startObj :: .key key h.keyQuoted :: evs ++ evs' ++ [.endObj], cur3)
              else decodeItemRest ctx fuel after cur1 base
            | none => decodeItemRest ctx fuel after cur1 base
      else .error .expectedHyphen

/-- `/repo/src/decode/decoders.rs:448-476`, the end of `decode_list_item_sync`: a list item that
starts an object, or a primitive. -/
def decodeItemRest (ctx : Ctx) : Nat → Str → Cur → Nat → Except Err (List (Ev F) × Cur)
  | 0, _, _, _ => .error .fuel
  | fuel + 1, after, cur1, base =>
    if isKeyValueContent after then do
      let (evs, cur2) ← decodeKV ctx fuel after cur1 (base + 1)
      let (evs', cur3) ← followLoop ctx fuel cur2 (base + 1)
      return (.startObj :: evs ++ evs' ++ [.endObj], cur3)
    else do
      let p ← parsePrimitiveToken (F := F) after
      return ([.prim p], cur1)

/-- The loop over the remaining fields of a list-item object,
`/repo/src/decode/decoders.rs:428-442` and `453-467` (identical code). -/
def followLoop (ctx : Ctx) : Nat → Cur → Nat → Except Err (List (Ev F) × Cur)
  | 0, _, _ => .error .fuel
  | fuel + 1, cur, followDepth =>
    match cur.rest with
    | [] => .ok ([], cur)
    | line :: rest =>
      if line.depth < followDepth then .ok ([], cur)
      else if line.depth == followDepth && !startsWithDash line.content then do
        let (evs, cur') ← decodeKV ctx fuel line.content ⟨rest, some line⟩ followDepth
        let (evs', cur'') ← followLoop ctx fuel cur' followDepth
        return (evs ++ evs', cur'')
      else .ok ([], cur)

end

/-- The root loop of `/repo/src/decode/decoders.rs:76-86`. -/
def rootLoop (ctx : Ctx) : Nat → Cur → Except Err (List (Ev F) × Cur)
  | 0, _ => .error .fuel
  | fuel + 1, cur =>
    match cur.rest with
    | [] => .ok ([], cur)
    | line :: rest =>
      if line.depth ≠ 0 then .ok ([], cur)
      else do
        let (evs, cur') ← decodeKV ctx fuel line.content ⟨rest, some line⟩ 0
        let (evs', cur'') ← rootLoop ctx fuel cur'
        return (evs ++ evs', cur'')

/-- `/repo/src/decode/decoders.rs:503-512` `is_key_value_line_sync`. -/
def isKeyValueLine (content : Str) : Bool :=
  if content.head? = some '"' then
    match findClosingQuote content 0 with
    | some closing => (content.drop (closing + 1)).contains ':'
    | none => false
  else content.contains ':'

/-- The root array test, `/repo/src/decode/decoders.rs:56-58`. -/
def rootHeader (content : Str) : Except Err (Option Header) :=
  if isArrayHeaderContent content then parseArrayHeaderLine content ',' else .ok none

/-- `/repo/src/decode/decoders.rs:47-90`, the body of `decode_stream_sync` after scanning. -/
def decodeLines (ctx : Ctx) (lines : List Line) : Except Err (List (Ev F)) :=
  let fuel := 5 * lines.length + 5
  match lines with
  | [] => .ok [.startObj, .endObj]
  | first :: rest => do
    let hdr ← rootHeader first.content
    match hdr with
    | some h =>
      let (evs, _) ← decodeArray ctx fuel h ⟨rest, some first⟩ 0
      return evs
    | none =>
      if rest.isEmpty && !isKeyValueLine first.content then
        let p ← parsePrimitiveToken (F := F) (trim first.content)
        return [.prim p]
      else
        let (evs, cur) ← decodeKV ctx fuel first.content ⟨rest, some first⟩ 0
        let (evs', _) ← rootLoop ctx fuel cur
        return .startObj :: evs ++ evs' ++ [.endObj]

/-- `/repo/src/decode/decoders.rs:30-90` `decode_stream_sync` with resolved options. -/
def decodeStream (indent : Nat) (strict : Bool) (source : List Str) : Except Err (List (Ev F)) := do
  let (lines, blanks) ← parseLines indent strict source 0
  decodeLines ⟨strict, blanks⟩ lines

end

end Toon
