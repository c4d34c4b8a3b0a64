import Verif.Model.Frames

/-!
# The copies of lines that `/repo/src/decode/decoders.rs` makes

The functions of `Model/Decoder.lean` once more, with the copies of a `ParsedLine` that the program makes whenever it looks at the
next line in a loop (`peek_sync().cloned()`) or takes a line (`advance_sync`, `next_sync`).  A copy of a line counts `w line`;
`lineChars` is the number of characters in it.  The copies of parts of a line that parsing makes are not counted.
-/

namespace Toon

/-- `/repo/src/decode/scanner.rs:6-13` `ParsedLine`: the characters of the fields `raw` and `content`.  The field `raw`, which
`Model/Scanner.lean` leaves out, is the line of the source. -/
def lineChars (source : List Str) (line : Line) : Nat := (source[line.num - 1]?.getD []).length + line.content.length

section
variable (w : Line → Nat)

/-- `cursor.peek_sync().cloned()` (`/repo/src/decode/scanner.rs:165-168`): the next line is copied. -/
def peekCopied (cur : Cur) : Run (Option Line) := do
  tick ((cur.rest.head?.map w).getD 0)
  return cur.rest.head?

/-- `/repo/src/decode/scanner.rs:169-175` `advance_sync`: the line is copied into `last_line`. -/
def advanceCopied (cur : Cur) : Run Cur :=
  match cur.rest with
  | [] => pure cur
  | line :: rest => do
    tick (w line)
    return ⟨rest, some line⟩

/-- `/repo/src/decode/scanner.rs:177-186` `next_sync`: the line is copied twice. -/
def nextCopied (cur : Cur) : Run (Option Line × Cur) :=
  match cur.rest with
  | [] => pure (none, cur)
  | line :: rest => do
    tick (w line + w line)
    return (some line, ⟨rest, some line⟩)

variable {F : Type} [F64 F] (ctx : Ctx)

/-- The row loop of `/repo/src/decode/decoders.rs:245-280`; it is passed through at most once for every line that is left, and
once more. -/
def copyRows (fields : List FieldName) (delim : Char) (length rowDepth : Nat) :
    Nat → Cur → Nat → Option Nat → Option Nat → Run (LoopOut F)
  | 0, cur, count, start, «end» => pure ⟨[], cur, count, start, «end»⟩
  | n + 1, cur, count, start, «end» =>
    if cur.rest.isEmpty || !decide (count < length) then pure ⟨[], cur, count, start, «end»⟩
    else do
      let next ← peekCopied w cur
      match next with
      | none => return ⟨[], cur, count, start, «end»⟩
      | some line =>
        if line.depth < rowDepth then return ⟨[], cur, count, start, «end»⟩
        else if line.depth = rowDepth then
          let start' := match start with
            | none => some line.num
            | some s => some s
          let cur ← advanceCopied w cur
          let values := parseDelimitedValues line.content delim
          Run.lift (assertCount values.length fields.length .rowValues ctx.strict)
          let prims ← Run.lift (mapRowValues (F := F) values)
          let out ← copyRows fields delim length rowDepth n cur (count + 1) start' (some line.num)
          return { out with evs := .startObj :: fieldEvents fields prims ++ .endObj :: out.evs }
        else return ⟨[], cur, count, start, «end»⟩

/-- `/repo/src/decode/decoders.rs:233-298` `decode_tabular_array_sync`; the look at the next line in 296 copies nothing. -/
def copyTabular (h : Header) (fields : List FieldName) (cur : Cur) (base : Nat) : Run (List (Ev F) × Cur) := do
  let out ← copyRows (F := F) w ctx fields h.delim h.length (base + 1) (cur.rest.length + 1) cur 0 none none
  Run.lift (assertCount out.count h.length .rows ctx.strict)
  Run.lift (checkBlanks ctx true out.start out.end)
  Run.lift (noExtraRows out.cur.rest.head? (base + 1) h.length h.delim ctx.strict)
  return (out.evs, out.cur)

mutual

/-- `/repo/src/decode/decoders.rs:92-138` `decode_key_value_sync`; the look at the next line in 119 copies nothing. -/
def copyKV : Nat → Str → Cur → Nat → Run (List (Ev F) × Cur)
  | 0, _, _, _ => Run.lift (.error .fuel)
  | fuel + 1, content, cur, base => do
    let hdr ← Run.lift (parseArrayHeaderLine content ',')
    match keyedHeader hdr with
    | some (key, h) =>
      let (evs, cur') ← copyArray fuel h cur base
      return (.key key h.keyQuoted :: evs, cur')
    | none =>
      let (key, e, quoted) ← Run.lift (parseKeyToken content)
      let rest := trim (content.drop e)
      if rest.isEmpty then
        match cur.rest with
        | next :: _ =>
          if base < next.depth then
            let (evs, cur') ← copyFields fuel cur (base + 1) none
            return (.key key quoted :: .startObj :: evs ++ [.endObj], cur')
          else
            return ([.key key quoted, .startObj, .endObj], cur)
        | [] => return ([.key key quoted, .startObj, .endObj], cur)
      else
        let p ← Run.lift (parsePrimitiveToken (F := F) rest)
        return ([.key key quoted, .prim p], cur)

/-- `/repo/src/decode/decoders.rs:140-170` `decode_object_fields_sync`, the loop. -/
def copyFields : Nat → Cur → Nat → Option Nat → Run (List (Ev F) × Cur)
  | 0, _, _, _ => Run.lift (.error .fuel)
  | fuel + 1, cur, base, computed =>
    if cur.rest.isEmpty then pure ([], cur)
    else do
      let next ← peekCopied w cur
      match next with
      | none => return ([], cur)
      | some line =>
        if line.depth < base then return ([], cur)
        else if computed.getD line.depth = line.depth then
          let cur ← advanceCopied w cur
          let (evs, cur') ← copyKV fuel line.content cur line.depth
          let (evs', cur'') ← copyFields fuel cur' base (some line.depth)
          return (evs ++ evs', cur'')
        else return ([], cur)

/-- `/repo/src/decode/decoders.rs:172-203` `decode_array_from_header_sync` (and the part of
`decode_list_array_sync`, lines 341-366, after its loop). -/
def copyArray : Nat → Header → Cur → Nat → Run (List (Ev F) × Cur)
  | 0, _, _, _ => Run.lift (.error .fuel)
  | fuel + 1, h, cur, base =>
    match h.inline with
    | some inline => do
      let evs ← Run.lift (decodeInline (F := F) h inline ctx.strict)
      return (.startArr h.length :: evs ++ [.endArr], cur)
    | none =>
      if (h.fields.getD []).isEmpty then do
        let out ← copyItems fuel h.length (base + 1) cur 0 none none
        Run.lift (assertCount out.count h.length .listItems ctx.strict)
        Run.lift (checkBlanks ctx false out.start out.end)
        Run.lift (noExtraItems out.cur.rest.head? (base + 1) h.length ctx.strict)
        return (.startArr h.length :: out.evs ++ [.endArr], out.cur)
      else do
        let (evs, cur') ← copyTabular (F := F) w ctx h (h.fields.getD []) cur base
        return (.startArr h.length :: evs ++ [.endArr], cur')

/-- The item loop of `/repo/src/decode/decoders.rs:312-339` (`decode_list_array_sync`). -/
def copyItems : Nat → Nat → Nat → Cur → Nat → Option Nat → Option Nat → Run (LoopOut F)
  | 0, _, _, _, _, _, _ => Run.lift (.error .fuel)
  | fuel + 1, length, itemDepth, cur, count, start, «end» =>
    if cur.rest.isEmpty || !decide (count < length) then pure ⟨[], cur, count, start, «end»⟩
    else do
      let next ← peekCopied w cur
      match next with
      | none => return ⟨[], cur, count, start, «end»⟩
      | some line =>
        if line.depth < itemDepth then return ⟨[], cur, count, start, «end»⟩
        else if line.depth == itemDepth && isListItem line.content then
          let start' := match start with
            | none => some line.num
            | some s => some s
          let (evs, cur') ← copyItem fuel cur itemDepth
          let end' := match cur'.last with
            | some l => some l.num
            | none => some line.num
          let out ← copyItems fuel length itemDepth cur' (count + 1) start' end'
          return { out with evs := evs ++ out.evs }
        else return ⟨[], cur, count, start, «end»⟩

/-- `/repo/src/decode/decoders.rs:369-477` `decode_list_item_sync`. -/
def copyItem : Nat → Cur → Nat → Run (List (Ev F) × Cur)
  | 0, _, _ => Run.lift (.error .fuel)
  | fuel + 1, cur, base => do
    let (next, cur1) ← nextCopied w cur
    match next with
    | none => Run.lift (.error .expectedListItem)
    | some line =>
      if line.content = ['-'] then return ([.startObj, .endObj], cur1)
      else if startsWithDash line.content then
        let after := line.content.drop 2
        if (trim after).isEmpty then return ([.startObj, .endObj], cur1)
        else
          let hdr ← Run.lift (parseArrayHeaderLine after ',')
          match isArrayHeaderContent after, hdr with
          | true, some h => copyArray fuel h cur1 base
          | _, _ =>
            match keyedHeader hdr with
            | some (key, h) =>
              if h.fields.isSome then
                let (evs, cur2) ← copyArray fuel h cur1 (base + 1)
                let (evs', cur3) ← copyFollow fuel cur2 (base + 1)
                return (.startObj :: .key key h.keyQuoted :: evs ++ evs' ++ [.endObj], cur3)
              else copyItemRest fuel after cur1 base
            | none => copyItemRest fuel after cur1 base
      else Run.lift (.error .expectedHyphen)

/-- `/repo/src/decode/decoders.rs:448-476`, the end of `decode_list_item_sync`. -/
def copyItemRest : Nat → Str → Cur → Nat → Run (List (Ev F) × Cur)
  | 0, _, _, _ => Run.lift (.error .fuel)
  | fuel + 1, after, cur1, base =>
    if isKeyValueContent after then do
      let (evs, cur2) ← copyKV fuel after cur1 (base + 1)
      let (evs', cur3) ← copyFollow fuel cur2 (base + 1)
      return (.startObj :: evs ++ evs' ++ [.endObj], cur3)
    else do
      let p ← Run.lift (parsePrimitiveToken (F := F) after)
      return ([.prim p], cur1)

/-- The loop over the remaining fields of a list-item object, `/repo/src/decode/decoders.rs:428-442` and `453-467`. -/
def copyFollow : Nat → Cur → Nat → Run (List (Ev F) × Cur)
  | 0, _, _ => Run.lift (.error .fuel)
  | fuel + 1, cur, followDepth =>
    if cur.rest.isEmpty then pure ([], cur)
    else do
      let next ← peekCopied w cur
      match next with
      | none => return ([], cur)
      | some line =>
        if line.depth < followDepth then return ([], cur)
        else if line.depth == followDepth && !startsWithDash line.content then
          let cur ← advanceCopied w cur
          let (evs, cur') ← copyKV fuel line.content cur followDepth
          let (evs', cur'') ← copyFollow fuel cur' followDepth
          return (evs ++ evs', cur'')
        else return ([], cur)

end

/-- The root loop of `/repo/src/decode/decoders.rs:76-86`. -/
def copyRoot : Nat → Cur → Run (List (Ev F) × Cur)
  | 0, _ => Run.lift (.error .fuel)
  | fuel + 1, cur =>
    if cur.rest.isEmpty then pure ([], cur)
    else do
      let next ← peekCopied w cur
      match next with
      | none => return ([], cur)
      | some line =>
        if line.depth ≠ 0 then return ([], cur)
        else
          let cur ← advanceCopied w cur
          let (evs, cur') ← copyKV w ctx fuel line.content cur 0
          let (evs', cur'') ← copyRoot fuel cur'
          return (evs ++ evs', cur'')

/-- `/repo/src/decode/decoders.rs:47-90`, the body of `decode_stream_sync` after scanning. -/
def copyLines (lines : List Line) : Run (List (Ev F)) := do
  let fuel := 5 * lines.length + 5
  let first ← peekCopied w ⟨lines, none⟩
  match first with
  | none => return [.startObj, .endObj]
  | some first =>
    let hdr ← Run.lift (rootHeader first.content)
    let cur ← advanceCopied w ⟨lines, none⟩
    match hdr with
    | some h =>
      let (evs, _) ← copyArray w ctx fuel h cur 0
      return evs
    | none =>
      if cur.rest.isEmpty && !isKeyValueLine first.content then
        let p ← Run.lift (parsePrimitiveToken (F := F) (trim first.content))
        return [.prim p]
      else
        let (evs, cur) ← copyKV w ctx fuel first.content cur 0
        let (evs', _) ← copyRoot w ctx fuel cur
        return .startObj :: evs ++ evs' ++ [.endObj]

end

/-- `/repo/src/decode/decoders.rs:30-90` `decode_stream_sync` with resolved options; the characters of the lines that it copies. -/
def copyStream {F : Type} [F64 F] (indent : Nat) (strict : Bool) (source : List Str) : Run (List (Ev F)) := do
  let (lines, blanks) ← Run.lift (parseLines indent strict source 0)
  copyLines (lineChars source) ⟨strict, blanks⟩ lines

end Toon
