import Verif.Model.Decoder

/-!
# `/repo/src/decode/decoders.rs` with its mutable state, its call stack and the number of its steps

The same functions as in `Model/Decoder.lean`, closer to the text of the program: one event vector to which the functions
append, a cursor that is an index into the vector of lines, `while` loops, and a call stack of bounded depth.  A call of
one of the functions that can call each other takes a frame; when there is none left, the run stops with `overflow`.
The depth of the stack is counted in calls, not in bytes.

A step is a call of one of these functions, a pass through one of their loops (the last one, in which the loop ends,
included), or a comparison with the number of a blank line.  What happens inside a line (parsing) is no step.

Loops are bounded by the number of lines that are left: every pass consumes a line, and a loop ends when there are none.
-/

namespace Toon

/-- How a run can end without a result. -/
inductive Stop where
  | overflow
  | failed (e : Err)
deriving DecidableEq, Repr

/-- The operator `?` on the result of a function that is not one of the recursive ones. -/
def liftErr {α : Type} : Except Err α → Except Stop α
  | .error e => .error (.failed e)
  | .ok a => .ok a

/-- A run: its steps and how it ends. -/
structure Run (α : Type) where
  steps : Nat
  result : Except Stop α

/-- One run after another; after an error nothing is run. -/
instance : Monad Run where
  pure a := ⟨0, .ok a⟩
  bind x f := ⟨x.steps + (match x.result with | .ok a => (f a).steps | .error _ => 0),
    match x.result with | .ok a => (f a).result | .error e => .error e⟩

/-- `n` steps. -/
def tick (n : Nat) : Run Unit := ⟨n, .ok ()⟩

/-- A function that is not one of the recursive ones, with `?`. -/
def Run.lift {α : Type} (x : Except Err α) : Run α := ⟨0, liftErr x⟩

/-- The end of a run. -/
def Run.stop {α : Type} (e : Stop) : Run α := ⟨0, .error e⟩

/-- A loop `for x in xs` in which every pass changes what is built. -/
def overEach {α β : Type} (f : α → β → Run β) : List α → β → Run β
  | [], out => pure out
  | x :: xs, out => do
    let out ← f x out
    overEach f xs out

/-- The event vector and of `/repo/src/decode/scanner.rs:140-146` `StreamingLineCursor` the fields that change. -/
structure Machine (F : Type) where
  events : List (Ev F)
  index : Nat
  last : Option Line
deriving DecidableEq

section
variable {F : Type}

/-- `events.push(..)`, one or more times. -/
def Machine.push (m : Machine F) (evs : List (Ev F)) : Machine F := { m with events := m.events ++ evs }

/-- `/repo/src/decode/scanner.rs:165-168` `peek_sync`. -/
def Machine.peek (lines : List Line) (m : Machine F) : Option Line := lines[m.index]?

/-- `/repo/src/decode/scanner.rs:169-175` `advance_sync`, and `177-186` `next_sync` without its result, which is `peek`. -/
def Machine.advance (lines : List Line) (m : Machine F) : Machine F :=
  match lines[m.index]? with
  | some line => { m with index := m.index + 1, last := some line }
  | none => m

/-- `/repo/src/decode/scanner.rs:193-196` `at_end_sync`. -/
def Machine.atEnd (lines : List Line) (m : Machine F) : Bool := decide (lines.length ≤ m.index)

/-- How many lines are left. -/
def Machine.left (lines : List Line) (m : Machine F) : Nat := lines.length - m.index

/-- How many blank lines `/repo/src/decode/validation.rs:90-92` compares with: all up to the first one in the range. -/
def blanksExamined (ctx : Ctx) (start «end» : Option Nat) : Nat :=
  match start, «end» with
  | some s, some e =>
    if ctx.strict then min (ctx.blanks.findIdx (fun b => s < b && b < e) + 1) ctx.blanks.length else 0
  | _, _ => 0

variable [F64 F] (ctx : Ctx) (lines : List Line)

/-! ## Loops -/

/-- `/repo/src/decode/decoders.rs:146-167`, the loop of `decode_object_fields_sync`; `kv` is `decode_key_value_sync`. -/
def fieldsLoop (kv : Str → Machine F → Nat → Run (Machine F)) (base : Nat) :
    Nat → Option Nat → Machine F → Run (Machine F)
  | 0, _, m => do
    tick 1
    pure m
  | n + 1, computed, m => do
    tick 1
    if m.atEnd lines then pure m
    else
      match m.peek lines with
      | none => pure m
      | some line =>
        if line.depth < base then pure m
        else
          let computed' := match computed with
            | none => some line.depth
            | some c => some c
          if some line.depth = computed' then
            let m' ← kv line.content (m.advance lines) line.depth
            fieldsLoop kv base n computed' m'
          else pure m

/-- `/repo/src/decode/decoders.rs:428-442` and `453-467`, the loop over the remaining entries of a list element. -/
def entriesLoop (kv : Str → Machine F → Nat → Run (Machine F)) (followDepth : Nat) : Nat → Machine F → Run (Machine F)
  | 0, m => do
    tick 1
    pure m
  | n + 1, m => do
    tick 1
    if m.atEnd lines then pure m
    else
      match m.peek lines with
      | none => pure m
      | some line =>
        if line.depth < followDepth then pure m
        else if line.depth == followDepth && !startsWithDash line.content then
          let m' ← kv line.content (m.advance lines) followDepth
          entriesLoop kv followDepth n m'
        else pure m

/-- `/repo/src/decode/decoders.rs:76-86`, the loop over the entries of the root. -/
def topLoop (kv : Str → Machine F → Nat → Run (Machine F)) : Nat → Machine F → Run (Machine F)
  | 0, m => do
    tick 1
    pure m
  | n + 1, m => do
    tick 1
    if m.atEnd lines then pure m
    else
      match m.peek lines with
      | none => pure m
      | some line =>
        if line.depth ≠ 0 then pure m
        else
          let m' ← kv line.content (m.advance lines) 0
          topLoop kv n m'

/-- What the loops over rows and elements change besides the machine: the number of elements, the numbers of the first
and the last line. -/
structure Counts where
  count : Nat
  start : Option Nat
  «end» : Option Nat
deriving DecidableEq

/-- `/repo/src/decode/decoders.rs:312-339`, the loop of `decode_list_array_sync`; `item` is `decode_list_item_sync`. -/
def itemsLoop (item : Machine F → Nat → Run (Machine F)) (length itemDepth : Nat) :
    Nat → Counts → Machine F → Run (Machine F × Counts)
  | 0, c, m => do
    tick 1
    pure (m, c)
  | n + 1, c, m => do
    tick 1
    if m.atEnd lines || !decide (c.count < length) then pure (m, c)
    else
      match m.peek lines with
      | none => pure (m, c)
      | some line =>
        if line.depth < itemDepth then pure (m, c)
        else if line.depth == itemDepth && isListItem line.content then
          let start := match c.start with
            | none => some line.num
            | some s => some s
          let m' ← item m itemDepth
          let «end» := match m'.last with
            | some l => some l.num
            | none => some line.num
          itemsLoop item length itemDepth n ⟨c.count + 1, start, «end»⟩ m'
        else pure (m, c)

/-- `/repo/src/decode/decoders.rs:245-280`, the loop of `decode_tabular_array_sync`. -/
def rowsLoop (fields : List FieldName) (delim : Char) (length rowDepth : Nat) :
    Nat → Counts → Machine F → Run (Machine F × Counts)
  | 0, c, m => do
    tick 1
    pure (m, c)
  | n + 1, c, m => do
    tick 1
    if m.atEnd lines || !decide (c.count < length) then pure (m, c)
    else
      match m.peek lines with
      | none => pure (m, c)
      | some line =>
        if line.depth < rowDepth then pure (m, c)
        else if line.depth == rowDepth then
          let start := match c.start with
            | none => some line.num
            | some s => some s
          let m' := m.advance lines
          let values := parseDelimitedValues line.content delim
          Run.lift (assertCount values.length fields.length .rowValues ctx.strict)
          let prims ← Run.lift (mapRowValues (F := F) values)
          rowsLoop fields delim length rowDepth n ⟨c.count + 1, start, some line.num⟩
            (m'.push (.startObj :: fieldEvents fields prims ++ [.endObj]))
        else pure (m, c)

/-- `/repo/src/decode/decoders.rs:233-298` `decode_tabular_array_sync`.  It calls no recursive function: no frame is
counted for it, nor for the inline form. -/
def tabularFrom (h : Header) (fields : List FieldName) (m : Machine F) (base : Nat) : Run (Machine F) := do
  let (m, c) ← rowsLoop ctx lines fields h.delim h.length (base + 1) (m.left lines) ⟨0, none, none⟩ m
  Run.lift (assertCount c.count h.length .rows ctx.strict)
  tick (blanksExamined ctx c.start c.end)
  Run.lift (checkBlanks ctx true c.start c.end)
  Run.lift (noExtraRows (m.peek lines) (base + 1) h.length h.delim ctx.strict)
  return m

/-- `/repo/src/decode/decoders.rs:448-476`, the end of `decode_list_item_sync`; `kv` is `decode_key_value_sync`. -/
def itemRest (kv : Str → Machine F → Nat → Run (Machine F)) (after : Str) (m : Machine F) (base : Nat) : Run (Machine F) :=
  if isKeyValueContent after then do
    let m ← kv after (m.push [.startObj]) (base + 1)
    let m ← entriesLoop lines kv (base + 1) (m.left lines) m
    return m.push [.endObj]
  else do
    let p ← Run.lift (parsePrimitiveToken (F := F) after)
    return m.push [.prim p]

/-! ## Calls -/

mutual

/-- `/repo/src/decode/decoders.rs:92-138` `decode_key_value_sync`. -/
def callKV : Nat → Str → Machine F → Nat → Run (Machine F)
  | 0, _, _, _ => Run.stop .overflow
  | stack + 1, content, m, base => do
    tick 1
    let hdr ← Run.lift (parseArrayHeaderLine content ',')
    match keyedHeader hdr with
    | some (key, h) => callArray stack h (m.push [.key key h.keyQuoted]) base
    | none =>
      let (key, e, quoted) ← Run.lift (parseKeyToken content)
      let rest := trim (content.drop e)
      let m := m.push [.key key quoted]
      if rest.isEmpty then
        match m.peek lines with
        | some next =>
          if base < next.depth then
            let m ← callFields stack (m.push [.startObj]) (base + 1)
            return m.push [.endObj]
          else return m.push [.startObj, .endObj]
        | none => return m.push [.startObj, .endObj]
      else
        let p ← Run.lift (parsePrimitiveToken (F := F) rest)
        return m.push [.prim p]

/-- `/repo/src/decode/decoders.rs:140-170` `decode_object_fields_sync`. -/
def callFields : Nat → Machine F → Nat → Run (Machine F)
  | 0, _, _ => Run.stop .overflow
  | stack + 1, m, base => do
    tick 1
    fieldsLoop lines (callKV stack) base (m.left lines) none m

/-- `/repo/src/decode/decoders.rs:172-203` `decode_array_from_header_sync`. -/
def callArray : Nat → Header → Machine F → Nat → Run (Machine F)
  | 0, _, _, _ => Run.stop .overflow
  | stack + 1, h, m, base => do
    tick 1
    let m := m.push [.startArr h.length]
    match h.inline with
    | some inline =>
      let evs ← Run.lift (decodeInline (F := F) h inline ctx.strict)
      return (m.push evs).push [.endArr]
    | none =>
      if (h.fields.getD []).isEmpty then
        let m ← callList stack h m base
        return m.push [.endArr]
      else
        let m ← tabularFrom ctx lines h (h.fields.getD []) m base
        return m.push [.endArr]

/-- `/repo/src/decode/decoders.rs:300-367` `decode_list_array_sync`. -/
def callList : Nat → Header → Machine F → Nat → Run (Machine F)
  | 0, _, _, _ => Run.stop .overflow
  | stack + 1, h, m, base => do
    tick 1
    let (m, c) ← itemsLoop lines (callItem stack) h.length (base + 1) (m.left lines) ⟨0, none, none⟩ m
    Run.lift (assertCount c.count h.length .listItems ctx.strict)
    tick (blanksExamined ctx c.start c.end)
    Run.lift (checkBlanks ctx false c.start c.end)
    Run.lift (noExtraItems (m.peek lines) (base + 1) h.length ctx.strict)
    return m

/-- `/repo/src/decode/decoders.rs:369-477` `decode_list_item_sync`. -/
def callItem : Nat → Machine F → Nat → Run (Machine F)
  | 0, _, _ => Run.stop .overflow
  | stack + 1, m, base => do
    tick 1
    match m.peek lines with
    | none => Run.stop (.failed .expectedListItem)
    | some line =>
      let m := m.advance lines
      if line.content = ['-'] then return m.push [.startObj, .endObj]
      else if startsWithDash line.content then
        let after := line.content.drop 2
        if (trim after).isEmpty then return m.push [.startObj, .endObj]
        else
          -- lines 399-404; `parse_array_header_line` is pure, so one call stands for both
          let hdr ← Run.lift (parseArrayHeaderLine after ',')
          match isArrayHeaderContent after, hdr with
          | true, some h => callArray stack h m base
          | _, _ =>
            match keyedHeader hdr with
            | some (key, h) =>
              if h.fields.isSome then
                let m ← callArray stack h (m.push [.startObj, .key key h.keyQuoted]) (base + 1)
                let m ← entriesLoop lines (callKV stack) (base + 1) (m.left lines) m
                return m.push [.endObj]
              else itemRest lines (callKV stack) after m base
            | none => itemRest lines (callKV stack) after m base
      else Run.stop (.failed .expectedHyphen)

end

/-- `/repo/src/decode/decoders.rs:47-90`, the body of `decode_stream_sync` after scanning, in a stack of `stack` frames,
its own included. -/
def runLines (stack : Nat) : Run (List (Ev F)) :=
  match stack with
  | 0 => Run.stop .overflow
  | stack + 1 => do
    tick 1
    let m : Machine F := ⟨[], 0, none⟩
    match m.peek lines with
    | none => return (m.push [.startObj, .endObj]).events
    | some first =>
      let hdr ← Run.lift (rootHeader first.content)
      match hdr with
      | some h =>
        let m ← callArray ctx lines stack h (m.advance lines) 0
        return m.events
      | none =>
        let m := m.advance lines
        if m.atEnd lines && !isKeyValueLine first.content then
          let p ← Run.lift (parsePrimitiveToken (F := F) (trim first.content))
          return (m.push [.prim p]).events
        else
          let m ← callKV ctx lines stack first.content (m.push [.startObj]) 0
          let m ← topLoop lines (callKV ctx lines stack) (m.left lines) m
          return (m.push [.endObj]).events

/-- `/repo/src/decode/decoders.rs:30-90` `decode_stream_sync` with resolved options, in a stack of `stack` frames. -/
def runStream (stack indent : Nat) (strict : Bool) (source : List Str) : Run (List (Ev F)) := do
  let (lines, blanks) ← Run.lift (parseLines indent strict source 0)
  runLines ⟨strict, blanks⟩ lines stack

end

end Toon
