import Verif.Model.Api
import Verif.Model.AsyncEncode

/-!
# Incremental decode stream: `/repo/src/decode/async_decode.rs`

`&mut self` methods return their result together with the new state; a `?` in the code returns
early with the state as it is at that point.
-/

namespace Toon

/-- `/repo/src/decode/async_decode.rs:45-54` `DecoderState`. -/
inductive DState where
  | initial
  | simpleObject (baseDepth : Nat)
  | arrayMode
  | finished
deriving DecidableEq, Repr

/-- `/repo/src/decode/async_decode.rs:72-93` `AsyncDecodeStream`.  The options are parameters of
the functions below.  The field `error` is never set, so it is left out; of `scan_state` the line
counter and, in `blanks`, the line numbers of the records of blank lines
(`/repo/src/decode/scanner.rs:58-66`) are kept: nothing reads the records; of a buffered line only
its raw text is read. -/
structure DecodeStream (F : Type) where
  lines : List Str
  lineNumber : Nat
  queue : List (Ev F)
  state : DState
  contexts : List Nat
  buffer : List Str
  exhausted : Bool
  lastDepth : Option Nat
  blanks : List Nat

variable {F : Type} [F64 F]

/-- `/repo/src/decode/async_decode.rs:97-111` `new`. -/
def DecodeStream.new (lines : List Str) : DecodeStream F :=
  { lines, lineNumber := 0, queue := [], state := .initial, contexts := [], buffer := [],
    exhausted := false, lastDepth := none, blanks := [] }

/-- `Ok(self.event_queue.pop_front())`. -/
def DecodeStream.pop (st : DecodeStream F) : Except Err (Option (Ev F)) × DecodeStream F :=
  match st.queue with
  | [] => (.ok none, st)
  | e :: q => (.ok (some e), { st with queue := q })

/-- `/repo/src/decode/async_decode.rs:286-304` `is_key_value_line`. -/
def asyncIsKeyValueLine (content : Str) : Bool :=
  if startsWithDash content then false
  else if content.head? = some '"' then
    match findClosingQuote content 0 with
    | some closing => (content.drop (closing + 1)).contains ':'
    | none => false
  else content.contains ':' && isKeyValueContent content

/-- `/repo/src/decode/async_decode.rs:249-283` `process_key_value_line`; `raw` is the text of the
line. -/
def DecodeStream.keyValueLine (st : DecodeStream F) (line : Line) (raw : Str) :
    Except Err Unit × DecodeStream F :=
  let content := line.content
  if startsWithDash content then
    (.ok (), { st with state := .arrayMode, buffer := st.buffer ++ [raw] })
  else
    match parseKeyToken content with
    | .error e => (.error e, st)
    | .ok (key, e, quoted) =>
      let rest := trim (content.drop e)
      if rest.isEmpty then
        (.ok (), { st with state := .arrayMode, buffer := st.buffer ++ [raw] })
      else
        let st := { st with queue := st.queue ++ [.key key quoted] }
        match parsePrimitiveToken (F := F) rest with
        | .error e => (.error e, st)
        | .ok p => (.ok (), { st with queue := st.queue ++ [.prim p] })

/-- `is_array_header_content(..) && parse_array_header_line(..)?.is_some()`,
`/repo/src/decode/async_decode.rs:179-180, 231-232`. -/
def asyncHeader (content : Str) : Except Err Bool :=
  if isArrayHeaderContent content then
    match parseArrayHeaderLine content ',' with
    | .error e => .error e
    | .ok h => .ok h.isSome
  else .ok false

/-- `/repo/src/decode/async_decode.rs:177-204` `process_initial_line`. -/
def DecodeStream.initialLine (st : DecodeStream F) (line : Line) (raw : Str) :
    Except Err (Option (Ev F)) × DecodeStream F :=
  match asyncHeader line.content with
  | .error e => (.error e, st)
  | .ok true => (.ok none, { st with state := .arrayMode, buffer := st.buffer ++ [raw] })
  | .ok false =>
    if asyncIsKeyValueLine line.content then
      let st := { st with state := .simpleObject 0, contexts := 0 :: st.contexts,
                          queue := st.queue ++ [Ev.startObj] }
      match st.keyValueLine line raw with
      | (.error e, st) => (.error e, st)
      | (.ok (), st) => DecodeStream.pop { st with lastDepth := some line.depth }
    else
      let st := { st with state := .finished }
      match parsePrimitiveToken (F := F) (trim line.content) with
      | .error e => (.error e, st)
      | .ok p => (.ok (some (.prim p)), st)

/-- The context loop of `/repo/src/decode/async_decode.rs:215-227`: the remaining contexts and the
`EndObject` events. -/
def closeContexts (current base : Nat) : List Nat → List Nat × List (Ev F)
  | [] => ([], [])
  | d :: ds =>
    if d ≥ current && d > base then
      let (ds', evs) := closeContexts current base ds
      (ds', .endObj :: evs)
    else (d :: ds, [])

/-- `/repo/src/decode/async_decode.rs:214-228`, the handling of a decreased depth in
`process_simple_object_line`. -/
def DecodeStream.closeTo (st : DecodeStream F) (depth base : Nat) : DecodeStream F :=
  match st.lastDepth with
  | none => st
  | some last =>
    if depth < last then
      { st with contexts := (closeContexts (F := F) depth base st.contexts).1,
                queue := st.queue ++ (closeContexts depth base st.contexts).2 }
    else st

/-- `/repo/src/decode/async_decode.rs:207-246` `process_simple_object_line`. -/
def DecodeStream.objectLine (st : DecodeStream F) (line : Line) (raw : Str) (base : Nat) :
    Except Err (Option (Ev F)) × DecodeStream F :=
  let st := st.closeTo line.depth base
  match asyncHeader line.content with
  | .error e => (.error e, st)
  | .ok true => DecodeStream.pop { st with state := .arrayMode, buffer := st.buffer ++ [raw] }
  | .ok false =>
    match st.keyValueLine line raw with
    | (.error e, st) => (.error e, st)
    | (.ok (), st) => DecodeStream.pop { st with lastDepth := some line.depth }

/-- The line loop of `/repo/src/decode/async_decode.rs:335-341`: the remaining lines are parsed and
the non-blank ones buffered. -/
def DecodeStream.drain (indent : Nat) (strict : Bool) : List Str → DecodeStream F →
    Except Err Unit × DecodeStream F
  | [], st => (.ok (), { st with lines := [] })
  | raw :: rest, st =>
    match parseLine raw (st.lineNumber + 1) indent strict with
    | .error e => (.error e, { st with lines := rest, lineNumber := st.lineNumber + 1 })
    | .ok .blank =>
      DecodeStream.drain indent strict rest
        { st with lineNumber := st.lineNumber + 1, blanks := st.blanks ++ [st.lineNumber + 1] }
    | .ok (.line _) =>
      DecodeStream.drain indent strict rest
        { st with lineNumber := st.lineNumber + 1, buffer := st.buffer ++ [raw] }

/-- `/repo/src/decode/async_decode.rs:331-361` `batch_decode_remaining`. -/
def DecodeStream.batch (indent : Nat) (strict : Bool) (st : DecodeStream F) :
    Except Err (Option (Ev F)) × DecodeStream F :=
  match DecodeStream.drain indent strict st.lines st with
  | (.error e, st) => (.error e, st)
  | (.ok (), st) =>
    match decodeStream (F := F) indent strict st.buffer with
    | .error e => (.error e, st)
    | .ok events =>
      DecodeStream.pop { st with queue := st.queue ++ events, buffer := [], contexts := [],
                                 state := .finished }

/-- `/repo/src/decode/async_decode.rs:307-328` `finalize`. -/
def DecodeStream.finalize (indent : Nat) (strict : Bool) (st : DecodeStream F) :
    Except Err (Option (Ev F)) × DecodeStream F :=
  if !st.buffer.isEmpty || st.state == .arrayMode then st.batch indent strict
  else
    let queue := st.queue ++ st.contexts.map fun _ => Ev.endObj
    let queue := if st.state == .initial then queue ++ [.startObj, .endObj] else queue
    DecodeStream.pop { st with contexts := [], queue := queue, state := .finished }

/-- `/repo/src/decode/async_decode.rs:124-174` `process_next`. -/
def DecodeStream.processNext (indent : Nat) (strict : Bool) (st : DecodeStream F) :
    Except Err (Option (Ev F)) × DecodeStream F :=
  match st.queue with
  | e :: q => (.ok (some e), { st with queue := q })
  | [] =>
    if st.state = .finished then (.ok none, st)
    else if st.exhausted then st.finalize indent strict
    else
      match st.lines with
      | [] => DecodeStream.finalize indent strict { st with exhausted := true }
      | raw :: rest =>
        let num := st.lineNumber + 1
        let st := { st with lines := rest, lineNumber := num }
        match parseLine raw num indent strict with
        | .error e => (.error e, st)
        | .ok .blank => (.ok none, { st with blanks := st.blanks ++ [num] })
        | .ok (.line line) =>
          match st.state with
          | .initial => st.initialLine line raw
          | .simpleObject base => st.objectLine line raw base
          | .arrayMode => (.ok none, { st with buffer := st.buffer ++ [raw] })
          | .finished => (.ok none, st)

/-- The loop of `poll_next`, `/repo/src/decode/async_decode.rs:367-384`; `fuel` bounds the number of
iterations, the outer `none` means that it ran out. -/
def DecodeStream.pollLoop (indent : Nat) (strict : Bool) :
    (fuel : Nat) → DecodeStream F → Option (Option (Except Err (Ev F)) × DecodeStream F)
  | 0, _ => none
  | fuel + 1, st =>
    match st.processNext indent strict with
    | (.ok (some e), st) => some (some (.ok e), st)
    | (.ok none, st) =>
      if st.state == .finished && st.queue.isEmpty then some (none, st)
      else DecodeStream.pollLoop indent strict fuel st
    | (.error e, st) => some (some (.error e), st)

/-- `/repo/src/decode/async_decode.rs:367-384` `poll_next`.  `lines + 3` iterations are enough
(`C34_poll_returns`); the value after `getD` is never used. -/
def DecodeStream.poll (indent : Nat) (strict : Bool) (st : DecodeStream F) :
    Option (Except Err (Ev F)) × DecodeStream F :=
  (DecodeStream.pollLoop indent strict (st.lines.length + 3) st).getD (none, st)

/-- `/repo/src/decode/async_decode.rs:393-409` `try_decode_stream_async`: the lines are counted, then
decoded by the synchronous decoder. -/
def decodeStreamAsync (indent : Nat) (strict : Bool) (lines : List Str) : Except Err (List (Ev F)) :=
  decodeStream indent strict lines

/-- `/repo/src/decode/async_decode.rs:430-457` `try_decode_async`. -/
def decodeAsync (opts : DecOpts) (input : Str) : Except Err (Json F) := do
  let events ← decodeStreamAsync (F := F) opts.indent opts.strict (splitOn '\n' input)
  let node ← buildNode events
  let node ← if opts.expand then expandPathsSafe opts.strict node else pure node
  return nodeToJson node

end Toon
