import Verif.Model.Str

/-!
# `/repo/src/decode/scanner.rs`
-/

namespace Toon

/-- `/repo/src/decode/scanner.rs:6-13` `ParsedLine`, without the fields `raw` and `indent` that
are never read after scanning. -/
structure Line where
  depth : Nat
  content : Str
  num : Nat
deriving DecidableEq, Repr

/-- `/repo/src/decode/scanner.rs:140-146` `StreamingLineCursor`: the lines not yet consumed and
the last consumed line.  The blank-line list never changes and is kept in the context. -/
structure Cur where
  rest : List Line
  last : Option Line
deriving DecidableEq, Repr

/-- `/repo/src/decode/scanner.rs:132-138` `compute_depth_from_indent`. -/
def computeDepth (indentSpaces indentSize : Nat) : Nat :=
  if indentSize = 0 then 0 else indentSpaces / indentSize

/-- Result of scanning one line: `Ok(None)` (a blank line, recorded in `blank_lines`) or
`Ok(Some(line))`. -/
inductive Scanned where
  | blank
  | line (l : Line)
deriving DecidableEq, Repr

/-- `/repo/src/decode/scanner.rs:42-110` `parse_line_incremental`.  `num` is the line number
(the incremented counter of the state).  Of a recorded blank line only its number is used
later. -/
def parseLine (raw : Str) (num indentSize : Nat) (strict : Bool) : Except Err Scanned :=
  let indent := (raw.takeWhile (· == ' ')).length
  let content := raw.drop indent
  if (trim content).isEmpty then .ok .blank
  else
    let line := Scanned.line { depth := computeDepth indent indentSize, content := content, num := num }
    if strict then
      if (raw.takeWhile (fun c => c == ' ' || c == '\t')).contains '\t' then .error (.tabsInIndent num)
      else if indentSize = 0 then
        if indent > 0 then .error (.badIndent num indentSize indent) else .ok line
      else if indent > 0 && indent % indentSize != 0 then .error (.badIndent num indentSize indent)
      else .ok line
    else .ok line

/-- `/repo/src/decode/scanner.rs:117-130` `parse_lines_sync`; `num` is the number of lines
already scanned.  Returns the lines and the numbers of the blank lines. -/
def parseLines (indentSize : Nat) (strict : Bool) : List Str → Nat → Except Err (List Line × List Nat)
  | [], _ => .ok ([], [])
  | raw :: rest, num =>
    match parseLine raw (num + 1) indentSize strict with
    | .error e => .error e
    | .ok sc =>
      match parseLines indentSize strict rest (num + 1) with
      | .error e => .error e
      | .ok (ls, bs) =>
        match sc with
        | .blank => .ok (ls, (num + 1) :: bs)
        | .line l => .ok (l :: ls, bs)

end Toon
