import Verif.Model.JsonText
import Verif.Model.Frames
import Verif.Model.Utf8

/-!
# `/repo/src/cli/json_stringify.rs` with its buffer, its call stack and what it reserves

The same functions as in `Model/JsonText.lean`, closer to the text of the program: one buffer to which the functions append,
loops over positions, a call stack of bounded depth, and the estimate for which memory is reserved first.  A call of one of
the functions that can call each other takes a frame and is one step; when there is no frame left, the run stops with
`overflow`.  `usize` is not bounded here; the command line tool passes an indent below 256.
-/

namespace Toon

section
variable {F : Type}

/-- The match in `/repo/src/cli/json_stringify.rs:19-24`. -/
def estimatePrimitive : Prim F → Nat
  | .null => 4
  | .bool _ => 5
  | .num _ => 20
  | .str s => Utf8.len s + 10

/-- `/repo/src/cli/json_stringify.rs:17-40` `estimate_json_size`; `iter().map(..).sum()` as a loop. -/
def runEstimate (indent : Nat) : Nat → Json F → Run Nat
  | 0, _ => Run.stop .overflow
  | _ + 1, .prim p => do
    tick 1
    pure (estimatePrimitive p)
  | stack + 1, .arr items => do
    tick 1
    let base ← overEach (fun v sum => do
      let n ← runEstimate indent stack v
      pure (sum + n)) items 0
    pure (base + items.length * (2 + indent) + 4)
  | stack + 1, .obj entries => do
    tick 1
    let base ← overEach (fun (e : Str × Json F) sum => do
      let n ← runEstimate indent stack e.2
      pure (sum + (Utf8.len e.1 + 4 + n))) entries 0
    pure (base + entries.length * (2 + indent) + 4)

variable [F64 F] [JsonNum F]

mutual

/-- `/repo/src/cli/json_stringify.rs:42-50` `stringify_value_to_buf`. -/
def runJsonValue (indent : Nat) : Nat → Json F → Nat → Str → Run Str
  | 0, _, _, _ => Run.stop .overflow
  | _ + 1, .prim p, _, buf => do
    tick 1
    pure (buf ++ jsonPrimitive p)
  | stack + 1, .arr values, depth, buf => do
    tick 1
    runJsonArray indent stack values depth buf
  | stack + 1, .obj entries, depth, buf => do
    tick 1
    runJsonObject indent stack entries depth buf

/-- `/repo/src/cli/json_stringify.rs:52-80` `stringify_array_to_buf`. -/
def runJsonArray (indent : Nat) : Nat → List (Json F) → Nat → Str → Run Str
  | 0, _, _, _ => Run.stop .overflow
  | stack + 1, values, depth, buf => do
    tick 1
    if values.isEmpty then pure (buf ++ ['[', ']'])
    else do
      let buf := buf ++ ['[']
      if indent > 0 then do
        let buf ← overEach (fun (e : Json F × Nat) buf => do
          let buf := buf ++ '\n' :: jsonIndent ((depth + 1) * indent)
          let buf ← runJsonValue indent stack e.1 (depth + 1) buf
          pure (if e.2 + 1 < values.length then buf ++ [','] else buf)) values.zipIdx buf
        pure (buf ++ '\n' :: jsonIndent (depth * indent) ++ [']'])
      else do
        let buf ← overEach (fun (e : Json F × Nat) buf => do
          let buf ← runJsonValue indent stack e.1 (depth + 1) buf
          pure (if e.2 + 1 < values.length then buf ++ [','] else buf)) values.zipIdx buf
        pure (buf ++ [']'])

/-- `/repo/src/cli/json_stringify.rs:82-120` `stringify_object_to_buf`. -/
def runJsonObject (indent : Nat) : Nat → List (Str × Json F) → Nat → Str → Run Str
  | 0, _, _, _ => Run.stop .overflow
  | stack + 1, entries, depth, buf => do
    tick 1
    if entries.isEmpty then pure (buf ++ ['{', '}'])
    else do
      let buf := buf ++ ['{']
      if indent > 0 then do
        let buf ← overEach (fun (e : (Str × Json F) × Nat) buf => do
          let buf := buf ++ '\n' :: jsonIndent ((depth + 1) * indent) ++ jsonString e.1.1 ++ [':', ' ']
          let buf ← runJsonValue indent stack e.1.2 (depth + 1) buf
          pure (if e.2 + 1 < entries.length then buf ++ [','] else buf)) entries.zipIdx buf
        pure (buf ++ '\n' :: jsonIndent (depth * indent) ++ ['}'])
      else do
        let buf ← overEach (fun (e : (Str × Json F) × Nat) buf => do
          let buf := buf ++ jsonString e.1.1 ++ [':']
          let buf ← runJsonValue indent stack e.1.2 (depth + 1) buf
          pure (if e.2 + 1 < entries.length then buf ++ [','] else buf)) entries.zipIdx buf
        pure (buf ++ ['}'])

end

/-- A printed text, and how many bytes were reserved for it before. -/
structure Printed where
  reserved : Nat
  lines : List Str
deriving DecidableEq, Repr

/-- `/repo/src/cli/json_stringify.rs:8-14` `json_stringify_lines`. -/
def runJsonLines (stack : Nat) (value : Json F) (indent : Nat) : Run Printed := do
  let estimated ← runEstimate indent stack value
  let buf ← runJsonValue indent stack value 0 []
  pure ⟨estimated, [buf]⟩

end

end Toon
