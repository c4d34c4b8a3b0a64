import Verif.Model.Encoder
import Verif.Model.Api
import Verif.Model.Frames
import Verif.Spec.Resources

/-!
# `/repo/src/encode/encoders.rs` with its output vector, its call stack and the number of values it copies

The same functions as in `Model/Encoder.lean`, closer to the text of the program: one vector of lines to which the functions
append, and a call stack of bounded depth.  A call of one of the functions that can call each other takes a frame; when
there is none left, the run stops with `overflow`.  The depth of the stack is counted in calls, not in bytes.

The steps of a run (`Run`, see `Model/Frames.lean`) are the values that are copied by `clone` and `to_vec`: the copy of a
value copies all the values in it.
-/

namespace Toon

section
variable {F : Type}

/-- The copies of the loop `/repo/src/encode/folding.rs:92-104`: the value of the only entry (line 101). -/
def loopCopies : (budget : Nat) → Json F → Nat
  | 0, _ => 0
  | budget + 1, .obj [(_, v)] => nodes v + loopCopies budget v
  | _ + 1, _ => 0

/-- The copies of `/repo/src/encode/folding.rs:84-117` `collect_single_key_chain`: the start value (line 90), those of the
loop, and the remainder (line 113). -/
def chainCopies (budget : Nat) (value : Json F) : Nat :=
  nodes value + loopCopies budget value +
    match (collectChain budget value).2 with
    | .obj (e :: es) => nodes (.obj (e :: es))
    | _ => 0

/-- The copies of `/repo/src/encode/folding.rs:20-82` `try_fold_key_chain`: those of line 42, if it is reached. -/
def foldCopies (opts : EncOpts) (value : Json F) (flattenDepth : Nat) : Nat :=
  if !opts.fold then 0
  else if !value.isObj then 0
  else if flattenDepth < 2 then 0
  else chainCopies (flattenDepth - 1) value

/-- The condition of `/repo/src/encode/encoders.rs:200-205`. -/
def arraysOfPrims (items : List (Json F)) : Bool :=
  isArrayOfArrays items &&
    items.all (fun item => match item with
      | .arr xs => isArrayOfPrims xs
      | _ => false)

/-- `/repo/src/encode/encoders.rs:622-638` `estimate_line_count`. -/
def estimateLines : Nat → Json F → Run Nat
  | 0, _ => Run.stop .overflow
  | _ + 1, .prim _ => pure 1
  | stack + 1, .arr items => do
    let sum ← overEach (fun v sum => do
      let n ← estimateLines stack v
      pure (sum + n)) items 0
    pure (1 + sum)
  | stack + 1, .obj entries => do
    let sum ← overEach (fun (e : Str × Json F) sum => do
      let n ← estimateLines stack e.2
      pure (sum + n)) entries 0
    pure (max sum 1)

variable [F64 F] (opts : EncOpts)

mutual

/-- `/repo/src/encode/encoders.rs:36-75` `encode_object_lines`. -/
def runObject : Nat → List (Str × Json F) → Nat → Option (List Str) → Option Str → Option Nat → List OutLine → Run (List OutLine)
  | 0, _, _, _, _, _, _ => Run.stop .overflow
  | stack + 1, entries, depth, rlk, pp, remaining, out =>
    let keys := entries.map Prod.fst
    overEach (fun e out => runPair stack keys (rootLiterals depth rlk keys) pp (remaining.getD opts.flattenDepth) e.1 e.2 depth out)
      entries out

/-- `/repo/src/encode/encoders.rs:78-179` `encode_key_value_pair_lines`. -/
def runPair : Nat → List Str → Option (List Str) → Option Str → Nat → Str → Json F → Nat → List OutLine → Run (List OutLine)
  | 0, _, _, _, _, _, _, _, _ => Run.stop .overflow
  | stack + 1, siblings, rlk, pp, fd, key, value, depth, out => do
    tick (foldCopies opts value fd)
    match tryFold key value siblings opts rlk pp fd with
    | some folded =>
      match folded.leaf with
      | .prim p => pure (out ++ [⟨depth, encodeKey folded.foldedKey ++ ':' :: ' ' :: encodePrimitive p opts.delim⟩])
      | .arr items => runArray stack (some folded.foldedKey) items depth out
      | .obj entries =>
        let out := out ++ [⟨depth, encodeKey folded.foldedKey ++ [':']⟩]
        if entries.isEmpty then pure out
        else runObject stack entries (depth + 1) rlk (some (extendPath pp folded.foldedKey)) (some (fd - folded.segmentCount)) out
    | none =>
      match value with
      | .prim p => pure (out ++ [⟨depth, encodeKey key ++ ':' :: ' ' :: encodePrimitive p opts.delim⟩])
      | .arr items => runArray stack (some key) items depth out
      | .obj entries =>
        let out := out ++ [⟨depth, encodeKey key ++ [':']⟩]
        if entries.isEmpty then pure out
        else runObject stack entries (depth + 1) rlk (some (extendPath pp key)) (some fd) out

/-- `/repo/src/encode/encoders.rs:181-221` `encode_array_lines`, with the functions it calls that do not call back: 223-239,
241-260 (which copies every scalar of the array, line 245) and 262-297 (which copies every scalar of the rows, line 288). -/
def runArray : Nat → Option Str → List (Json F) → Nat → List OutLine → Run (List OutLine)
  | 0, _, _, _, _ => Run.stop .overflow
  | stack + 1, key, items, depth, out =>
    if items.isEmpty then pure (out ++ [⟨depth, formatHeader 0 key none opts.delim⟩])
    else if isArrayOfPrims items then do
      tick items.length
      pure (out ++ [⟨depth, encodeInlineArrayLine items opts.delim key⟩])
    else if arraysOfPrims items then
      overEach (fun item out => match item with
        | .arr xs => do
          tick xs.length
          pure (out ++ [⟨depth + 1, dash (encodeInlineArrayLine xs opts.delim none)⟩])
        | _ => pure out) items (out ++ [⟨depth, formatHeader items.length key none opts.delim⟩])
    else
      match (if isArrayOfObjs items then extractTabularHeader items else none) with
      | some header => do
        tick (items.length * header.length)
        pure (out ++ ⟨depth, formatHeader items.length key (some header) opts.delim⟩ :: tabularRows items header (depth + 1) opts.delim)
      | none => runMixed stack key items depth out

/-- `/repo/src/encode/encoders.rs:342-355` `encode_mixed_array_as_list_items_lines`. -/
def runMixed : Nat → Option Str → List (Json F) → Nat → List OutLine → Run (List OutLine)
  | 0, _, _, _, _ => Run.stop .overflow
  | stack + 1, key, items, depth, out =>
    overEach (fun v out => runItem stack v (depth + 1) out) items
      (out ++ [⟨depth, formatHeader items.length key none opts.delim⟩])

/-- `/repo/src/encode/encoders.rs:453-480` `encode_list_item_value_lines`. -/
def runItem : Nat → Json F → Nat → List OutLine → Run (List OutLine)
  | 0, _, _, _ => Run.stop .overflow
  | _ + 1, .prim p, depth, out => pure (out ++ [⟨depth, dash (encodePrimitive p opts.delim)⟩])
  | stack + 1, .arr items, depth, out =>
    if isArrayOfPrims items then do
      tick items.length
      pure (out ++ [⟨depth, dash (encodeInlineArrayLine items opts.delim none)⟩])
    else
      overEach (fun v out => runItem stack v (depth + 1) out) items
        (out ++ [⟨depth, dash (formatHeader items.length none none opts.delim)⟩])
  | stack + 1, .obj entries, depth, out => runObjectItem stack entries depth out

/-- `/repo/src/encode/encoders.rs:357-451` `encode_object_as_list_item_lines`; the copies of lines 368 and 370 are made
before anything is written. -/
def runObjectItem : Nat → List (Str × Json F) → Nat → List OutLine → Run (List OutLine)
  | 0, _, _, _ => Run.stop .overflow
  | _ + 1, [], depth, out => pure (out ++ [⟨depth, ['-']⟩])
  | stack + 1, (firstKey, firstValue) :: rest, depth, out => do
    tick (nodes firstValue + nodesEntries rest)
    let out ←
      match firstValue with
      | .prim p => pure (out ++ [⟨depth, dash (encodeKey firstKey ++ ':' :: ' ' :: encodePrimitive p opts.delim)⟩])
      | .arr items =>
        match (if isArrayOfObjs items then extractTabularHeader items else none) with
        | some header => do
          tick (items.length * header.length)
          pure (out ++ ⟨depth, dash (formatHeader items.length (some firstKey) (some header) opts.delim)⟩ ::
            tabularRows items header (depth + 2) opts.delim)
        | none =>
          if items.isEmpty then
            pure (out ++ [⟨depth, dash (encodeKey firstKey ++ formatHeader 0 none none opts.delim)⟩])
          else if isArrayOfPrims items then do
            tick items.length
            pure (out ++ [⟨depth, dash (encodeKey firstKey ++ encodeInlineArrayLine items opts.delim none)⟩])
          else
            overEach (fun v out => runItem stack v (depth + 2) out) items
              (out ++ [⟨depth, dash (encodeKey firstKey ++ formatHeader items.length none none opts.delim)⟩])
      | .obj entries =>
        let out := out ++ [⟨depth, dash (encodeKey firstKey ++ [':'])⟩]
        if entries.isEmpty then pure out
        else runObject stack entries (depth + 2) none none none out
    if rest.isEmpty then pure out
    else runObject stack rest (depth + 1) none none none out

end

/-- `/repo/src/encode/encoders.rs:15-34` `encode_json_value`, before writing the indentation. -/
def runValue : Nat → Json F → Run (List OutLine)
  | 0, _ => Run.stop .overflow
  | stack + 1, value => do
    let _ ← estimateLines stack value
    match value with
    | .prim p =>
      let encoded := encodePrimitive p opts.delim
      pure (if encoded.isEmpty then [] else [⟨0, encoded⟩])
    | .arr items => runArray opts stack none items 0 []
    | .obj entries => runObject opts stack entries 0 none none none []

/-- `/repo/src/encode/normalize.rs:3-16` `normalize_json_value`, which moves the values and copies none. -/
def runNormalize : Nat → Json F → Run (Json F)
  | 0, _ => Run.stop .overflow
  | _ + 1, .prim p => pure (.prim (normPrim p))
  | stack + 1, .arr items => do
    let out ← overEach (fun v out => do
      let w ← runNormalize stack v
      pure (out ++ [w])) items []
    pure (.arr out)
  | stack + 1, .obj entries => do
    let out ← overEach (fun (e : Str × Json F) out => do
      let w ← runNormalize stack e.2
      pure (out ++ [(e.1, w)])) entries []
    pure (.obj out)

/-- `/repo/src/encode/mod.rs:27-36` `encode_lines` without a replacer. -/
def runEncodeLines : Nat → Json F → Run (List Str)
  | 0, _ => Run.stop .overflow
  | stack + 1, value => do
    let normalized ← runNormalize stack value
    let out ← runValue opts stack normalized
    pure (out.map (renderLine opts.indent))

end

end Toon
