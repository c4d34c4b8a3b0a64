import Verif.Model.Host
import Verif.Model.Replacer
import Verif.Model.EncFrames
import Verif.Spec.Resources

/-!
# The conversions of values and the replacer, with their call stack and what they go over

The same functions as in `Model/Encoder.lean`, `Model/Host.lean`, `Model/Builder.lean` and `Model/Replacer.lean`, closer to the text of
the program: loops that append to what is built, and a call stack of bounded depth.  A call of one of the functions that call
themselves or each other takes a frame; when there is none left, the run stops with `overflow`.  The depth of the stack is counted in
calls, not in bytes; the calls made inside the user's replacer are not counted.  `into_iter().map(..).collect()` is a loop that appends.

The steps of the conversions are their calls, one for each value.  What is a step of the replacer is chosen by `Prices`.
-/

namespace Toon

section
variable {F : Type}

/-- `/repo/src/decode/event_builder.rs:58-69` `node_to_json`. -/
def runNodeToJson : Nat → Node F → Run (Json F)
  | 0, _ => Run.stop .overflow
  | _ + 1, .prim p => do
    tick 1
    pure (.prim p)
  | stack + 1, .arr items => do
    tick 1
    let out ← overEach (fun n out => do
      let v ← runNodeToJson stack n
      pure (out ++ [v])) items []
    pure (.arr out)
  | stack + 1, .obj entries _ => do
    tick 1
    let out ← overEach (fun (e : Str × Node F) out => do
      let v ← runNodeToJson stack e.2
      pure (out ++ [(e.1, v)])) entries []
    pure (.obj out)

variable [F64 F]

/-- `/repo/src/encode/normalize.rs:3-16` `normalize_json_value`; a call counts `visit`. -/
def visitNormalize (visit : Nat) : Nat → Json F → Run (Json F)
  | 0, _ => Run.stop .overflow
  | _ + 1, .prim p => do
    tick visit
    pure (.prim (normPrim p))
  | stack + 1, .arr items => do
    tick visit
    let out ← overEach (fun v out => do
      let v ← visitNormalize visit stack v
      pure (out ++ [v])) items []
    pure (.arr out)
  | stack + 1, .obj entries => do
    tick visit
    let out ← overEach (fun (e : Str × Json F) out => do
      let v ← visitNormalize visit stack e.2
      pure (out ++ [(e.1, v)])) entries []
    pure (.obj out)

/-- `/repo/src/lib.rs:139-167` `From<serde_json::Value> for JsonValue`. -/
def runFromHost : Nat → Json F → Run (Json F)
  | 0, _ => Run.stop .overflow
  | _ + 1, .prim p => do
    tick 1
    pure (fromHost (.prim p))
  | stack + 1, .arr values => do
    tick 1
    let out ← overEach (fun v out => do
      let v ← runFromHost stack v
      pure (out ++ [v])) values []
    pure (.arr out)
  | stack + 1, .obj map => do
    tick 1
    let out ← overEach (fun (e : Str × Json F) out => do
      let v ← runFromHost stack e.2
      pure (out ++ [(e.1, v)])) map []
    pure (.obj out)

/-- `/repo/src/lib.rs:169-190` `From<JsonValue> for serde_json::Value`. -/
def runToHost : Nat → Json F → Run (Json F)
  | 0, _ => Run.stop .overflow
  | _ + 1, .prim p => do
    tick 1
    pure (toHost (.prim p))
  | stack + 1, .arr values => do
    tick 1
    let out ← overEach (fun v out => do
      let v ← runToHost stack v
      pure (out ++ [v])) values []
    pure (.arr out)
  | stack + 1, .obj obj => do
    tick 1
    let map ← overEach (fun (e : Str × Json F) map => do
      let v ← runToHost stack e.2
      pure (mapInsert map e.1 v)) obj []
    pure (.obj map)

omit [F64 F] in
/-- `/repo/src/encode/mod.rs:60-84` `emit_events`; `events` is the vector to which it appends. -/
def runEmit : Nat → Json F → List (Ev F) → Run (List (Ev F))
  | 0, _, _ => Run.stop .overflow
  | _ + 1, .prim p, events => do
    tick 1
    pure (events ++ [.prim p])
  | stack + 1, .arr arr, events => do
    tick 1
    let events ← overEach (fun v events => runEmit stack v events) arr (events ++ [.startArr arr.length])
    pure (events ++ [.endArr])
  | stack + 1, .obj obj, events => do
    tick 1
    let events ← overEach (fun (e : Str × Json F) events =>
      runEmit stack e.2 (events ++ [.key e.1 (!isValidUnquotedKey e.1)])) obj (events ++ [.startObj])
    pure (events ++ [.endObj])

/-- What the steps of a replacer's run are: how much each counts of the calls of the replacer, the values that are normalized or
copied, and the segments of the paths that are put together. -/
structure Prices where
  call : Nat
  visit : Nat
  segment : Nat
deriving DecidableEq, Repr

variable {S : Type} (prices : Prices) (r : Replacer S F)

mutual

/-- `/repo/src/encode/replacer.rs:15-25` `transform_children`. -/
def runChildren : Nat → List PathSeg → Json F → S → Run (Json F × S)
  | 0, _, _, _ => Run.stop .overflow
  | stack + 1, path, .obj entries, s => do
    let es ← runTransformObject stack path entries s
    pure (.obj es.1, es.2)
  | stack + 1, path, .arr values, s => do
    let vs ← runTransformArray stack path values s
    pure (.arr vs.1, vs.2)
  | _ + 1, _, .prim p, s => pure (.prim p, s)

/-- `/repo/src/encode/replacer.rs:27-47` `transform_object`; a path has the segments of the parent's path (line 35), and one more
(line 36). -/
def runTransformObject : Nat → List PathSeg → List (Str × Json F) → S → Run (List (Str × Json F) × S)
  | 0, _, _, _ => Run.stop .overflow
  | stack + 1, path, entries, s =>
    overEach (fun (e : Str × Json F) (acc : List (Str × Json F) × S) => do
      let nextPath := path ++ [.key e.1]
      tick (prices.segment * nextPath.length)
      tick prices.call
      match r e.1 e.2 nextPath acc.2 with
      | (some nextValue, s) => do
        let normalized ← visitNormalize prices.visit stack nextValue
        let transformed ← runChildren stack nextPath normalized s
        pure (acc.1 ++ [(e.1, transformed.1)], transformed.2)
      | (none, s) => pure (acc.1, s)) entries ([], s)

/-- `/repo/src/encode/replacer.rs:49-71` `transform_array`. -/
def runTransformArray : Nat → List PathSeg → List (Json F) → S → Run (List (Json F) × S)
  | 0, _, _, _ => Run.stop .overflow
  | stack + 1, path, values, s =>
    overEach (fun (e : Json F × Nat) (acc : List (Json F) × S) => do
      let nextPath := path ++ [.index e.2]
      tick (prices.segment * nextPath.length)
      tick prices.call
      match r (indexKey e.2) e.1 nextPath acc.2 with
      | (some nextValue, s) => do
        let normalized ← visitNormalize prices.visit stack nextValue
        let transformed ← runChildren stack nextPath normalized s
        pure (acc.1 ++ [transformed.1], transformed.2)
      | (none, s) => pure (acc.1, s)) values.zipIdx ([], s)

end

/-- `/repo/src/encode/replacer.rs:5-13` `apply_replacer`; line 12 copies the root. -/
def runReplacer : Nat → Json F → S → Run (Json F × S)
  | 0, _, _ => Run.stop .overflow
  | stack + 1, root, s => do
    tick prices.call
    match r [] root [] s with
    | (some value, s) => do
      let normalized ← visitNormalize prices.visit stack value
      runChildren prices r stack [] normalized s
    | (none, s) => do
      tick (prices.visit * nodes root)
      runChildren prices r stack [] root s

/-- `/repo/src/encode/mod.rs:27-36` `encode_lines` with a replacer; what the encoder itself copies (`Model/EncFrames.lean`) is no step
here. -/
def runEncodeLinesWith (opts : EncOpts) : Nat → Json F → S → Run (List Str × S)
  | 0, _, _ => Run.stop .overflow
  | stack + 1, value, s => do
    let normalized ← visitNormalize prices.visit stack value
    let replaced ← runReplacer prices r stack normalized s
    let out ← ⟨0, (runValue opts stack replaced.1).result⟩
    pure (out.map (renderLine opts.indent), replaced.2)

end

end Toon
