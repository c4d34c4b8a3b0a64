import Verif.Model.Api

/-!
# The encode replacer: `/repo/src/encode/replacer.rs`

The replacer is a user function `Fn(&str, &JsonValue, &[PathSegment]) -> Option<JsonValue>`.  It
may keep state behind interior mutability, so the model threads a state `S` through all calls.

The recursion of the code follows the values *returned* by the replacer, so it need not terminate.
The model bounds its depth by `fuel` and returns `none` when the bound is reached: the code
terminates with a result iff some `fuel` gives that result.
-/

namespace Toon

/-- `/repo/src/options.rs:59-63` `PathSegment`. -/
inductive PathSeg where
  | key (k : Str)
  | index (i : Nat)
deriving DecidableEq, Repr

/-- `/repo/src/options.rs:6-7` `EncodeReplacer`, with the state of the closure made explicit. -/
abbrev Replacer (S F : Type) := Str → Json F → List PathSeg → S → Option (Json F) × S

/-- `usize::to_string`, as in `/repo/src/encode/replacer.rs:60`. -/
def indexKey (i : Nat) : Str := (toString i).toList

section
variable {S F : Type} [F64 F]

/-- `/repo/src/encode/replacer.rs:27-47` `transform_object`; `child` is `transform_children`. -/
def transformObject (child : List PathSeg → Json F → S → Option (Json F × S))
    (r : Replacer S F) (path : List PathSeg) :
    List (Str × Json F) → S → Option (List (Str × Json F) × S)
  | [], s => some ([], s)
  | (key, value) :: rest, s =>
    let nextPath := path ++ [.key key]
    match r key value nextPath s with
    | (some nextValue, s) =>
      match child nextPath (normalize nextValue) s with
      | none => none
      | some (transformed, s) =>
        match transformObject child r path rest s with
        | none => none
        | some (result, s) => some ((key, transformed) :: result, s)
    | (none, s) => transformObject child r path rest s

/-- `/repo/src/encode/replacer.rs:49-71` `transform_array`; `idx` is the counter of
`enumerate`. -/
def transformArray (child : List PathSeg → Json F → S → Option (Json F × S))
    (r : Replacer S F) (path : List PathSeg) :
    Nat → List (Json F) → S → Option (List (Json F) × S)
  | _, [], s => some ([], s)
  | idx, value :: rest, s =>
    let nextPath := path ++ [.index idx]
    match r (indexKey idx) value nextPath s with
    | (some nextValue, s) =>
      match child nextPath (normalize nextValue) s with
      | none => none
      | some (transformed, s) =>
        match transformArray child r path (idx + 1) rest s with
        | none => none
        | some (result, s) => some (transformed :: result, s)
    | (none, s) => transformArray child r path (idx + 1) rest s

/-- `/repo/src/encode/replacer.rs:15-25` `transform_children`. -/
def transformChildren (r : Replacer S F) :
    (fuel : Nat) → List PathSeg → Json F → S → Option (Json F × S)
  | 0, _, _, _ => none
  | fuel + 1, path, .obj entries, s =>
    match transformObject (transformChildren r fuel) r path entries s with
    | none => none
    | some (es, s) => some (.obj es, s)
  | fuel + 1, path, .arr items, s =>
    match transformArray (transformChildren r fuel) r path 0 items s with
    | none => none
    | some (vs, s) => some (.arr vs, s)
  | _ + 1, _, .prim p, s => some (.prim p, s)

/-- `/repo/src/encode/replacer.rs:5-13` `apply_replacer`. -/
def applyReplacer (r : Replacer S F) (fuel : Nat) (root : Json F) (s : S) :
    Option (Json F × S) :=
  match r [] root [] s with
  | (some value, s) => transformChildren r fuel [] (normalize value) s
  | (none, s) => transformChildren r fuel [] root s

/-- `/repo/src/encode/mod.rs:27-36` `encode_lines` with a replacer. -/
def encodeLinesWith (opts : EncOpts) (r : Replacer S F) (fuel : Nat) (v : Json F) (s : S) :
    Option (List Str × S) :=
  match applyReplacer r fuel (normalize v) s with
  | none => none
  | some (replaced, s) => some (encodeJsonValue opts replaced, s)

/-- `/repo/src/encode/mod.rs:42-58` `encode_stream_events` with a replacer. -/
def encodeStreamEventsWith (r : Replacer S F) (fuel : Nat) (v : Json F) (s : S) :
    Option (List (Ev F) × S) :=
  match applyReplacer r fuel (normalize v) s with
  | none => none
  | some (replaced, s) => some (emitEvents replaced, s)

end

end Toon
