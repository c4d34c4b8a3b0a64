import Verif.Model.Expand
import Verif.Model.Frames
import Verif.Spec.Resources

/-!
# `/repo/src/decode/expand.rs` with its call stack, the keys it compares and the values it copies

The same functions as in `Model/Expand.lean`, with a call stack of bounded depth as in `Model/Frames.lean`: a call of one of
the functions that can call each other takes a frame.  The steps of a run are the comparisons of two keys and the values
that are copied by `clone`; the copy of a value copies all the values in it.
-/

namespace Toon

section
variable {F : Type}

/-- How many keys `/repo/src/decode/expand.rs:197-199` `find_entry_index` compares: all up to the first equal one. -/
def keysCompared (key : Str) : List (Str × Node F) → Nat
  | [] => 0
  | (k, _) :: rest => if k = key then 1 else keysCompared key rest + 1

variable (strict : Bool)

/-- `/repo/src/decode/expand.rs:164-195` `merge_objects`; line 175 copies the value with the same key, whatever follows. -/
def runMerge : Nat → Nat → List (Str × Node F) → List (Str × Node F) → Run (List (Str × Node F))
  | 0, _, _, _ => Run.stop .overflow
  | stack + 1, depth, target, source =>
    if depth ≥ maxExpandDepth then Run.lift (.error .expandDepth)
    else
      overEach (fun (e : Str × Node F) target => do
        tick (keysCompared e.1 target)
        match entryGet target e.1 with
        | none => pure (target ++ [e])
        | some existing => do
          tick (nodes (nodeToJson existing))
          match existing, e.2 with
          | .obj es q, .obj src _ => do
            let merged ← runMerge stack (depth + 1) es src
            pure (entrySet target e.1 (.obj merged q))
          | _, value =>
            if strict then Run.lift (.error (.pathConflict (.merge e.1 (nodeKind existing) (nodeKind value))))
            else pure (entrySet target e.1 value)) source target

/-- `/repo/src/decode/expand.rs:131-162` `insert_literal_entry`; the copy is made in line 142. -/
def runLiteral : Nat → Nat → List (Str × Node F) → Str → Node F → Run (List (Str × Node F))
  | 0, _, _, _, _ => Run.stop .overflow
  | stack + 1, depth, entries, key, value =>
    if depth ≥ maxExpandDepth then Run.lift (.error .expandDepth)
    else do
      tick (keysCompared key entries)
      match entryGet entries key with
      | none => pure (entries ++ [(key, value)])
      | some existing => do
        tick (nodes (nodeToJson existing))
        match existing, value with
        | .obj es q, .obj src _ => do
          let merged ← runMerge strict stack (depth + 1) es src
          pure (entrySet entries key (.obj merged q))
        | _, value =>
          if strict then Run.lift (.error (.pathConflict (.merge key (nodeKind existing) (nodeKind value))))
          else pure (entrySet entries key value)

/-- `/repo/src/decode/expand.rs:77-129` `insert_path_entries`, which changes the objects on the path in place. -/
def runPath : Nat → Nat → List (Str × Node F) → List Str → Node F → Run (List (Str × Node F))
  | 0, _, _, _, _ => Run.stop .overflow
  | stack + 1, depth, entries, segments, value =>
    if depth ≥ maxExpandDepth then Run.lift (.error .expandDepth)
    else
      match segments with
      | [] => pure entries
      | [seg] => runLiteral strict stack (depth + 1) entries seg value
      | key :: segs => do
        tick (keysCompared key entries)
        match entryGet entries key with
        | some (.obj es q) => do
          let es' ← runPath stack (depth + 1) es segs value
          pure (entrySet entries key (.obj es' q))
        | some existing =>
          if strict then Run.lift (.error (.pathConflict (.segment key (nodeKind existing))))
          else do
            let es' ← runPath stack (depth + 1) [] segs value
            pure (entrySet entries key (.obj es' []))
        | none => do
          let es' ← runPath stack (depth + 1) [] segs value
          pure (entries ++ [(key, .obj es' [])])

mutual

/-- `/repo/src/decode/expand.rs:29-44` `expand_paths_safe_inner`. -/
def runInner : Nat → Nat → Node F → Run (Node F)
  | 0, _, _ => Run.stop .overflow
  | stack + 1, depth, value =>
    if depth ≥ maxExpandDepth then Run.lift (.error .expandDepth)
    else
      match value with
      | .arr items => do
        let expanded ← overEach (fun item expanded => do
          let item ← runInner stack (depth + 1) item
          pure (expanded ++ [item])) items []
        pure (.arr expanded)
      | .obj entries quoted => do
        let expanded ← runExpandObject stack (depth + 1) entries quoted
        pure (.obj expanded [])
      | .prim p => pure (.prim p)

/-- `/repo/src/decode/expand.rs:46-75` `expand_object`. -/
def runExpandObject : Nat → Nat → List (Str × Node F) → List Str → Run (List (Str × Node F))
  | 0, _, _, _ => Run.stop .overflow
  | stack + 1, depth, entries, quoted =>
    if depth ≥ maxExpandDepth then Run.lift (.error .expandDepth)
    else
      overEach (fun (e : Str × Node F) expanded => do
        let value ← runInner stack (depth + 1) e.2
        match expandSegments e.1 quoted with
        | some segments => runPath strict stack (depth + 1) expanded segments value
        | none => runLiteral strict stack (depth + 1) expanded e.1 value) entries []

end

/-- `/repo/src/decode/expand.rs:25-27` `expand_paths_safe`. -/
def runExpand : Nat → Node F → Run (Node F)
  | 0, _ => Run.stop .overflow
  | stack + 1, value => runInner strict stack 0 value

end

end Toon
