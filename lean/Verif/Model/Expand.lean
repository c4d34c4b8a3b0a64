import Verif.Model.Builder
import Verif.Model.Shared

/-!
# `/repo/src/decode/expand.rs`

`&mut Vec` parameters become returned lists.  A failed call leaves partially changed vectors in
Rust, but the error is always propagated to the caller of the library, so the partial state is
not observable.
-/

namespace Toon

variable {F : Type}

/-- `/repo/src/decode/expand.rs:11` `MAX_EXPAND_DEPTH`. -/
def maxExpandDepth : Nat := 256

/-- `/repo/src/decode/expand.rs:215-221` `node_type_name`. -/
def nodeKind : Node F → NodeKind
  | .prim _ => .primitive
  | .arr _ => .array
  | .obj _ _ => .object

/-- The value at `find_entry_index` (`/repo/src/decode/expand.rs:197-199`): first entry with
the key. -/
def entryGet (entries : List (Str × Node F)) (key : Str) : Option (Node F) :=
  match entries with
  | [] => none
  | (k, v) :: rest => if k = key then some v else entryGet rest key

/-- `entries[index].1 = value` for `index = find_entry_index(entries, key)`. -/
def entrySet (entries : List (Str × Node F)) (key : Str) (value : Node F) : List (Str × Node F) :=
  match entries with
  | [] => []
  | (k, v) :: rest => if k = key then (k, value) :: rest else (k, v) :: entrySet rest key value

mutual
/-- `/repo/src/decode/expand.rs:164-195` `merge_objects`, per source value: merging the object
`source` into `target` (`quoted_keys` of the target are kept). -/
def mergeInto (strict : Bool) (depth : Nat) (target : List (Str × Node F)) :
    (source : Node F) → Except Err (List (Str × Node F))
  | .obj entries _ => if depth ≥ maxExpandDepth then .error .expandDepth
      else mergeEntries strict depth target entries
  | .prim _ => .error .expectedObject
  | .arr _ => .error .expectedObject
/-- The loop of `/repo/src/decode/expand.rs:173-193`. -/
def mergeEntries (strict : Bool) (depth : Nat) (target : List (Str × Node F)) :
    (source : List (Str × Node F)) → Except Err (List (Str × Node F))
  | [] => .ok target
  | (key, value) :: rest =>
    match entryGet target key with
    | none => mergeEntries strict depth (target ++ [(key, value)]) rest
    | some (.obj es q) =>
      match value with
      | .obj _ _ =>
        match mergeInto strict (depth + 1) es value with
        | .error e => .error e
        | .ok merged => mergeEntries strict depth (entrySet target key (.obj merged q)) rest
      | _ => if strict then .error (.pathConflict (.merge key .object (nodeKind value)))
          else mergeEntries strict depth (entrySet target key value) rest
    | some existing => if strict then .error (.pathConflict (.merge key (nodeKind existing) (nodeKind value)))
        else mergeEntries strict depth (entrySet target key value) rest
end

/-- `/repo/src/decode/expand.rs:131-162` `insert_literal_entry`. -/
def insertLiteral (strict : Bool) (depth : Nat) (entries : List (Str × Node F)) (key : Str)
    (value : Node F) : Except Err (List (Str × Node F)) :=
  if depth ≥ maxExpandDepth then .error .expandDepth
  else
    match entryGet entries key with
    | none => .ok (entries ++ [(key, value)])
    | some (.obj es q) =>
      match value with
      | .obj _ _ =>
        match mergeInto strict (depth + 1) es value with
        | .error e => .error e
        | .ok merged => .ok (entrySet entries key (.obj merged q))
      | _ => if strict then .error (.pathConflict (.merge key .object (nodeKind value)))
          else .ok (entrySet entries key value)
    | some existing => if strict then .error (.pathConflict (.merge key (nodeKind existing) (nodeKind value)))
        else .ok (entrySet entries key value)

/-- `/repo/src/decode/expand.rs:77-129` `insert_path_entries`. -/
def insertPath (strict : Bool) (depth : Nat) (entries : List (Str × Node F)) :
    (segments : List Str) → (value : Node F) → Except Err (List (Str × Node F))
  | [], _ => if depth ≥ maxExpandDepth then .error .expandDepth else .ok entries
  | [seg], value =>
    if depth ≥ maxExpandDepth then .error .expandDepth
    else insertLiteral strict (depth + 1) entries seg value
  | key :: segs, value =>
    if depth ≥ maxExpandDepth then .error .expandDepth
    else
      match entryGet entries key with
      | some (.obj es q) =>
        match insertPath strict (depth + 1) es segs value with
        | .error e => .error e
        | .ok es' => .ok (entrySet entries key (.obj es' q))
      | some existing =>
        if strict then .error (.pathConflict (.segment key (nodeKind existing)))
        else
          match insertPath strict (depth + 1) [] segs value with
          | .error e => .error e
          | .ok es' => .ok (entrySet entries key (.obj es' []))
      | none =>
        match insertPath strict (depth + 1) [] segs value with
        | .error e => .error e
        | .ok es' => .ok (entries ++ [(key, .obj es' [])])

/-- The condition of `/repo/src/decode/expand.rs:58-65`: the segments a key is split into, or
`none` when it is inserted literally. -/
def expandSegments (key : Str) (quoted : List Str) : Option (List Str) :=
  if key.contains '.' && !quoted.contains key then
    let segments := splitOn '.' key
    if segments.all isIdentifierSegment then some segments else none
  else none

mutual
/-- `/repo/src/decode/expand.rs:29-44` `expand_paths_safe_inner`. -/
def expandInner (strict : Bool) : Node F → Nat → Except Err (Node F)
  | .arr items, depth =>
    if depth ≥ maxExpandDepth then .error .expandDepth
    else
      match expandItems strict items (depth + 1) with
      | .error e => .error e
      | .ok items' => .ok (.arr items')
  | .obj entries quoted, depth =>
    if depth ≥ maxExpandDepth then .error .expandDepth
    else if depth + 1 ≥ maxExpandDepth then .error .expandDepth
    else
      match expandEntries strict quoted entries (depth + 1) [] with
      | .error e => .error e
      | .ok es => .ok (.obj es [])
  | .prim p, depth => if depth ≥ maxExpandDepth then .error .expandDepth else .ok (.prim p)
/-- The loop of `/repo/src/decode/expand.rs:36-38`. -/
def expandItems (strict : Bool) : List (Node F) → Nat → Except Err (List (Node F))
  | [], _ => .ok []
  | n :: ns, depth =>
    match expandInner strict n depth with
    | .error e => .error e
    | .ok n' =>
      match expandItems strict ns depth with
      | .error e => .error e
      | .ok ns' => .ok (n' :: ns')
/-- The loop of `expand_object`, `/repo/src/decode/expand.rs:56-72`; `expanded` is the vector
being built. -/
def expandEntries (strict : Bool) (quoted : List Str) :
    List (Str × Node F) → Nat → List (Str × Node F) → Except Err (List (Str × Node F))
  | [], _, expanded => .ok expanded
  | (key, value) :: rest, depth, expanded =>
    match expandInner strict value (depth + 1) with
    | .error e => .error e
    | .ok value' =>
      let r := match expandSegments key quoted with
        | some segments => insertPath strict (depth + 1) expanded segments value'
        | none => insertLiteral strict (depth + 1) expanded key value'
      match r with
      | .error e => .error e
      | .ok expanded' => expandEntries strict quoted rest depth expanded'
end

/-- `/repo/src/decode/expand.rs:25-27` `expand_paths_safe`. -/
def expandPathsSafe (strict : Bool) (value : Node F) : Except Err (Node F) :=
  expandInner strict value 0

end Toon
