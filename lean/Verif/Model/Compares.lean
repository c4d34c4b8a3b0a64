import Verif.Model.EncFrames

/-!
# How many keys `/repo/src/encode` compares

For every function of the encoder the number of comparisons of one key with another that it makes.  The functions follow those of
`Model/EncFrames.lean`, with the same stack, and leave out what is written.  Looking a key up in a hash set is not counted.
-/

namespace Toon

section
variable {F : Type}

/-- `/repo/src/encode/encoders.rs:482-484` `object_get`: the entries are searched from the front until the key is found. -/
def getCompares : List (Str × Json F) → Str → Nat
  | [], _ => 0
  | (k, _) :: rest, key => 1 + if k = key then 0 else getCompares rest key

/-- The loop of `/repo/src/encode/encoders.rs:330-337`, which stops at the first column that is missing or holds no primitive. -/
def rowCompares (entries : List (Str × Json F)) : List Str → Nat
  | [] => 0
  | key :: keys => getCompares entries key + if (objGet entries key).any Json.isPrim then rowCompares entries keys else 0

/-- The loop of `/repo/src/encode/encoders.rs:321-338` `is_tabular_array`, which stops at the first row that does not fit. -/
def tableCompares (header : List Str) : List (Json F) → Nat
  | [] => 0
  | row :: rows =>
    (match row with
      | .obj entries => if entries.length = header.length then rowCompares entries header else 0
      | _ => 0) +
    if isTabularRow header row then tableCompares header rows else 0

/-- The test `/repo/src/encode/encoders.rs:208-209`, `375-377`: `is_array_of_objects` and `extract_tabular_header` (299-318). -/
def testCompares (items : List (Json F)) : Nat :=
  if isArrayOfObjs items then
    match items with
    | .obj first :: _ => if first.isEmpty then 0 else tableCompares (first.map Prod.fst) items
    | _ => 0
  else 0

/-- `/repo/src/encode/encoders.rs:275-297` `write_tabular_rows_lines`: every cell is looked up. -/
def rowsCompares (header : List Str) (rows : List (Json F)) : Nat :=
  (rows.map fun row => match row with
    | .obj entries => (header.map fun key => getCompares entries key).sum
    | _ => 0).sum

/-- `/repo/src/encode/folding.rs:62` `siblings.iter().any(…)`. -/
def siblingCompares : List Str → Str → Nat
  | [], _ => 0
  | s :: rest, key => 1 + if s = key then 0 else siblingCompares rest key

/-- `/repo/src/encode/folding.rs:20-82` `try_fold_key_chain`: the siblings, if line 62 is reached. -/
def foldCompares (opts : EncOpts) (key : Str) (value : Json F) (siblings : List Str) (flattenDepth : Nat) : Nat :=
  if !opts.fold then 0
  else if !value.isObj then 0
  else if flattenDepth < 2 then 0
  else
    let segments := key :: (collectChain (flattenDepth - 1) value).1
    if segments.length < 2 then 0
    else if !segments.all isIdentifierSegment then 0
    else siblingCompares siblings (joinWith '.' segments)

variable [F64 F] (opts : EncOpts)

mutual

/-- `/repo/src/encode/encoders.rs:36-75` `encode_object_lines`. -/
def objectCompares : Nat → List (Str × Json F) → Nat → Option (List Str) → Option Str → Option Nat → Nat
  | 0, _, _, _, _, _ => 0
  | stack + 1, entries, depth, rlk, pp, remaining =>
    let keys := entries.map Prod.fst
    (entries.map fun e =>
      pairCompares stack keys (rootLiterals depth rlk keys) pp (remaining.getD opts.flattenDepth) e.1 e.2 depth).sum

/-- `/repo/src/encode/encoders.rs:78-179` `encode_key_value_pair_lines`. -/
def pairCompares : Nat → List Str → Option (List Str) → Option Str → Nat → Str → Json F → Nat → Nat
  | 0, _, _, _, _, _, _, _ => 0
  | stack + 1, siblings, rlk, pp, fd, key, value, depth =>
    foldCompares opts key value siblings fd +
    match tryFold key value siblings opts rlk pp fd with
    | some folded =>
      match folded.leaf with
      | .prim _ => 0
      | .arr items => arrayCompares stack items depth
      | .obj entries =>
        if entries.isEmpty then 0
        else objectCompares stack entries (depth + 1) rlk (some (extendPath pp folded.foldedKey)) (some (fd - folded.segmentCount))
    | none =>
      match value with
      | .prim _ => 0
      | .arr items => arrayCompares stack items depth
      | .obj entries =>
        if entries.isEmpty then 0
        else objectCompares stack entries (depth + 1) rlk (some (extendPath pp key)) (some fd)

/-- `/repo/src/encode/encoders.rs:181-221` `encode_array_lines`. -/
def arrayCompares : Nat → List (Json F) → Nat → Nat
  | 0, _, _ => 0
  | stack + 1, items, depth =>
    if items.isEmpty then 0
    else if isArrayOfPrims items then 0
    else if arraysOfPrims items then 0
    else
      testCompares items +
      match (if isArrayOfObjs items then extractTabularHeader items else none) with
      | some header => rowsCompares header items
      | none => mixedCompares stack items depth

/-- `/repo/src/encode/encoders.rs:342-355` `encode_mixed_array_as_list_items_lines`. -/
def mixedCompares : Nat → List (Json F) → Nat → Nat
  | 0, _, _ => 0
  | stack + 1, items, depth => (items.map fun v => itemCompares stack v (depth + 1)).sum

/-- `/repo/src/encode/encoders.rs:453-480` `encode_list_item_value_lines`: arrays are not tested for being tables. -/
def itemCompares : Nat → Json F → Nat → Nat
  | 0, _, _ => 0
  | _ + 1, .prim _, _ => 0
  | stack + 1, .arr items, depth => if isArrayOfPrims items then 0 else (items.map fun v => itemCompares stack v (depth + 1)).sum
  | stack + 1, .obj entries, depth => objectItemCompares stack entries depth

/-- `/repo/src/encode/encoders.rs:357-451` `encode_object_as_list_item_lines`. -/
def objectItemCompares : Nat → List (Str × Json F) → Nat → Nat
  | 0, _, _ => 0
  | _ + 1, [], _ => 0
  | stack + 1, (_, firstValue) :: rest, depth =>
    (match firstValue with
      | .prim _ => 0
      | .arr items =>
        testCompares items +
        match (if isArrayOfObjs items then extractTabularHeader items else none) with
        | some header => rowsCompares header items
        | none => if isArrayOfPrims items then 0 else (items.map fun v => itemCompares stack v (depth + 2)).sum
      | .obj entries => if entries.isEmpty then 0 else objectCompares stack entries (depth + 2) none none none) +
    if rest.isEmpty then 0 else objectCompares stack rest (depth + 1) none none none

end

/-- `/repo/src/encode/encoders.rs:15-34` `encode_json_value`. -/
def valueCompares : Nat → Json F → Nat
  | 0, _ => 0
  | stack + 1, value =>
    match value with
    | .prim _ => 0
    | .arr items => arrayCompares opts stack items 0
    | .obj entries => objectCompares opts stack entries 0 none none none

/-- `/repo/src/encode/mod.rs:27-36` `encode_lines` without a replacer, in a stack of `stack` calls. -/
def encodeCompares : Nat → Json F → Nat
  | 0, _ => 0
  | stack + 1, value => valueCompares opts stack (normalize value)

end

end Toon
