import Verif.Model.EncFrames

/-!
# The paths that `/repo/src/encode` puts together

For every function of the encoder the number of characters of the paths that it copies: the dotted path of every entry, which is put
together whether or not keys are folded, and what `try_fold_key_chain` puts together.  The functions follow those of
`Model/EncFrames.lean`, with the same stack, and leave out what is written.  Copies of whole values (`Model/EncFrames.lean`) are not
counted.
-/

namespace Toon

section
variable {F : Type}

/-- `/repo/src/encode/encoders.rs:48-58`: the dotted keys of the root go into a set. -/
def rootPaths (depth : Nat) (rlk : Option (List Str)) (keys : List Str) : Nat :=
  if depth = 0 && rlk.isNone then ((keys.filter (·.contains '.')).map List.length).sum else 0

/-- `/repo/src/encode/folding.rs:20-82` `try_fold_key_chain`: the first key (line 88), the folded key (52-60), and the absolute path if
there is a prefix (65-68). -/
def foldPaths (opts : EncOpts) (key : Str) (value : Json F) (siblings : List Str) (pp : Option Str) (flattenDepth : Nat) : Nat :=
  if !opts.fold then 0
  else if !value.isObj then 0
  else if flattenDepth < 2 then 0
  else
    let segments := key :: (collectChain (flattenDepth - 1) value).1
    key.length +
    if segments.length < 2 then 0
    else if !segments.all isIdentifierSegment then 0
    else
      let foldedKey := joinWith '.' segments
      foldedKey.length +
      if siblings.contains foldedKey then 0
      else
        match pp with
        | none => 0
        | some _ => (extendPath pp foldedKey).length

variable [F64 F] (opts : EncOpts)

mutual

/-- `/repo/src/encode/encoders.rs:36-75` `encode_object_lines`. -/
def objectPaths : Nat → List (Str × Json F) → Nat → Option (List Str) → Option Str → Option Nat → Nat
  | 0, _, _, _, _, _ => 0
  | stack + 1, entries, depth, rlk, pp, remaining =>
    let keys := entries.map Prod.fst
    rootPaths depth rlk keys +
      (entries.map fun e =>
        pairPaths stack keys (rootLiterals depth rlk keys) pp (remaining.getD opts.flattenDepth) e.1 e.2 depth).sum

/-- `/repo/src/encode/encoders.rs:78-179` `encode_key_value_pair_lines`: the path of the entry (89-90), and the path of a folded key
(131-135). -/
def pairPaths : Nat → List Str → Option (List Str) → Option Str → Nat → Str → Json F → Nat → Nat
  | 0, _, _, _, _, _, _, _ => 0
  | stack + 1, siblings, rlk, pp, fd, key, value, depth =>
    (extendPath pp key).length + foldPaths opts key value siblings pp fd +
    match tryFold key value siblings opts rlk pp fd with
    | some folded =>
      match folded.leaf with
      | .prim _ => 0
      | .arr items => arrayPaths stack items depth
      | .obj entries =>
        if entries.isEmpty then 0
        else (extendPath pp folded.foldedKey).length +
          objectPaths stack entries (depth + 1) rlk (some (extendPath pp folded.foldedKey)) (some (fd - folded.segmentCount))
    | none =>
      match value with
      | .prim _ => 0
      | .arr items => arrayPaths stack items depth
      | .obj entries =>
        if entries.isEmpty then 0
        else objectPaths stack entries (depth + 1) rlk (some (extendPath pp key)) (some fd)

/-- `/repo/src/encode/encoders.rs:181-221` `encode_array_lines`. -/
def arrayPaths : Nat → List (Json F) → Nat → Nat
  | 0, _, _ => 0
  | stack + 1, items, depth =>
    if items.isEmpty then 0
    else if isArrayOfPrims items then 0
    else if arraysOfPrims items then 0
    else
      match (if isArrayOfObjs items then extractTabularHeader items else none) with
      | some _ => 0
      | none => mixedPaths stack items depth

/-- `/repo/src/encode/encoders.rs:342-355` `encode_mixed_array_as_list_items_lines`. -/
def mixedPaths : Nat → List (Json F) → Nat → Nat
  | 0, _, _ => 0
  | stack + 1, items, depth => (items.map fun v => itemPaths stack v (depth + 1)).sum

/-- `/repo/src/encode/encoders.rs:453-480` `encode_list_item_value_lines`. -/
def itemPaths : Nat → Json F → Nat → Nat
  | 0, _, _ => 0
  | _ + 1, .prim _, _ => 0
  | stack + 1, .arr items, depth => if isArrayOfPrims items then 0 else (items.map fun v => itemPaths stack v (depth + 1)).sum
  | stack + 1, .obj entries, depth => objectItemPaths stack entries depth

/-- `/repo/src/encode/encoders.rs:357-451` `encode_object_as_list_item_lines`: the first entry has no path. -/
def objectItemPaths : Nat → List (Str × Json F) → Nat → Nat
  | 0, _, _ => 0
  | _ + 1, [], _ => 0
  | stack + 1, (_, firstValue) :: rest, depth =>
    (match firstValue with
      | .prim _ => 0
      | .arr items =>
        match (if isArrayOfObjs items then extractTabularHeader items else none) with
        | some _ => 0
        | none => if isArrayOfPrims items then 0 else (items.map fun v => itemPaths stack v (depth + 2)).sum
      | .obj entries => if entries.isEmpty then 0 else objectPaths stack entries (depth + 2) none none none) +
    if rest.isEmpty then 0 else objectPaths stack rest (depth + 1) none none none

end

/-- `/repo/src/encode/encoders.rs:15-34` `encode_json_value`. -/
def valuePaths : Nat → Json F → Nat
  | 0, _ => 0
  | stack + 1, value =>
    match value with
    | .prim _ => 0
    | .arr items => arrayPaths opts stack items 0
    | .obj entries => objectPaths opts stack entries 0 none none none

/-- `/repo/src/encode/mod.rs:27-36` `encode_lines` without a replacer, in a stack of `stack` calls. -/
def encodePaths : Nat → Json F → Nat
  | 0, _ => 0
  | stack + 1, value => valuePaths opts stack (normalize value)

end

end Toon
