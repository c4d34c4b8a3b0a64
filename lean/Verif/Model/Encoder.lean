import Verif.Model.Shared

/-!
# `/repo/src/encode/`: primitives, normalization, key folding, encoders, events
-/

namespace Toon

section prims
variable {F : Type} [F64 F]

/-- `/repo/src/encode/primitives.rs:85-93` `format_number`. -/
def formatNumber (x : F) : Str :=
  if F64.isZero x then ['0']
  else if !F64.isFinite x then "null".toList
  else F64.display x

/-- `/repo/src/encode/primitives.rs:19-25` `encode_string_literal`. -/
def encodeStringLiteral (s : Str) (delim : Char) : Str :=
  if isSafeUnquoted s delim then s else '"' :: escapeString s ++ ['"']

/-- `/repo/src/encode/primitives.rs:9-17` `encode_primitive`. -/
def encodePrimitive (p : Prim F) (delim : Char) : Str :=
  match p with
  | .null => "null".toList
  | .bool true => "true".toList
  | .bool false => "false".toList
  | .num x => formatNumber x
  | .str s => encodeStringLiteral s delim

/-- `/repo/src/encode/primitives.rs:27-33` `encode_key`. -/
def encodeKey (key : Str) : Str :=
  if isValidUnquotedKey key then key else '"' :: escapeString key ++ ['"']

/-- `/repo/src/encode/primitives.rs:35-49` `encode_and_join_primitives`. -/
def encodeAndJoin (ps : List (Prim F)) (delim : Char) : Str :=
  joinWith delim (ps.map (encodePrimitive · delim))

/-- `/repo/src/encode/primitives.rs:51-83` `format_header`. -/
def formatHeader (length : Nat) (key : Option Str) (fields : Option (List Str)) (delim : Char) : Str :=
  (match key with
    | some k => encodeKey k
    | none => []) ++
  (if delim = ',' then '[' :: natDigits length ++ [']']
    else '[' :: natDigits length ++ [delim, ']']) ++
  (match fields with
    | some fs => '{' :: joinWith delim (fs.map encodeKey) ++ ['}']
    | none => []) ++
  [':']

/-- `/repo/src/encode/normalize.rs:18-32` `normalize_primitive`. -/
def normPrim (p : Prim F) : Prim F :=
  match p with
  | .num x =>
    if !F64.isFinite x then .null
    else if F64.isZero x then .num F64.zero
    else .num x
  | p => p

mutual
/-- `/repo/src/encode/normalize.rs:3-16` `normalize_json_value`. -/
def normalize : Json F → Json F
  | .prim p => .prim (normPrim p)
  | .arr items => .arr (normalizeItems items)
  | .obj entries => .obj (normalizeEntries entries)
def normalizeItems : List (Json F) → List (Json F)
  | [] => []
  | v :: vs => normalize v :: normalizeItems vs
def normalizeEntries : List (Str × Json F) → List (Str × Json F)
  | [] => []
  | (k, v) :: es => (k, normalize v) :: normalizeEntries es
end

end prims

section shapes
variable {F : Type}

/-- `/repo/src/encode/normalize.rs:34-37` `is_json_primitive`. -/
def Json.isPrim : Json F → Bool
  | .prim _ => true
  | _ => false
/-- `/repo/src/encode/normalize.rs:39-42` `is_json_array`. -/
def Json.isArr : Json F → Bool
  | .arr _ => true
  | _ => false
/-- `/repo/src/encode/normalize.rs:44-47` `is_json_object`. -/
def Json.isObj : Json F → Bool
  | .obj _ => true
  | _ => false

/-- `/repo/src/encode/normalize.rs:54-59` `is_array_of_primitives`. -/
def isArrayOfPrims (items : List (Json F)) : Bool := items.all Json.isPrim
/-- `/repo/src/encode/normalize.rs:61-64` `is_array_of_arrays`. -/
def isArrayOfArrays (items : List (Json F)) : Bool := items.all Json.isArr
/-- `/repo/src/encode/normalize.rs:66-71` `is_array_of_objects`. -/
def isArrayOfObjs (items : List (Json F)) : Bool := items.all Json.isObj

/-- `/repo/src/encode/encoders.rs:482-484` `object_get`. -/
def objGet (entries : List (Str × Json F)) (key : Str) : Option (Json F) :=
  match entries with
  | [] => none
  | (k, v) :: rest => if k = key then some v else objGet rest key

/-- The row test of `/repo/src/encode/encoders.rs:321-337`. -/
def isTabularRow (header : List Str) (row : Json F) : Bool :=
  match row with
  | .obj entries =>
    entries.length == header.length &&
      header.all (fun key =>
        match objGet entries key with
        | some v => v.isPrim
        | none => false)
  | _ => false

/-- `/repo/src/encode/encoders.rs:320-340` `is_tabular_array`. -/
def isTabularArray (rows : List (Json F)) (header : List Str) : Bool :=
  rows.all (isTabularRow header)

/-- `/repo/src/encode/encoders.rs:299-318` `extract_tabular_header`. -/
def extractTabularHeader (rows : List (Json F)) : Option (List Str) :=
  match rows with
  | .obj first :: _ =>
    if first.isEmpty then none
    else
      let header := first.map Prod.fst
      if isTabularArray rows header then some header else none
  | _ => none

end shapes

section folding
variable {F : Type}

/-- The loop of `/repo/src/encode/folding.rs:92-104` in `collect_single_key_chain`: `budget` is
`max_depth - segments.len()`.  Returns the further segments and the final value. -/
def collectChain : (budget : Nat) → Json F → List Str × Json F
  | 0, v => ([], v)
  | budget + 1, .obj [(k, v)] =>
    let (segs, leaf) := collectChain budget v
    (k :: segs, leaf)
  | _ + 1, v => ([], v)

/-- `/repo/src/encode/folding.rs:10-16` `FoldResult`.  `remainder` is not stored: it is
`Some(leaf)` exactly when the leaf is a non-empty object (lines 106-116). -/
structure FoldResult (F : Type) where
  foldedKey : Str
  leaf : Json F
  segmentCount : Nat

/-- A path extended by a key, `/repo/src/encode/encoders.rs:89-90`, `131-135`, and
`/repo/src/encode/folding.rs:65-68`. -/
def extendPath (p : Option Str) (key : Str) : Str :=
  match p with
  | none => key
  | some p => p ++ '.' :: key

/-- `/repo/src/encode/folding.rs:20-82` `try_fold_key_chain`. -/
def tryFold (key : Str) (value : Json F) (siblings : List Str) (opts : EncOpts)
    (rootLiteralKeys : Option (List Str)) (pathPrefix : Option Str) (flattenDepth : Nat) :
    Option (FoldResult F) :=
  if !opts.fold then none
  else if !value.isObj then none
  else if flattenDepth < 2 then none
  else
    let chain := collectChain (flattenDepth - 1) value
    let segments := key :: chain.1
    if segments.length < 2 then none
    else if !segments.all isIdentifierSegment then none
    else
      let foldedKey := joinWith '.' segments
      if siblings.contains foldedKey then none
      else
        match rootLiteralKeys with
        | some ks => if ks.contains (extendPath pathPrefix foldedKey) then none
            else some ⟨foldedKey, chain.2, segments.length⟩
        | none => some ⟨foldedKey, chain.2, segments.length⟩

theorem collectChain_size (budget : Nat) (v : Json F) :
    sizeOf (collectChain budget v).2 ≤ sizeOf v := by
  fun_induction collectChain budget v with
  | case1 v => simp
  | case2 budget k v segs leaf h ih =>
    simp only [h] at ih ⊢
    simp
    omega
  | case3 => simp

theorem collectChain_lt (budget : Nat) (v : Json F)
    (h : (collectChain budget v).1 ≠ []) : sizeOf (collectChain budget v).2 < sizeOf v := by
  fun_induction collectChain budget v with
  | case1 v => simp at h
  | case2 budget k v segs leaf hc =>
    have := collectChain_size budget v
    simp only [hc] at this ⊢
    simp
    omega
  | case3 => simp at h

/-- The leaf of a fold is a proper part of the folded value (used for termination). -/
theorem tryFold_size {key : Str} {value : Json F} {siblings : List Str} {opts : EncOpts}
    {rlk : Option (List Str)} {pp : Option Str} {fd : Nat} {r : FoldResult F}
    (h : tryFold key value siblings opts rlk pp fd = some r) : sizeOf r.leaf < sizeOf value := by
  have key2 : ∀ c : List Str × Json F, ¬ (key :: c.1).length < 2 → c.1 ≠ [] := by
    intro c h; cases hc : c.1 <;> simp_all
  unfold tryFold at h
  simp only at h
  split at h; contradiction
  split at h; contradiction
  split at h; contradiction
  split at h; contradiction
  rename_i hlen
  split at h; contradiction
  split at h; contradiction
  have hlt := collectChain_lt (fd - 1) value (key2 _ hlen)
  split at h
  · split at h
    · contradiction
    · simp only [Option.some.injEq] at h; subst h; exact hlt
  · simp only [Option.some.injEq] at h; subst h; exact hlt

end folding

/-- An output line: nesting depth and content.  The Rust helpers `indented_*`
(`/repo/src/encode/encoders.rs:486-618`) write `indent * depth` spaces followed by the content;
`renderLine` does that once at the end. -/
structure OutLine where
  depth : Nat
  content : Str
deriving DecidableEq, Repr

/-- `/repo/src/encode/encoders.rs:486-496` `indented_line` (the saturating arithmetic, which
matters only beyond 2^64 spaces, is not modelled). -/
def renderLine (indent : Nat) (l : OutLine) : Str :=
  List.replicate (indent * l.depth) ' ' ++ l.content

section encoder
variable {F : Type} [F64 F]

/-- The primitives of an array (`filter_map` of `/repo/src/encode/encoders.rs:242-248`). -/
def primsOf : List (Json F) → List (Prim F)
  | [] => []
  | .prim p :: vs => p :: primsOf vs
  | _ :: vs => primsOf vs

/-- `/repo/src/encode/encoders.rs:241-260` `encode_inline_array_line`. -/
def encodeInlineArrayLine (items : List (Json F)) (delim : Char) (key : Option Str) : Str :=
  let header := formatHeader items.length key none delim
  if (primsOf items).isEmpty then header
  else header ++ ' ' :: encodeAndJoin (primsOf items) delim

/-- The values of one row in header order, `/repo/src/encode/encoders.rs:284-292`; the two panics
are explicit errors here. -/
def rowPrims (entries : List (Str × Json F)) : List Str → Except Err (List (Prim F))
  | [] => .ok []
  | key :: keys =>
    match objGet entries key with
    | none => .error .panicMissingKey
    | some (.prim p) =>
      match rowPrims entries keys with
      | .error e => .error e
      | .ok ps => .ok (p :: ps)
    | some _ => .error .panicNotPrimitive

/-- The values of one row (total version used by the encoder: a panic is an empty row; it is
proved that `rowPrims` never fails where the encoder uses it). -/
def rowValues (entries : List (Str × Json F)) (header : List Str) : List (Prim F) :=
  match rowPrims entries header with
  | .ok ps => ps
  | .error _ => []

/-- `/repo/src/encode/encoders.rs:275-297` `write_tabular_rows_lines`. -/
def tabularRows (rows : List (Json F)) (header : List Str) (depth : Nat) (delim : Char) :
    List OutLine :=
  rows.filterMap fun row =>
    match row with
    | .obj entries => some ⟨depth, encodeAndJoin (rowValues entries header) delim⟩
    | _ => none

/-- The prefix of list items, `"- "`. -/
def dash (s : Str) : Str := '-' :: ' ' :: s

/-- The root literal keys in force, `/repo/src/encode/encoders.rs:48-58`. -/
def rootLiterals (depth : Nat) (rlk : Option (List Str)) (keys : List Str) : Option (List Str) :=
  if depth = 0 && rlk.isNone then some (keys.filter (·.contains '.')) else rlk

mutual

/-- `/repo/src/encode/encoders.rs:36-75` `encode_object_lines`. -/
def encodeObject (opts : EncOpts) (entries : List (Str × Json F)) (depth : Nat)
    (rlk : Option (List Str)) (pp : Option Str) (remaining : Option Nat) : List OutLine :=
  let keys := entries.map Prod.fst
  encodeEntries opts keys (rootLiterals depth rlk keys) pp (remaining.getD opts.flattenDepth)
    entries depth
termination_by (sizeOf entries, 3)

/-- The loop of `/repo/src/encode/encoders.rs:62-74`. -/
def encodeEntries (opts : EncOpts) (siblings : List Str) (rlk : Option (List Str))
    (pp : Option Str) (fd : Nat) (entries : List (Str × Json F)) (depth : Nat) : List OutLine :=
  match entries with
  | [] => []
  | (k, v) :: rest =>
    encodeKeyValue opts siblings rlk pp fd k v depth ++
      encodeEntries opts siblings rlk pp fd rest depth
termination_by (sizeOf entries, 2)

/-- `/repo/src/encode/encoders.rs:78-179` `encode_key_value_pair_lines`. -/
def encodeKeyValue (opts : EncOpts) (siblings : List Str) (rlk : Option (List Str))
    (pp : Option Str) (fd : Nat) (key : Str) (value : Json F) (depth : Nat) : List OutLine :=
  match hf : tryFold key value siblings opts rlk pp fd with
  | some folded =>
    match _hl : folded.leaf with
    | .prim p => [⟨depth, encodeKey folded.foldedKey ++ ':' :: ' ' :: encodePrimitive p opts.delim⟩]
    | .arr items => encodeArray opts (some folded.foldedKey) items depth
    | .obj entries =>
      ⟨depth, encodeKey folded.foldedKey ++ [':']⟩ ::
        (if entries.isEmpty then []
        else encodeObject opts entries (depth + 1) rlk (some (extendPath pp folded.foldedKey))
          (some (fd - folded.segmentCount)))
  | none =>
    match value with
    | .prim p => [⟨depth, encodeKey key ++ ':' :: ' ' :: encodePrimitive p opts.delim⟩]
    | .arr items => encodeArray opts (some key) items depth
    | .obj entries =>
      ⟨depth, encodeKey key ++ [':']⟩ ::
        (if entries.isEmpty then []
        else encodeObject opts entries (depth + 1) rlk (some (extendPath pp key)) (some fd))
termination_by (sizeOf value, 0)
decreasing_by
  all_goals simp_wf
  · have := tryFold_size hf
    rw [_hl] at this
    simp at this
    apply Prod.Lex.left
    omega
  · have := tryFold_size hf
    rw [_hl] at this
    simp at this
    apply Prod.Lex.left
    omega
  · apply Prod.Lex.left; omega
  · apply Prod.Lex.left; omega

/-- `/repo/src/encode/encoders.rs:181-221` `encode_array_lines` (with
`encode_array_of_arrays_as_list_items_lines` 223-239,
`encode_array_of_objects_as_tabular_lines` 262-273 and
`encode_mixed_array_as_list_items_lines` 342-355 inlined). -/
def encodeArray (opts : EncOpts) (key : Option Str) (items : List (Json F)) (depth : Nat) :
    List OutLine :=
  if items.isEmpty then [⟨depth, formatHeader 0 key none opts.delim⟩]
  else if isArrayOfPrims items then [⟨depth, encodeInlineArrayLine items opts.delim key⟩]
  else if isArrayOfArrays items &&
      items.all (fun item => match item with
        | .arr xs => isArrayOfPrims xs
        | _ => false) then
    ⟨depth, formatHeader items.length key none opts.delim⟩ ::
      items.filterMap (fun item => match item with
        | .arr xs => some ⟨depth + 1, dash (encodeInlineArrayLine xs opts.delim none)⟩
        | _ => none)
  else
    match (if isArrayOfObjs items then extractTabularHeader items else none) with
    | some header =>
      ⟨depth, formatHeader items.length key (some header) opts.delim⟩ ::
        tabularRows items header (depth + 1) opts.delim
    | none =>
      ⟨depth, formatHeader items.length key none opts.delim⟩ ::
        encodeItems opts items (depth + 1)
termination_by (sizeOf items, 4)

/-- The loops over list items, `/repo/src/encode/encoders.rs:352-354`, `431-433`, `471-473`. -/
def encodeItems (opts : EncOpts) (items : List (Json F)) (depth : Nat) : List OutLine :=
  match items with
  | [] => []
  | v :: vs => encodeItem opts v depth ++ encodeItems opts vs depth
termination_by (sizeOf items, 3)

/-- `/repo/src/encode/encoders.rs:453-480` `encode_list_item_value_lines`. -/
def encodeItem (opts : EncOpts) (value : Json F) (depth : Nat) : List OutLine :=
  match value with
  | .prim p => [⟨depth, dash (encodePrimitive p opts.delim)⟩]
  | .arr items =>
    if isArrayOfPrims items then [⟨depth, dash (encodeInlineArrayLine items opts.delim none)⟩]
    else
      ⟨depth, dash (formatHeader items.length none none opts.delim)⟩ ::
        encodeItems opts items (depth + 1)
  | .obj entries => encodeObjectItem opts entries depth
termination_by (sizeOf value, 1)

/-- `/repo/src/encode/encoders.rs:357-451` `encode_object_as_list_item_lines`. -/
def encodeObjectItem (opts : EncOpts) (entries : List (Str × Json F)) (depth : Nat) : List OutLine :=
  match entries with
  | [] => [⟨depth, ['-']⟩]
  | (firstKey, firstValue) :: rest =>
    (match firstValue with
      | .prim p => [⟨depth, dash (encodeKey firstKey ++ ':' :: ' ' :: encodePrimitive p opts.delim)⟩]
      | .arr items =>
        match (if isArrayOfObjs items then extractTabularHeader items else none) with
        | some header =>
          ⟨depth, dash (formatHeader items.length (some firstKey) (some header) opts.delim)⟩ ::
            tabularRows items header (depth + 2) opts.delim
        | none =>
          if items.isEmpty then
            [⟨depth, dash (encodeKey firstKey ++ formatHeader 0 none none opts.delim)⟩]
          else if isArrayOfPrims items then
            [⟨depth, dash (encodeKey firstKey ++ encodeInlineArrayLine items opts.delim none)⟩]
          else
            ⟨depth, dash (encodeKey firstKey ++ formatHeader items.length none none opts.delim)⟩ ::
              encodeItems opts items (depth + 2)
      | .obj entries =>
        ⟨depth, dash (encodeKey firstKey ++ [':'])⟩ ::
          (if entries.isEmpty then []
          else encodeObject opts entries (depth + 2) none none none)) ++
    (if rest.isEmpty then [] else encodeObject opts rest (depth + 1) none none none)
termination_by (sizeOf entries, 0)

end

/-- `/repo/src/encode/encoders.rs:15-34` `encode_json_value`, before writing the indentation. -/
def encodeValue (opts : EncOpts) (value : Json F) : List OutLine :=
  match value with
  | .prim p =>
    let encoded := encodePrimitive p opts.delim
    if encoded.isEmpty then [] else [⟨0, encoded⟩]
  | .arr items => encodeArray opts none items 0
  | .obj entries => encodeObject opts entries 0 none none none

/-- `/repo/src/encode/encoders.rs:15-34` `encode_json_value`. -/
def encodeJsonValue (opts : EncOpts) (value : Json F) : List Str :=
  (encodeValue opts value).map (renderLine opts.indent)

mutual
/-- `/repo/src/encode/mod.rs:60-84` `emit_events`. -/
def emitEvents : Json F → List (Ev F)
  | .prim p => [.prim p]
  | .arr items => .startArr items.length :: emitItems items ++ [.endArr]
  | .obj entries => .startObj :: emitEntries entries ++ [.endObj]
def emitItems : List (Json F) → List (Ev F)
  | [] => []
  | v :: vs => emitEvents v ++ emitItems vs
def emitEntries : List (Str × Json F) → List (Ev F)
  | [] => []
  | (k, v) :: es => .key k (!isValidUnquotedKey k) :: emitEvents v ++ emitEntries es
end

end encoder

end Toon
