import Verif.Model.EncFrames
import Verif.Model.Api

/-!
# The passes that encoding makes over the characters it writes

The functions of `/repo/src/encode/encoders.rs` and `/repo/src/encode/primitives.rs` once more, in a stack of bounded size as in
`Model/EncFrames.lean`, with the number of characters that they go over to make up the lines: testing whether a string or a key needs
quotes, taking the characters of a string one by one, copying a string into a token, a token into a row, a row into a line and a line
into the text.  A test counts the whole string, even when it ends early.  Not counted are the copies of values
(`Model/EncFrames.lean`), the comparisons of keys (`Model/Compares.lean`), paths and the test for folding (`Model/PathCopies.lean`), and
what goes over values and not over characters (normalizing, estimating the number of lines).
-/

namespace Toon

section
variable {F : Type} [F64 F]

/-- `/repo/src/encode/primitives.rs:19-25` `encode_string_literal`: the sixteen passes of `is_safe_unquoted`
(`/repo/src/shared/validation.rs:46-85`: the trim and the comparison with it, the literals, the trim and the digits of
`is_numeric_like`, and eleven searches), and the copy, or the escapes and the copy between quotes. -/
def stringWrites (s : Str) (delim : Char) : Nat :=
  16 * s.length +
    if isSafeUnquoted s delim then s.length
    else s.length + (escapeString s).length + (encodeStringLiteral s delim).length

/-- `/repo/src/encode/primitives.rs:9-17` `encode_primitive`. -/
def primWrites (p : Prim F) (delim : Char) : Nat :=
  match p with
  | .str s => stringWrites s delim
  | p => (encodePrimitive p delim).length

/-- `/repo/src/encode/primitives.rs:27-33` `encode_key`: the test, and the copy, or the escapes and the copy between quotes. -/
def keyWrites (key : Str) : Nat :=
  key.length + if isValidUnquotedKey key then key.length else key.length + (escapeString key).length + (encodeKey key).length

/-- `/repo/src/encode/primitives.rs:35-49` `encode_and_join_primitives`. -/
def joinWrites (ps : List (Prim F)) (delim : Char) : Nat :=
  (ps.map (primWrites · delim)).sum + (encodeAndJoin ps delim).length

/-- `/repo/src/encode/primitives.rs:51-83` `format_header`. -/
def headerWrites (length : Nat) (key : Option Str) (fields : Option (List Str)) (delim : Char) : Nat :=
  (match key with
    | some k => keyWrites k
    | none => 0) +
  (match fields with
    | some fs => (fs.map keyWrites).sum
    | none => 0) +
  (formatHeader length key fields delim).length

/-- `primitive.clone()`, `/repo/src/encode/encoders.rs:245`, `288`: a string is copied. -/
def cloneWrites (ps : List (Prim F)) : Nat :=
  (ps.map fun p => match p with
    | .str s => s.length
    | _ => 0).sum

/-- `/repo/src/encode/encoders.rs:241-260` `encode_inline_array_line`. -/
def inlineWrites (items : List (Json F)) (delim : Char) (key : Option Str) : Nat :=
  cloneWrites (primsOf items) + headerWrites items.length key none delim +
    if (primsOf items).isEmpty then 0
    else joinWrites (primsOf items) delim + (encodeInlineArrayLine items delim key).length

/-- A row of `/repo/src/encode/encoders.rs:275-297` `write_tabular_rows_lines`. -/
def rowWrites (entries : List (Str × Json F)) (header : List Str) (delim : Char) : Nat :=
  cloneWrites (rowValues entries header) + joinWrites (rowValues entries header) delim

variable (opts : EncOpts)

omit [F64 F] in
/-- A line that took `cost` characters is put after the others: `/repo/src/encode/encoders.rs:486-618` `indented_line`,
`indented_key_value_line`, .. write the indentation and copy the parts. -/
def emit (cost : Nat) (line : OutLine) (out : List OutLine) : Run (List OutLine) := do
  tick (cost + (renderLine opts.indent line).length)
  pure (out ++ [line])

/-- `/repo/src/encode/encoders.rs:275-297` `write_tabular_rows_lines`. -/
def putRows (rows : List (Json F)) (header : List Str) (depth : Nat) (out : List OutLine) : Run (List OutLine) :=
  overEach (fun row out => match row with
    | .obj entries => emit opts (rowWrites entries header opts.delim) ⟨depth, encodeAndJoin (rowValues entries header) opts.delim⟩ out
    | _ => pure out) rows out

mutual

/-- `/repo/src/encode/encoders.rs:36-75` `encode_object_lines`. -/
def putObject : Nat → List (Str × Json F) → Nat → Option (List Str) → Option Str → Option Nat → List OutLine → Run (List OutLine)
  | 0, _, _, _, _, _, _ => Run.stop .overflow
  | stack + 1, entries, depth, rlk, pp, remaining, out =>
    let keys := entries.map Prod.fst
    overEach (fun e out => putPair stack keys (rootLiterals depth rlk keys) pp (remaining.getD opts.flattenDepth) e.1 e.2 depth out)
      entries out

/-- `/repo/src/encode/encoders.rs:78-179` `encode_key_value_pair_lines`: the key is made a token (101, 149) even for an array, whose header
makes it one again. -/
def putPair : Nat → List Str → Option (List Str) → Option Str → Nat → Str → Json F → Nat → List OutLine → Run (List OutLine)
  | 0, _, _, _, _, _, _, _, _ => Run.stop .overflow
  | stack + 1, siblings, rlk, pp, fd, key, value, depth, out =>
    match tryFold key value siblings opts rlk pp fd with
    | some folded =>
      match folded.leaf with
      | .prim p =>
        emit opts (keyWrites folded.foldedKey + primWrites p opts.delim)
          ⟨depth, encodeKey folded.foldedKey ++ ':' :: ' ' :: encodePrimitive p opts.delim⟩ out
      | .arr items => do
        tick (keyWrites folded.foldedKey)
        putArray stack (some folded.foldedKey) items depth out
      | .obj entries => do
        let out ← emit opts (keyWrites folded.foldedKey) ⟨depth, encodeKey folded.foldedKey ++ [':']⟩ out
        if entries.isEmpty then pure out
        else putObject stack entries (depth + 1) rlk (some (extendPath pp folded.foldedKey)) (some (fd - folded.segmentCount)) out
    | none =>
      match value with
      | .prim p =>
        emit opts (keyWrites key + primWrites p opts.delim) ⟨depth, encodeKey key ++ ':' :: ' ' :: encodePrimitive p opts.delim⟩ out
      | .arr items => do
        tick (keyWrites key)
        putArray stack (some key) items depth out
      | .obj entries => do
        let out ← emit opts (keyWrites key) ⟨depth, encodeKey key ++ [':']⟩ out
        if entries.isEmpty then pure out
        else putObject stack entries (depth + 1) rlk (some (extendPath pp key)) (some fd) out

/-- `/repo/src/encode/encoders.rs:181-221` `encode_array_lines`, with 223-273. -/
def putArray : Nat → Option Str → List (Json F) → Nat → List OutLine → Run (List OutLine)
  | 0, _, _, _, _ => Run.stop .overflow
  | stack + 1, key, items, depth, out =>
    if items.isEmpty then emit opts (headerWrites 0 key none opts.delim) ⟨depth, formatHeader 0 key none opts.delim⟩ out
    else if isArrayOfPrims items then
      emit opts (inlineWrites items opts.delim key) ⟨depth, encodeInlineArrayLine items opts.delim key⟩ out
    else if arraysOfPrims items then do
      let out ← emit opts (headerWrites items.length key none opts.delim) ⟨depth, formatHeader items.length key none opts.delim⟩ out
      overEach (fun item out => match item with
        | .arr xs => emit opts (inlineWrites xs opts.delim none) ⟨depth + 1, dash (encodeInlineArrayLine xs opts.delim none)⟩ out
        | _ => pure out) items out
    else
      match (if isArrayOfObjs items then extractTabularHeader items else none) with
      | some header => do
        let out ← emit opts (headerWrites items.length key (some header) opts.delim)
          ⟨depth, formatHeader items.length key (some header) opts.delim⟩ out
        putRows opts items header (depth + 1) out
      | none => putMixed stack key items depth out

/-- `/repo/src/encode/encoders.rs:342-355` `encode_mixed_array_as_list_items_lines`. -/
def putMixed : Nat → Option Str → List (Json F) → Nat → List OutLine → Run (List OutLine)
  | 0, _, _, _, _ => Run.stop .overflow
  | stack + 1, key, items, depth, out => do
    let out ← emit opts (headerWrites items.length key none opts.delim) ⟨depth, formatHeader items.length key none opts.delim⟩ out
    overEach (fun v out => putItem stack v (depth + 1) out) items out

/-- `/repo/src/encode/encoders.rs:453-480` `encode_list_item_value_lines`. -/
def putItem : Nat → Json F → Nat → List OutLine → Run (List OutLine)
  | 0, _, _, _ => Run.stop .overflow
  | _ + 1, .prim p, depth, out => emit opts (primWrites p opts.delim) ⟨depth, dash (encodePrimitive p opts.delim)⟩ out
  | stack + 1, .arr items, depth, out =>
    if isArrayOfPrims items then
      emit opts (inlineWrites items opts.delim none) ⟨depth, dash (encodeInlineArrayLine items opts.delim none)⟩ out
    else do
      let out ← emit opts (headerWrites items.length none none opts.delim) ⟨depth, dash (formatHeader items.length none none opts.delim)⟩ out
      overEach (fun v out => putItem stack v (depth + 1) out) items out
  | stack + 1, .obj entries, depth, out => putObjectItem stack entries depth out

/-- `/repo/src/encode/encoders.rs:357-451` `encode_object_as_list_item_lines`. -/
def putObjectItem : Nat → List (Str × Json F) → Nat → List OutLine → Run (List OutLine)
  | 0, _, _, _ => Run.stop .overflow
  | _ + 1, [], depth, out => emit opts 0 ⟨depth, ['-']⟩ out
  | stack + 1, (firstKey, firstValue) :: rest, depth, out => do
    let out ←
      match firstValue with
      | .prim p =>
        emit opts (keyWrites firstKey + primWrites p opts.delim)
          ⟨depth, dash (encodeKey firstKey ++ ':' :: ' ' :: encodePrimitive p opts.delim)⟩ out
      | .arr items =>
        match (if isArrayOfObjs items then extractTabularHeader items else none) with
        | some header => do
          let out ← emit opts (headerWrites items.length (some firstKey) (some header) opts.delim)
            ⟨depth, dash (formatHeader items.length (some firstKey) (some header) opts.delim)⟩ out
          putRows opts items header (depth + 2) out
        | none =>
          if items.isEmpty then
            emit opts (keyWrites firstKey + headerWrites 0 none none opts.delim)
              ⟨depth, dash (encodeKey firstKey ++ formatHeader 0 none none opts.delim)⟩ out
          else if isArrayOfPrims items then
            emit opts (keyWrites firstKey + inlineWrites items opts.delim none)
              ⟨depth, dash (encodeKey firstKey ++ encodeInlineArrayLine items opts.delim none)⟩ out
          else do
            let out ← emit opts (keyWrites firstKey + headerWrites items.length none none opts.delim)
              ⟨depth, dash (encodeKey firstKey ++ formatHeader items.length none none opts.delim)⟩ out
            overEach (fun v out => putItem stack v (depth + 2) out) items out
      | .obj entries => do
        let out ← emit opts (keyWrites firstKey) ⟨depth, dash (encodeKey firstKey ++ [':'])⟩ out
        if entries.isEmpty then pure out
        else putObject stack entries (depth + 2) none none none out
    if rest.isEmpty then pure out
    else putObject stack rest (depth + 1) none none none out

end

/-- `/repo/src/encode/encoders.rs:15-34` `encode_json_value`; the token of a primitive is the line. -/
def putValue : Nat → Json F → Run (List OutLine)
  | 0, _ => Run.stop .overflow
  | stack + 1, value =>
    match value with
    | .prim p => do
      tick (primWrites p opts.delim)
      pure (if (encodePrimitive p opts.delim).isEmpty then [] else [⟨0, encodePrimitive p opts.delim⟩])
    | .arr items => putArray opts stack none items 0 []
    | .obj entries => putObject opts stack entries 0 none none none []

/-- `/repo/src/encode/mod.rs:22-36` `encode` and `encode_lines` without a replacer: the lines are copied into the text. -/
def putText : Nat → Json F → Run Str
  | 0, _ => Run.stop .overflow
  | stack + 1, value => do
    let out ← putValue opts stack (normalize value)
    let lines := out.map (renderLine opts.indent)
    tick (joinWith '\n' lines).length
    pure (joinWith '\n' lines)

end

end Toon
