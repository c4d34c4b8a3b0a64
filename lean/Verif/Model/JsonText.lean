import Verif.Model.Basic

/-!
# JSON output of the command line tool: `/repo/src/cli/json_stringify.rs`,
`/repo/src/cli/json_stream.rs`

Text is written by appending to a buffer in the code and returned here.
-/

namespace Toon

/-- `serde_json::Number::from_f64(x).unwrap().to_string()` for a finite number (a function of the
`serde_json` crate, parameter of the model). -/
class JsonNum (F : Type) where
  text : F → Str

/-- `char::is_control` (Rust std): the Unicode general category `Cc`. -/
def isControl (c : Char) : Bool :=
  c.toNat ≤ 0x1f || (0x7f ≤ c.toNat && c.toNat ≤ 0x9f)

/-- The lower-case hexadecimal digit of `d < 16`. -/
def hexChar (d : Nat) : Char := if d < 10 then Char.ofNat (48 + d) else Char.ofNat (87 + d)

/-- `{:04x}`, for numbers below 65536 (control characters are below 256). -/
def hex4 (n : Nat) : Str := [hexChar (n / 4096 % 16), hexChar (n / 256 % 16), hexChar (n / 16 % 16), hexChar (n % 16)]

/-! ## `json_stringify.rs` -/

/-- One character of `/repo/src/cli/json_stringify.rs:151-164`. -/
def jsonEscapeChar (c : Char) : Str :=
  if c = '"' then ['\\', '"']
  else if c = '\\' then ['\\', '\\']
  else if c = '\n' then ['\\', 'n']
  else if c = '\r' then ['\\', 'r']
  else if c = '\t' then ['\\', 't']
  else if isControl c then '\\' :: 'u' :: hex4 c.toNat
  else [c]

/-- `/repo/src/cli/json_stringify.rs:149-166` `push_json_string`. -/
def jsonString (s : Str) : Str := '"' :: (s.flatMap jsonEscapeChar ++ ['"'])

/-- `/repo/src/cli/json_stringify.rs:142-146` `push_indent`. -/
def jsonIndent (count : Nat) : Str := List.replicate count ' '

section
variable {F : Type} [F64 F] [JsonNum F]

/-- `/repo/src/cli/json_stringify.rs:127-133`; `/repo/src/cli/json_stream.rs:214-215`.
`Number::from_f64` is `None` exactly on NaN and the infinities. -/
def jsonNumber (x : F) : Str := if F64.isFinite x then JsonNum.text x else "null".toList

/-- `/repo/src/cli/json_stringify.rs:122-138` `stringify_primitive_to_buf`. -/
def jsonPrimitive : Prim F → Str
  | .null => "null".toList
  | .bool true => "true".toList
  | .bool false => "false".toList
  | .num x => jsonNumber x
  | .str s => jsonString s

mutual
/-- `/repo/src/cli/json_stringify.rs:42-50` `stringify_value_to_buf`, `52-80`
`stringify_array_to_buf`, `82-120` `stringify_object_to_buf`. -/
def jsonStringify (indent : Nat) (depth : Nat) : Json F → Str
  | .prim p => jsonPrimitive p
  | .arr values =>
    if values.isEmpty then ['[', ']']
    else if indent > 0 then
      '[' :: (jsonItems indent depth values ++ ('\n' :: jsonIndent (depth * indent) ++ [']']))
    else '[' :: (jsonItems indent depth values ++ [']'])
  | .obj entries =>
    if entries.isEmpty then ['{', '}']
    else if indent > 0 then
      '{' :: (jsonEntries indent depth entries ++ ('\n' :: jsonIndent (depth * indent) ++ ['}']))
    else '{' :: (jsonEntries indent depth entries ++ ['}'])

/-- The loops `/repo/src/cli/json_stringify.rs:61-68`, `72-77`; `idx + 1 < values.len()` is "there is
a next element". -/
def jsonItems (indent : Nat) (depth : Nat) : List (Json F) → Str
  | [] => []
  | value :: rest =>
    (if indent > 0 then '\n' :: jsonIndent ((depth + 1) * indent) else []) ++
    (jsonStringify indent (depth + 1) value ++
    ((if rest.isEmpty then [] else [',']) ++ jsonItems indent depth rest))

/-- The loops `/repo/src/cli/json_stringify.rs:96-106`, `110-117`. -/
def jsonEntries (indent : Nat) (depth : Nat) : List (Str × Json F) → Str
  | [] => []
  | (key, value) :: rest =>
    (if indent > 0 then '\n' :: jsonIndent ((depth + 1) * indent) else []) ++
    (jsonString key ++ ((if indent > 0 then [':', ' '] else [':']) ++
    (jsonStringify indent (depth + 1) value ++
    ((if rest.isEmpty then [] else [',']) ++ jsonEntries indent depth rest))))
end

/-- `/repo/src/cli/json_stringify.rs:8-14` `json_stringify_lines` (the size estimate only reserves
memory). -/
def jsonStringifyLines (value : Json F) (indent : Nat) : List Str := [jsonStringify indent 0 value]

end

/-! ## `json_stream.rs` -/

/-- One character as written by `serde_json::to_string` (crate `serde_json`, `ser.rs`, table `ESCAPE`
and `CharEscape`). -/
def serdeEscapeChar (c : Char) : Str :=
  if c = '"' then ['\\', '"']
  else if c = '\\' then ['\\', '\\']
  else if c.toNat = 0x08 then ['\\', 'b']
  else if c.toNat = 0x09 then ['\\', 't']
  else if c.toNat = 0x0a then ['\\', 'n']
  else if c.toNat = 0x0c then ['\\', 'f']
  else if c.toNat = 0x0d then ['\\', 'r']
  else if c.toNat < 0x20 then ['\\', 'u', '0', '0', hexChar (c.toNat / 16), hexChar (c.toNat % 16)]
  else [c]

/-- `serde_json::to_string` of a string; it never fails. -/
def serdeString (s : Str) : Str := '"' :: (s.flatMap serdeEscapeChar ++ ['"'])

/-- `/repo/src/cli/json_stream.rs:4-13` `JsonContext`. -/
inductive JCtx where
  | obj (needsComma expectValue : Bool)
  | arr (needsComma : Bool)
deriving DecidableEq, Repr

/-- The local variables of `/repo/src/cli/json_stream.rs:26-28`; the head of `stack` is the top. -/
structure JState where
  stack : List JCtx
  depth : Nat
  out : List Str
deriving DecidableEq, Repr

/-- `/repo/src/cli/json_stream.rs:34-47`, `89-102`: the separator before a container. -/
def jsonBeforeContainer (indent : Nat) (st : JState) : List Str :=
  match st.stack with
  | .arr needsComma :: _ =>
    (if needsComma then [[',']] else []) ++
    (if indent > 0 then [['\n'], List.replicate (st.depth * indent) ' '] else [])
  | _ => []

/-- `/repo/src/cli/json_stream.rs:73-86`, `125-138`: the parent after a container has ended. -/
def jsonAfterContainer : List JCtx → List JCtx
  | [] => []
  | .obj _ _ :: rest => .obj true false :: rest
  | .arr _ :: rest => .arr true :: rest

section
variable {F : Type} [F64 F] [JsonNum F]

/-- `/repo/src/cli/json_stream.rs:210-220` `stringify_primitive`. -/
def streamPrimitive : Prim F → Str
  | .null => "null".toList
  | .bool true => "true".toList
  | .bool false => "false".toList
  | .num x => jsonNumber x
  | .str s => serdeString s

/-- The body of the loop `/repo/src/cli/json_stream.rs:30-199`. -/
def jsonStreamStep (indent : Nat) (st : JState) : Ev F → Except Err JState
  | .startObj =>
    .ok ⟨.obj false false :: st.stack, st.depth + 1, st.out ++ (jsonBeforeContainer indent st ++ [['{']])⟩
  | .endObj =>
    match st.stack with
    | .obj needsComma _ :: rest =>
      .ok ⟨jsonAfterContainer rest, st.depth - 1, st.out ++
        ((if indent > 0 ∧ needsComma = true then [['\n'], List.replicate ((st.depth - 1) * indent) ' '] else []) ++
          [['}']])⟩
    | _ => .error .badEvent
  | .startArr _ =>
    .ok ⟨.arr false :: st.stack, st.depth + 1, st.out ++ (jsonBeforeContainer indent st ++ [['[']])⟩
  | .endArr =>
    match st.stack with
    | .arr needsComma :: rest =>
      .ok ⟨jsonAfterContainer rest, st.depth - 1, st.out ++
        ((if indent > 0 ∧ needsComma = true then [['\n'], List.replicate ((st.depth - 1) * indent) ' '] else []) ++
          [[']']])⟩
    | _ => .error .badEvent
  | .key k _ =>
    match st.stack with
    | .obj needsComma _ :: rest =>
      .ok ⟨.obj true true :: rest, st.depth, st.out ++
        ((if needsComma then [[',']] else []) ++
          ((if indent > 0 then [['\n'], List.replicate (st.depth * indent) ' '] else []) ++
            [serdeString k, if indent > 0 then [':', ' '] else [':']]))⟩
    | _ => .error .badEvent
  | .prim p =>
    match st.stack with
    | [] => .ok { st with out := st.out ++ [streamPrimitive p] }
    | .arr needsComma :: rest =>
      .ok ⟨.arr true :: rest, st.depth, st.out ++
        ((if needsComma then [[',']] else []) ++
          ((if indent > 0 then [['\n'], List.replicate (st.depth * indent) ' '] else []) ++ [streamPrimitive p]))⟩
    | .obj needsComma expectValue :: rest =>
      if expectValue then .ok ⟨.obj needsComma false :: rest, st.depth, st.out ++ [streamPrimitive p]⟩
      else .error .badEvent

/-- The loop `/repo/src/cli/json_stream.rs:30-199`. -/
def jsonStreamSteps (indent : Nat) (st : JState) : List (Ev F) → Except Err JState
  | [] => .ok st
  | e :: es =>
    match jsonStreamStep indent st e with
    | .error err => .error err
    | .ok st' => jsonStreamSteps indent st' es

/-- `/repo/src/cli/json_stream.rs:22-208` `json_stream_from_events`. -/
def jsonStreamFromEvents (events : List (Ev F)) (indent : Nat) : Except Err (List Str) :=
  match jsonStreamSteps indent ⟨[], 0, []⟩ events with
  | .error e => .error e
  | .ok st => if st.stack.isEmpty then .ok st.out else .error .badEvent

end

end Toon
