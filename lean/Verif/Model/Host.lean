import Verif.Model.Api
import Verif.Model.JsonRead
import Verif.Model.JsonText
import Verif.Spec.Values

/-!
# The host JSON type and the text conversions: `/repo/src/lib.rs`

`serde_json::Value` is represented by the same type `Json F`: an object is the entry list of the crate's
map in iteration order (feature `preserve_order`: the order of first insertion), a number is its
`as_f64()`, which never fails without the feature `arbitrary_precision`.
-/

namespace Toon

variable {F : Type}

/-- `serde_json::Map::insert` (`IndexMap::insert`): an existing key keeps its position and gets the new
value, a new key goes to the end. -/
def mapInsert (m : List (Str × Json F)) (key : Str) (value : Json F) : List (Str × Json F) :=
  match m with
  | [] => [(key, value)]
  | (k, v) :: rest => if k = key then (k, value) :: rest else (k, v) :: mapInsert rest key value

mutual
/-- The value `serde_json::from_str` builds from the members of the text (`serde_json`, `value/de.rs`,
`visit_map`: one `insert` per member). -/
def hostBuild : Json F → Json F
  | .prim p => .prim p
  | .arr values => .arr (hostBuildItems values)
  | .obj members => .obj (hostBuildMembers [] members)
def hostBuildItems : List (Json F) → List (Json F)
  | [] => []
  | v :: vs => hostBuild v :: hostBuildItems vs
/-- `map` is the map built so far. -/
def hostBuildMembers (map : List (Str × Json F)) : List (Str × Json F) → List (Str × Json F)
  | [] => map
  | (k, v) :: es => hostBuildMembers (mapInsert map k (hostBuild v)) es
end

section
variable [F64 F]

/-- `/repo/src/lib.rs:76-87` `StringOrNumberOrBoolOrNull::from_f64`. -/
def fromF64 (x : F) : Prim F :=
  if !F64.isFinite x then .null
  else if F64.isZero x then .num F64.zero
  else .num x

mutual
/-- `/repo/src/lib.rs:139-167` `From<serde_json::Value> for JsonValue`. -/
def fromHost : Json F → Json F
  | .prim (.num x) => .prim (fromF64 x)
  | .prim p => .prim p
  | .arr values => .arr (fromHostItems values)
  | .obj map => .obj (fromHostEntries map)
def fromHostItems : List (Json F) → List (Json F)
  | [] => []
  | v :: vs => fromHost v :: fromHostItems vs
def fromHostEntries : List (Str × Json F) → List (Str × Json F)
  | [] => []
  | (k, v) :: es => (k, fromHost v) :: fromHostEntries es
end

mutual
/-- `/repo/src/lib.rs:169-190` `From<JsonValue> for serde_json::Value`; `Number::from_f64` is `None`
exactly on NaN and the infinities. -/
def toHost : Json F → Json F
  | .prim (.num x) => if F64.isFinite x then .prim (.num x) else .prim .null
  | .prim p => .prim p
  | .arr arr => .arr (toHostItems arr)
  | .obj obj => .obj (toHostEntries [] obj)
def toHostItems : List (Json F) → List (Json F)
  | [] => []
  | v :: vs => toHost v :: toHostItems vs
/-- The loop `/repo/src/lib.rs:183-185`; `map` is the map built so far. -/
def toHostEntries (map : List (Str × Json F)) : List (Str × Json F) → List (Str × Json F)
  | [] => map
  | (key, val) :: es => toHostEntries (mapInsert map key (toHost val)) es
end

/-- `serde_json::from_str::<serde_json::Value>`: fails on text that is not JSON and when arrays and objects
are nested more than 127 deep (`serde_json`, `de.rs`, `remaining_depth: 128`, `check_recursion!`). -/
def hostFromStr (rd : Str → Option F) (text : Str) : Except Err (Json F) :=
  match readJson rd text with
  | none => .error .jsonParse
  | some v => if height v < 128 then .ok (hostBuild v) else .error .jsonParse

end

section
variable [F64 F] [JsonNum F]

/-- What `serde_json`'s `Serializer` writes for a scalar. -/
def serdeScalar : Prim F → Str
  | .null => "null".toList
  | .bool true => "true".toList
  | .bool false => "false".toList
  | .num x => jsonNumber x
  | .str s => serdeString s

/-- `serde_json`, `ser.rs`: what `CompactFormatter` and `PrettyFormatter` write before an element or a
member; `level` is `current_indent`. -/
def serdeBefore (pretty first : Bool) (level : Nat) : Str :=
  if pretty then (if first then ['\n'] else [',', '\n']) ++ (List.replicate level "  ".toList).flatten
  else if first then [] else [',']

/-- What they write before the closing bracket of a container that is not empty. -/
def serdeEnd (pretty : Bool) (level : Nat) : Str :=
  if pretty then '\n' :: (List.replicate level "  ".toList).flatten else []

mutual
/-- `serde_json::to_string` (`pretty = false`) and `to_string_pretty` (`pretty = true`) of a
`serde_json::Value` (`serde_json`, `ser.rs`): an empty container is written without asking the formatter. -/
def serdeWrite (pretty : Bool) (level : Nat) : Json F → Str
  | .prim p => serdeScalar p
  | .arr values =>
    if values.isEmpty then ['[', ']']
    else '[' :: (serdeItems pretty true (level + 1) values ++ serdeEnd pretty level ++ [']'])
  | .obj map =>
    if map.isEmpty then ['{', '}']
    else '{' :: (serdeMembers pretty true (level + 1) map ++ serdeEnd pretty level ++ ['}'])
def serdeItems (pretty first : Bool) (level : Nat) : List (Json F) → Str
  | [] => []
  | v :: vs => serdeBefore pretty first level ++ (serdeWrite pretty level v ++ serdeItems pretty false level vs)
def serdeMembers (pretty first : Bool) (level : Nat) : List (Str × Json F) → Str
  | [] => []
  | (k, v) :: es =>
    serdeBefore pretty first level ++ (serdeString k ++ ((if pretty then [':', ' '] else [':']) ++
      (serdeWrite pretty level v ++ serdeMembers pretty false level es)))
end

/-- `/repo/src/lib.rs:29-33` `json_to_toon`; `/repo/src/wasm.rs:58-63` `encode`. -/
def jsonToToon (rd : Str → Option F) (json : Str) : Except Err Str :=
  match hostFromStr rd json with
  | .error e => .error e
  | .ok value => .ok (encode defaultEnc (fromHost value))

/-- `/repo/src/lib.rs:41-45` `toon_to_json`; `/repo/src/wasm.rs:104-110` `decode`. -/
def toonToJson (F : Type) [F64 F] [JsonNum F] (toon : Str) : Except Err Str :=
  match decode (F := F) defaultDec toon with
  | .error e => .error e
  | .ok value => .ok (serdeWrite false 0 (toHost value))

/-- `/repo/src/wasm.rs:143-150` `decode_pretty`. -/
def decodePretty (F : Type) [F64 F] [JsonNum F] (toon : Str) : Except Err Str :=
  match decode (F := F) defaultDec toon with
  | .error e => .error e
  | .ok value => .ok (serdeWrite true 0 (toHost value))

end

end Toon
