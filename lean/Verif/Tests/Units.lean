import Verif.Tests.Support
import Verif.Model.Replacer
import Verif.Model.AsyncDecode
import Verif.Model.Wasm
import Verif.Lemmas.JsonFloat64

/-!
# Unit tests and snapshots of the repository

Tests of the model, not theorems about it: the assertions of the repository's unit tests and recorded messages that
speak about modelled functions, on the same arguments.
-/

namespace Toon.Tests

/-! ## `/repo/tests/edge_cases.rs` and `/repo/tests/snapshots` -/

example : says defaultDec "\tname: value"
    "Validation error at line 1: Tabs are not allowed in indentation in strict mode" = true := by decide +kernel
example : says defaultDec "items[2]:\n  - a\n\n  - b"
    "Line 3: Blank lines inside list array are not allowed in strict mode" = true := by decide +kernel
example : says defaultDec "rows[2]{id}:\n  1\n\n  2"
    "Line 3: Blank lines inside tabular array are not allowed in strict mode" = true := by decide +kernel
example : says defaultDec "items[1]:\n  - a\n  - b" "Expected 1 list array items, but found more" = true := by
  decide +kernel
example : says defaultDec "rows[1]{id}:\n  1\n  2" "Expected 1 tabular rows, but found more" = true := by decide +kernel
example : says defaultDec "items[3]:\n  - a" "Expected 3 list array items, but got 1" = true := by decide +kernel
example : says defaultDec "items[3]: a,b" "Expected 3 inline array items, but got 2" = true := by decide +kernel
example : says defaultDec "rows[1]{a,b,c}:\n  1,2" "Expected 3 tabular row values, but got 2" = true := by
  decide +kernel
example : says defaultDec "items[9999999999]:"
    "Declared array length 9999999999 exceeds maximum allowed (100000000)" = true := by decide +kernel
example : says defaultDec "name: \"unterminated" "Unterminated string: missing closing quote" = true := by decide +kernel
example : says defaultDec "\"unterminated key: value" "Unterminated string: missing closing quote" = true := by
  decide +kernel
example : says defaultDec "name: \"bad \\x escape\"" "Invalid escape sequence: \\x" = true := by decide +kernel
example : says { defaultDec with expand := true } "a.b: 1\na:\n  b: 2"
    "Path expansion conflict at key \"b\": cannot merge primitive with primitive" = true := by decide +kernel
example : says defaultDec "items[1]:\n\t- a"
    "Validation error at line 2: Tabs are not allowed in indentation in strict mode" = true := by decide +kernel
example : says defaultDec "outer:\n a: 1"
    "Validation error at line 2: Indentation must be exact multiple of 2, but found 1 spaces" = true := by decide +kernel
#guard says { defaultDec with expand := true } (".".intercalate (List.replicate 400 "a") ++ ": 1")
  "Path expansion exceeded maximum depth of 256"
example : fails defaultDec "items[3: a,b,c" = false := by decide +kernel
example : reads defaultDec "no_colon" (s "no_colon") = true := by decide +kernel
example : reads defaultDec "key[abc]: value" (.obj [("key[abc]".toList, s "value")]) = true := by decide +kernel

/-- The text is rejected as JSON. -/
def toolRejects (text : String) : Bool :=
  match jsonToToon B64.parse text.toList with
  | .error .jsonParse => true
  | _ => false

example : toolRejects "{not: valid json}" = true := by decide +kernel

/-! ## `/repo/src/cli/json_stringify.rs` -/

/-- The text of a value. -/
def stringify (v : Json B64) (indent : Nat) : List String := (jsonStringifyLines v indent).map String.ofList

example : stringify (.prim .null) 0 = ["null"] := by decide +kernel
example : stringify (.prim (.bool true)) 0 = ["true"] := by decide +kernel
example : stringify (.prim (.bool false)) 0 = ["false"] := by decide +kernel
example : stringify (n "42") 0 = ["42.0"] := by decide +kernel
example : stringify (n "0") 0 = ["0.0"] := by decide +kernel
example : stringify (.prim (.num (B64.infB false))) 0 = ["null"] := by decide +kernel
example : stringify (s "") 0 = ["\"\""] := by decide +kernel
example : stringify (s "hello") 0 = ["\"hello\""] := by decide +kernel
example : stringify (s "a\"b\\c") 0 = ["\"a\\\"b\\\\c\""] := by decide +kernel
example : stringify (s "a\nb\rc\td") 0 = ["\"a\\nb\\rc\\td\""] := by decide +kernel
example : stringify (s "\x01x") 0 = ["\"\\u0001x\""] := by decide +kernel
example : stringify (.arr []) 0 = ["[]"] ∧ stringify (.arr []) 2 = ["[]"] := by decide +kernel
example : stringify (.obj []) 0 = ["{}"] ∧ stringify (.obj []) 2 = ["{}"] := by decide +kernel
example : stringify (.arr [n "1", n "2", n "3"]) 0 = ["[1.0,2.0,3.0]"] := by decide +kernel
example : stringify (.arr [n "1", n "2"]) 2 = ["[\n  1.0,\n  2.0\n]"] := by decide +kernel
example : stringify (.obj [("a".toList, n "1"), ("b".toList, .prim (.bool true))]) 0 = ["{\"a\":1.0,\"b\":true}"] := by
  decide +kernel
example : stringify (.obj [("a".toList, n "1")]) 2 = ["{\n  \"a\": 1.0\n}"] := by decide +kernel
example : stringify (.obj [("a\"b".toList, n "1")]) 0 = ["{\"a\\\"b\":1.0}"] := by decide +kernel

/-! ## `/repo/src/decode/decoders.rs` -/

/-- The events of a text. -/
def events (strict : Bool) (input : String) : Option (List (Ev B64)) :=
  (decodeStream (F := B64) 2 strict (splitOn '\n' input.toList)).toOption

example : events true "" = some [.startObj, .endObj] := by decide +kernel
example : events true "hello" = some [.prim (.str "hello".toList)] := by decide +kernel
example : events true "true" = some [.prim (.bool true)] := by decide +kernel
example : events true "false" = some [.prim (.bool false)] := by decide +kernel
example : events true "null" = some [.prim .null] := by decide +kernel
example : events true "tags[3]: red,green,blue" =
    some [.startObj, .key "tags".toList false, .startArr 3, .prim (.str "red".toList), .prim (.str "green".toList),
      .prim (.str "blue".toList), .endArr, .endObj] := by decide +kernel
example : events true "items[0]:" = some [.startObj, .key "items".toList false, .startArr 0, .endArr, .endObj] := by
  decide +kernel
example : events true "\"weird key\": true" = some [.startObj, .key "weird key".toList true, .prim (.bool true), .endObj] := by
  decide +kernel
example : events true "items[1]: a,b" = none := by decide +kernel
example : events false "items[1]: a,b" =
    some [.startObj, .key "items".toList false, .startArr 1, .prim (.str "a".toList), .prim (.str "b".toList), .endArr,
      .endObj] := by decide +kernel
example : events true "items[9999999999]:" = none := by decide +kernel
example : isKeyValueLine "\"k\": v".toList = true ∧ isKeyValueLine "k: v".toList = true ∧
    isKeyValueLine "plain".toList = false := by decide +kernel

/-! ## `/repo/src/decode/event_builder.rs` -/

/-- The events build a node. -/
def builds (evs : List (Ev B64)) : Bool := (buildNode evs).toOption.isSome

example : builds [.prim (.bool true)] = true ∧ builds [.startObj, .endObj] = true ∧ builds [.startArr 0, .endArr] = true := by
  decide +kernel
example : builds [.endObj] = false ∧ builds [.endArr] = false ∧ builds [.startObj, .endArr] = false ∧
    builds [.key "dangling".toList false, .prim .null] = false ∧ builds [.startObj] = false ∧ builds [] = false ∧
    builds [.startObj, .prim .null, .endObj] = false := by decide +kernel

/-! ## `/repo/src/decode/validation.rs` -/

/-- The check passes. -/
def passes (x : Except Err Unit) : Bool := x.toOption.isSome

example : passes (assertCount 3 3 .inlineItems true) = true ∧ passes (assertCount 2 3 .inlineItems true) = false ∧
    passes (assertCount 2 3 .inlineItems false) = true := by decide +kernel
example : passes (noExtraItems none 1 3 true) = true ∧
    passes (noExtraItems (some ⟨0, "- one".toList, 5⟩) 1 3 true) = true ∧
    passes (noExtraItems (some ⟨1, "- extra".toList, 10⟩) 1 3 true) = false ∧
    passes (noExtraItems (some ⟨1, "- extra".toList, 10⟩) 1 3 false) = true ∧
    passes (noExtraItems (some ⟨1, "k: v".toList, 10⟩) 1 3 true) = true := by decide +kernel
example : passes (noExtraRows (some ⟨1, "k: v".toList, 10⟩) 1 2 ',' true) = true ∧
    passes (noExtraRows (some ⟨1, "extra,data".toList, 10⟩) 1 2 ',' true) = false ∧
    passes (noExtraRows (some ⟨0, "extra,data".toList, 10⟩) 1 2 ',' true) = true ∧
    passes (noExtraRows (some ⟨1, "- extra".toList, 10⟩) 1 2 ',' true) = true := by decide +kernel
example : passes (noBlankInRange 1 5 [] true true) = true ∧ passes (noBlankInRange 1 5 [10] true true) = true ∧
    passes (noBlankInRange 1 5 [3] true true) = false ∧ passes (noBlankInRange 1 5 [3] false true) = true := by
  decide +kernel
example : isDataRow "a,b,c".toList ',' = true ∧ isDataRow "a,b:c".toList ',' = true ∧
    isDataRow "a:b,c".toList ',' = false ∧ isDataRow "\"a:b\",c".toList ',' = true := by decide +kernel

/-! ## `/repo/src/encode/normalize.rs` -/

example : normPrim (.str "hello".toList : Prim B64) = .str "hello".toList ∧
    normPrim (.num (B64.infB false) : Prim B64) = .null ∧ normPrim (.num (B64.infB true) : Prim B64) = .null ∧
    normPrim (.num (B64.zeroB true) : Prim B64) = .num (B64.zeroB false) ∧
    normPrim (.bool true : Prim B64) = .bool true ∧ normPrim (.null : Prim B64) = .null := by decide +kernel
example : same (normalize (.arr [n "1", .prim (.num (B64.infB false)), s "x"])) (.arr [n "1", .prim .null, s "x"]) = true := by
  decide +kernel
example : isArrayOfPrims [n "1", s "x"] = true ∧ isArrayOfPrims [n "1", .arr []] = false ∧
    isArrayOfPrims ([] : List (Json B64)) = true ∧ isArrayOfArrays [.arr [n "1"], .arr []] = true ∧
    isArrayOfArrays [.arr [], n "1"] = false ∧ isArrayOfObjs ([.obj []] : List (Json B64)) = true ∧
    isArrayOfObjs [.obj [], n "1"] = false := by decide +kernel

/-! ## `/repo/src/encode/primitives.rs` -/

example : encodePrimitive (.null : Prim B64) ',' = "null".toList ∧ encodePrimitive (.bool true : Prim B64) ',' = "true".toList ∧
    encodePrimitive (.bool false : Prim B64) ',' = "false".toList ∧
    encodePrimitive (.num (B64.zeroB false) : Prim B64) ',' = "0".toList ∧
    encodePrimitive (.num (B64.infB false) : Prim B64) ',' = "null".toList ∧
    encodePrimitive (.str "hello".toList : Prim B64) ',' = "hello".toList ∧
    encodePrimitive (.str "a,b".toList : Prim B64) ',' = "\"a,b\"".toList := by decide +kernel
example : encodeStringLiteral "line\nfeed".toList ',' = "\"line\\nfeed\"".toList ∧
    encodeStringLiteral "true".toList ',' = "\"true\"".toList := by decide +kernel
example : encodeKey "valid_key".toList = "valid_key".toList ∧ encodeKey "has space".toList = "\"has space\"".toList ∧
    encodeKey "a\"b".toList = "\"a\\\"b\"".toList := by decide +kernel
example : encodeAndJoin ([] : List (Prim B64)) ',' = [] ∧
    encodeAndJoin [.num ((B64.parse "1".toList).getD (B64.zeroB false)), .str "two".toList, .bool true] ',' =
      "1,two,true".toList := by decide +kernel
example : formatHeader 3 none none ',' = "[3]:".toList ∧ formatHeader 3 none none '|' = "[3|]:".toList ∧
    formatHeader 2 (some "users".toList) (some ["id".toList, "name".toList]) ',' = "users[2]{id,name}:".toList ∧
    formatHeader 1 (some "data".toList) (some ["weird name".toList]) ',' = "data[1]{\"weird name\"}:".toList ∧
    formatHeader 0 (some "items".toList) none ',' = "items[0]:".toList := by decide +kernel

/-! ## `/repo/src/encode/replacer.rs` -/

/-- A replacer without a memory. -/
def pure1 (f : Str → Json B64 → List PathSeg → Option (Json B64)) : Replacer Unit B64 := fun k v p s => (f k v p, s)

/-- The value after replacement. -/
def replaced (f : Str → Json B64 → List PathSeg → Option (Json B64)) (v : Json B64) : Json B64 :=
  match applyReplacer (pure1 f) 10 v () with
  | some (w, _) => w
  | none => .arr []

example : same (replaced (fun _ v _ => some v) (.obj [("a".toList, n "1"), ("b".toList, s "hi")]))
    (.obj [("a".toList, n "1"), ("b".toList, s "hi")]) = true := by decide +kernel
example : same (replaced (fun k v _ => if k.isEmpty then none else some v) (.obj [("a".toList, n "1")]))
    (.obj [("a".toList, n "1")]) = true := by decide +kernel
example : same (replaced (fun k v _ => if k = "drop".toList then none else some v)
    (.obj [("keep".toList, n "1"), ("drop".toList, n "2")])) (.obj [("keep".toList, n "1")]) = true := by decide +kernel
example : same (replaced (fun _ v p => match p.getLast? with
      | none => none
      | some (.index i) => if i = 1 then none else some v
      | some _ => some v) (.arr [n "1", n "2", n "3"])) (.arr [n "1", n "3"]) = true := by decide +kernel
example : same (replaced (fun _ _ _ => some (.prim (.num (B64.infB false)))) (n "1")) (.prim .null) = true := by
  decide +kernel
-- The number of calls: the root, a, b, b[0] and b[1].
example : (applyReplacer (fun _ v _ (c : Nat) => (some v, c + 1)) 10
    (.obj [("a".toList, n "1"), ("b".toList, .arr [n "2", n "3"])]) 0).map (·.2) = some 5 := by decide +kernel

/-! ## `/repo/src/options.rs` -/

example : resolveEncodeOptions none = ⟨2, ',', false, 2 ^ 64 - 1⟩ ∧
    resolveEncodeOptions (some ⟨some 4, some '|', some true, some 3⟩) = ⟨4, '|', true, 3⟩ ∧
    resolveEncodeOptions (some ⟨some 0, none, none, none⟩) = ⟨0, ',', false, 2 ^ 64 - 1⟩ ∧
    resolveDecodeOptions none = ⟨2, true, false⟩ ∧
    resolveDecodeOptions (some ⟨some 4, some false, some true⟩) = ⟨4, false, true⟩ ∧
    resolveDecodeOptions (some ⟨none, some true, none⟩) = ⟨2, true, false⟩ := by decide +kernel

/-! ## `/repo/src/cli/args.rs` -/

example : parseDelimiter ",".toList = some ',' ∧ parseDelimiter "|".toList = some '|' ∧
    parseDelimiter "\\t".toList = some '\t' ∧ parseDelimiter "tab".toList = some '\t' ∧
    parseDelimiter "invalid".toList = none := by decide +kernel
example : (Args.mk none none true false ',' 2 false false none false false).detectMode = .encode ∧
    (Args.mk (some "data.toon".toList) none false false ',' 2 false false none false false).detectMode = .decode := by
  decide +kernel

/-! ## `/repo/src/wasm.rs`, `/repo/tests/cli_conversion.rs`, `/repo/tests/json_stream.rs` -/

#guard (jsonToToon B64.parse "{\"name\": \"Alice\"}".toList).toOption == some "name: Alice".toList
example : (toonToJson B64 "name: Alice".toList).toOption = some "{\"name\":\"Alice\"}".toList := by decide +kernel
#guard (encodeToToonLines B64.parse "{\"name\":\"Ada\",\"id\":1}".toList none).toOption == some ["name: Ada".toList, "id: 1".toList]
example : (encodeToToonLines B64.parse "{\"name\": }".toList none).toOption = none := by decide +kernel
example : ((decodeToJsonChunks B64 "items[2]: a,b".toList (some ⟨some 2, some true, some false⟩)).toOption.map List.flatten) =
    some "{\n  \"items\": [\n    \"a\",\n    \"b\"\n  ]\n}".toList := by decide +kernel
example : ((decodeToJsonChunks B64 "a.b: 1".toList (some ⟨some 0, some true, some true⟩)).toOption.map List.flatten) =
    some "{\"a\":{\"b\":1.0}}".toList := by decide +kernel
#guard (encodeToToonLines B64.parse "{\"data\":{\"meta\":{\"items\":[\"x\",\"y\"]}}}".toList
  (some ⟨some 2, some ',', some true, some (2 ^ 64 - 1)⟩)).toOption == some ["data.meta.items[2]: x,y".toList]
example : (jsonStreamFromEvents ([.endObj] : List (Ev B64)) 0).toOption = none := by decide +kernel
example : (jsonStreamFromEvents ([.startObj, .key "b".toList false, .startArr 2, .prim (.bool true), .prim (.str "x".toList),
    .endArr, .endObj] : List (Ev B64)) 2).toOption.map List.flatten =
    (jsonStringifyLines (.obj [("b".toList, .arr [.prim (.bool true), s "x"])]) 2).head? := by decide +kernel
example : encodeStreamEvents (.obj [("my-key".toList, .prim .null)] : Json B64) =
    [.startObj, .key "my-key".toList true, .prim .null, .endObj] := by decide +kernel

/-! ## `/repo/tests/cli_integration.rs` -/

/-- The arguments of a run without options. -/
def plain (encode decode : Bool) : Args := Args.mk none none encode decode ',' 2 false false none false false

/-- The output of a run. -/
def output (args : Args) (input : String) : Option String :=
  (runCli B64.parse args input.toList).toOption.map String.ofList

#guard output (plain true false) "{\"name\":\"Alice\",\"age\":30}" == some "name: Alice\nage: 30\n"
#guard output (plain true false) "{\"items\":[\"a\",\"b\",\"c\"]}" == some "items[3]: a,b,c\n"
#guard output { plain true false with indent := 4 } "{\"outer\":{\"inner\":\"value\"}}" == some "outer:\n    inner: value\n"
#guard output { plain true false with delimiter := '|' } "{\"items\":[\"x\",\"y\",\"z\"]}" == some "items[3|]: x|y|z\n"
#guard output { plain true false with keyFolding := true } "{\"data\":{\"meta\":{\"items\":[\"x\",\"y\"]}}}" ==
  some "data.meta.items[2]: x,y\n"
#guard output (plain true false) "{\"invalid\": }" == none
#guard output (plain false true) "name: Alice\nage: 30" == some "{\n  \"name\": \"Alice\",\n  \"age\": 30.0\n}\n"
#guard output (plain false true) "items[3]: a,b,c" ==
  some "{\n  \"items\": [\n    \"a\",\n    \"b\",\n    \"c\"\n  ]\n}\n"
#guard output { plain false true with expandPaths := true } "a.b.c: 42" ==
  some "{\n  \"a\": {\n    \"b\": {\n      \"c\": 42.0\n    }\n  }\n}\n"
#guard output (plain false true) "outer:\n   inner: value" == none
#guard output { plain false true with noStrict := true } "outer:\n   inner: value" ==
  some "{\n  \"outer\": {\n    \"inner\": \"value\"\n  }\n}\n"
#guard output { plain false false with input := some "data.json".toList } "{\"auto\":\"detect\"}" == some "auto: detect\n"
#guard output { plain false false with input := some "data.toon".toList } "auto: detect" ==
  some "{\n  \"auto\": \"detect\"\n}\n"
#guard output { plain true false with input := some "data.toon".toList } "{\"force\":\"encode\"}" == some "force: encode\n"
#guard output (plain true false) "{}" == some "\n"
#guard output (plain true false) "[]" == some "[0]:\n"

/-! ## `/repo/tests/golden_outputs` -/

/-- The recorded text; the same with key folding. -/
def golden : String :=
  "\n".intercalate [
    "users[2]{id,name,email,age,active}:",
    "  1,Alice,alice@example.com,30,true",
    "  2,Bob,bob@example.com,25,false",
    "metadata:",
    "  version: 1.0.0",
    "  generated: \"2024-01-15T10:30:00Z\"",
    "  tags[2]: test,benchmark",
    "config:",
    "  maxUsers: 1000",
    "  timeout: 30",
    "  features:",
    "    auth: true",
    "    logging: true",
    "    cache: false"]

/-- Decoding the text and encoding the value gives the text again. -/
def rewritten (o : EncOpts) (text : String) : Bool :=
  match decode (F := B64) defaultDec text.toList with
  | .ok v => writes o v text
  | .error _ => false

#guard rewritten defaultEnc golden
#guard rewritten { defaultEnc with fold := true } golden

/-! ## `/repo/README.md` -/

#guard output (plain true false) "{\"users\":[{\"id\":1,\"name\":\"Alice\"},{\"id\":2,\"name\":\"Bob\"}]}" ==
  some "users[2]{id,name}:\n  1,Alice\n  2,Bob\n"
-- The README shows compact JSON with integers here.
#guard output { plain false true with indent := 0 } "flat: 1" == some "{\"flat\":1.0}\n"
#guard output (plain false true) "users[2]{id,name}:\n  1,Alice\n  2,Bob" ==
  some "{\n  \"users\": [\n    {\n      \"id\": 1.0,\n      \"name\": \"Alice\"\n    },\n    {\n      \"id\": 2.0,\n      \"name\": \"Bob\"\n    }\n  ]\n}\n"
#guard output (plain true false) "[{\"id\":1,\"name\":\"Alice\",\"active\":true},{\"id\":2,\"name\":\"Bob\",\"active\":false}]" ==
  some "[2]{id,name,active}:\n  1,Alice,true\n  2,Bob,false\n"
-- The README asks for the same keys in the same order; the order does not matter.
#guard output (plain true false) "[{\"a\":1,\"b\":2},{\"b\":3,\"a\":4}]" == some "[2]{a,b}:\n  1,2\n  4,3\n"
#guard output { plain true false with keyFolding := true } "{\"config\":{\"database\":{\"host\":\"localhost\"}}}" ==
  some "config.database.host: localhost\n"
-- The README shows two lines with the keys `config.database.host` and `config.database.port`.
#guard output { plain true false with keyFolding := true }
    "{\"config\":{\"database\":{\"host\":\"localhost\",\"port\":5432}}}" ==
  some "config.database:\n  host: localhost\n  port: 5432\n"

end Toon.Tests
