import Verif.Tests.Support

/-!
# Encoding fixtures

Tests of the model, not theorems about it: every case of `/repo/tests/fixtures/spec/encode/*.json`, as
`/repo/tests/encode_fixtures.rs` runs them.  The model of `encode` recurs on the size of its argument, which the kernel does
not unfold, so these cases are evaluated by the elaborator.
-/

namespace Toon.Tests

/-! ## arrays-nested.json -/

-- encodes nested arrays of primitives
#guard writes defaultEnc (.obj [("pairs".toList, .arr [.arr [s "a", s "b"], .arr [s "c", s "d"]])]) "pairs[2]:\n  - [2]: a,b\n  - [2]: c,d"
-- quotes strings containing delimiters in nested arrays
#guard writes defaultEnc (.obj [("pairs".toList, .arr [.arr [s "a", s "b"], .arr [s "c,d", s "e:f", s "true"]])]) "pairs[2]:\n  - [2]: a,b\n  - [3]: \"c,d\",\"e:f\",\"true\""
-- encodes empty inner arrays
#guard writes defaultEnc (.obj [("pairs".toList, .arr [.arr [], .arr []])]) "pairs[2]:\n  - [0]:\n  - [0]:"
-- encodes mixed-length inner arrays
#guard writes defaultEnc (.obj [("pairs".toList, .arr [.arr [n "1"], .arr [n "2", n "3"]])]) "pairs[2]:\n  - [1]: 1\n  - [2]: 2,3"
-- encodes root-level primitive array
#guard writes defaultEnc (.arr [s "x", s "y", s "true", .prim (.bool true), n "10"]) "[5]: x,y,\"true\",true,10"
-- encodes root-level array of uniform objects in tabular format
#guard writes defaultEnc (.arr [.obj [("id".toList, n "1")], .obj [("id".toList, n "2")]]) "[2]{id}:\n  1\n  2"
-- encodes root-level array of non-uniform objects in list format
#guard writes defaultEnc (.arr [.obj [("id".toList, n "1")], .obj [("id".toList, n "2"), ("name".toList, s "Ada")]]) "[2]:\n  - id: 1\n  - id: 2\n    name: Ada"
-- encodes root-level array mixing primitive, object, and array of objects in list format
#guard writes defaultEnc (.arr [s "summary", .obj [("id".toList, n "1"), ("name".toList, s "Ada")], .arr [.obj [("id".toList, n "2")], .obj [("status".toList, s "draft")]]]) "[3]:\n  - summary\n  - id: 1\n    name: Ada\n  - [2]:\n    - id: 2\n    - status: draft"
-- encodes root-level arrays of arrays
#guard writes defaultEnc (.arr [.arr [n "1", n "2"], .arr []]) "[2]:\n  - [2]: 1,2\n  - [0]:"
-- encodes empty root-level array
#guard writes defaultEnc (.arr []) "[0]:"
-- encodes complex nested structure
#guard writes defaultEnc (.obj [("user".toList, .obj [("id".toList, n "123"), ("name".toList, s "Ada"), ("tags".toList, .arr [s "reading", s "gaming"]), ("active".toList, .prim (.bool true)), ("prefs".toList, .arr [])])]) "user:\n  id: 123\n  name: Ada\n  tags[2]: reading,gaming\n  active: true\n  prefs[0]:"
-- uses list format for arrays mixing primitives and objects
#guard writes defaultEnc (.obj [("items".toList, .arr [n "1", .obj [("a".toList, n "1")], s "text"])]) "items[3]:\n  - 1\n  - a: 1\n  - text"
-- uses list format for arrays mixing objects and arrays
#guard writes defaultEnc (.obj [("items".toList, .arr [.obj [("a".toList, n "1")], .arr [n "1", n "2"]])]) "items[2]:\n  - a: 1\n  - [2]: 1,2"

/-! ## arrays-objects.json -/

-- uses list format for objects with different fields
#guard writes defaultEnc (.obj [("items".toList, .arr [.obj [("id".toList, n "1"), ("name".toList, s "First")], .obj [("id".toList, n "2"), ("name".toList, s "Second"), ("extra".toList, .prim (.bool true))]])]) "items[2]:\n  - id: 1\n    name: First\n  - id: 2\n    name: Second\n    extra: true"
-- uses list format for objects with nested values
#guard writes defaultEnc (.obj [("items".toList, .arr [.obj [("id".toList, n "1"), ("nested".toList, .obj [("x".toList, n "1")])]])]) "items[1]:\n  - id: 1\n    nested:\n      x: 1"
-- preserves field order in list items - array first
#guard writes defaultEnc (.obj [("items".toList, .arr [.obj [("nums".toList, .arr [n "1", n "2", n "3"]), ("name".toList, s "Ada")]])]) "items[1]:\n  - nums[3]: 1,2,3\n    name: Ada"
-- preserves field order in list items - primitive first
#guard writes defaultEnc (.obj [("items".toList, .arr [.obj [("name".toList, s "Ada"), ("nums".toList, .arr [n "1", n "2", n "3"])]])]) "items[1]:\n  - name: Ada\n    nums[3]: 1,2,3"
-- uses list format for objects containing arrays of arrays
#guard writes defaultEnc (.obj [("items".toList, .arr [.obj [("matrix".toList, .arr [.arr [n "1", n "2"], .arr [n "3", n "4"]]), ("name".toList, s "grid")]])]) "items[1]:\n  - matrix[2]:\n      - [2]: 1,2\n      - [2]: 3,4\n    name: grid"
-- uses tabular format for nested uniform object arrays
#guard writes defaultEnc (.obj [("items".toList, .arr [.obj [("users".toList, .arr [.obj [("id".toList, n "1"), ("name".toList, s "Ada")], .obj [("id".toList, n "2"), ("name".toList, s "Bob")]]), ("status".toList, s "active")]])]) "items[1]:\n  - users[2]{id,name}:\n      1,Ada\n      2,Bob\n    status: active"
-- uses list format for nested object arrays with mismatched keys
#guard writes defaultEnc (.obj [("items".toList, .arr [.obj [("users".toList, .arr [.obj [("id".toList, n "1"), ("name".toList, s "Ada")], .obj [("id".toList, n "2")]]), ("status".toList, s "active")]])]) "items[1]:\n  - users[2]:\n      - id: 1\n        name: Ada\n      - id: 2\n    status: active"
-- uses list format for objects with multiple array fields
#guard writes defaultEnc (.obj [("items".toList, .arr [.obj [("nums".toList, .arr [n "1", n "2"]), ("tags".toList, .arr [s "a", s "b"]), ("name".toList, s "test")]])]) "items[1]:\n  - nums[2]: 1,2\n    tags[2]: a,b\n    name: test"
-- uses list format for objects with only array fields
#guard writes defaultEnc (.obj [("items".toList, .arr [.obj [("nums".toList, .arr [n "1", n "2", n "3"]), ("tags".toList, .arr [s "a", s "b"])]])]) "items[1]:\n  - nums[3]: 1,2,3\n    tags[2]: a,b"
-- encodes objects with empty arrays in list format
#guard writes defaultEnc (.obj [("items".toList, .arr [.obj [("name".toList, s "Ada"), ("data".toList, .arr [])]])]) "items[1]:\n  - name: Ada\n    data[0]:"
-- uses canonical encoding for multi-field list-item objects with tabular arrays
#guard writes defaultEnc (.obj [("items".toList, .arr [.obj [("users".toList, .arr [.obj [("id".toList, n "1")], .obj [("id".toList, n "2")]]), ("note".toList, s "x")]])]) "items[1]:\n  - users[2]{id}:\n      1\n      2\n    note: x"
-- uses canonical encoding for single-field list-item tabular arrays
#guard writes defaultEnc (.obj [("items".toList, .arr [.obj [("users".toList, .arr [.obj [("id".toList, n "1"), ("name".toList, s "Ada")], .obj [("id".toList, n "2"), ("name".toList, s "Bob")]])]])]) "items[1]:\n  - users[2]{id,name}:\n      1,Ada\n      2,Bob"
-- places empty arrays on hyphen line when first
#guard writes defaultEnc (.obj [("items".toList, .arr [.obj [("data".toList, .arr []), ("name".toList, s "x")]])]) "items[1]:\n  - data[0]:\n    name: x"
-- encodes empty object list items as bare hyphen
#guard writes defaultEnc (.obj [("items".toList, .arr [s "first", s "second", .obj []])]) "items[3]:\n  - first\n  - second\n  -"
-- uses field order from first object for tabular headers
#guard writes defaultEnc (.obj [("items".toList, .arr [.obj [("a".toList, n "1"), ("b".toList, n "2"), ("c".toList, n "3")], .obj [("c".toList, n "30"), ("b".toList, n "20"), ("a".toList, n "10")]])]) "items[2]{a,b,c}:\n  1,2,3\n  10,20,30"
-- uses list format when one object has nested field
#guard writes defaultEnc (.obj [("items".toList, .arr [.obj [("id".toList, n "1"), ("data".toList, s "string")], .obj [("id".toList, n "2"), ("data".toList, .obj [("nested".toList, .prim (.bool true))])]])]) "items[2]:\n  - id: 1\n    data: string\n  - id: 2\n    data:\n      nested: true"

/-! ## arrays-primitive.json -/

-- encodes string arrays inline
#guard writes defaultEnc (.obj [("tags".toList, .arr [s "reading", s "gaming"])]) "tags[2]: reading,gaming"
-- encodes number arrays inline
#guard writes defaultEnc (.obj [("nums".toList, .arr [n "1", n "2", n "3"])]) "nums[3]: 1,2,3"
-- encodes mixed primitive arrays inline
#guard writes defaultEnc (.obj [("data".toList, .arr [s "x", s "y", .prim (.bool true), n "10"])]) "data[4]: x,y,true,10"
-- encodes empty arrays
#guard writes defaultEnc (.obj [("items".toList, .arr [])]) "items[0]:"
-- encodes empty string in single-item array
#guard writes defaultEnc (.obj [("items".toList, .arr [s ""])]) "items[1]: \"\""
-- encodes empty string in multi-item array
#guard writes defaultEnc (.obj [("items".toList, .arr [s "a", s "", s "b"])]) "items[3]: a,\"\",b"
-- encodes whitespace-only strings in arrays
#guard writes defaultEnc (.obj [("items".toList, .arr [s " ", s "  "])]) "items[2]: \" \",\"  \""
-- quotes array strings with comma
#guard writes defaultEnc (.obj [("items".toList, .arr [s "a", s "b,c", s "d:e"])]) "items[3]: a,\"b,c\",\"d:e\""
-- quotes strings that look like booleans in arrays
#guard writes defaultEnc (.obj [("items".toList, .arr [s "x", s "true", s "42", s "-3.14"])]) "items[4]: x,\"true\",\"42\",\"-3.14\""
-- quotes strings with structural meanings in arrays
#guard writes defaultEnc (.obj [("items".toList, .arr [s "[5]", s "- item", s "{key}"])]) "items[3]: \"[5]\",\"- item\",\"{key}\""

/-! ## arrays-tabular.json -/

-- encodes arrays of uniform objects in tabular format
#guard writes defaultEnc (.obj [("items".toList, .arr [.obj [("sku".toList, s "A1"), ("qty".toList, n "2"), ("price".toList, n "9.99")], .obj [("sku".toList, s "B2"), ("qty".toList, n "1"), ("price".toList, n "14.5")]])]) "items[2]{sku,qty,price}:\n  A1,2,9.99\n  B2,1,14.5"
-- encodes null values in tabular format
#guard writes defaultEnc (.obj [("items".toList, .arr [.obj [("id".toList, n "1"), ("value".toList, .prim .null)], .obj [("id".toList, n "2"), ("value".toList, s "test")]])]) "items[2]{id,value}:\n  1,null\n  2,test"
-- quotes strings containing delimiters in tabular rows
#guard writes defaultEnc (.obj [("items".toList, .arr [.obj [("sku".toList, s "A,1"), ("desc".toList, s "cool"), ("qty".toList, n "2")], .obj [("sku".toList, s "B2"), ("desc".toList, s "wip: test"), ("qty".toList, n "1")]])]) "items[2]{sku,desc,qty}:\n  \"A,1\",cool,2\n  B2,\"wip: test\",1"
-- quotes ambiguous strings in tabular rows
#guard writes defaultEnc (.obj [("items".toList, .arr [.obj [("id".toList, n "1"), ("status".toList, s "true")], .obj [("id".toList, n "2"), ("status".toList, s "false")]])]) "items[2]{id,status}:\n  1,\"true\"\n  2,\"false\""
-- encodes tabular arrays with keys needing quotes
#guard writes defaultEnc (.obj [("items".toList, .arr [.obj [("order:id".toList, n "1"), ("full name".toList, s "Ada")], .obj [("order:id".toList, n "2"), ("full name".toList, s "Bob")]])]) "items[2]{\"order:id\",\"full name\"}:\n  1,Ada\n  2,Bob"

/-! ## delimiters.json -/

-- encodes primitive arrays with tab delimiter
#guard writes { defaultEnc with delim := '\t' } (.obj [("tags".toList, .arr [s "reading", s "gaming", s "coding"])]) "tags[3\t]: reading\tgaming\tcoding"
-- encodes primitive arrays with pipe delimiter
#guard writes { defaultEnc with delim := '|' } (.obj [("tags".toList, .arr [s "reading", s "gaming", s "coding"])]) "tags[3|]: reading|gaming|coding"
-- encodes primitive arrays with comma delimiter
#guard writes { defaultEnc with delim := ',' } (.obj [("tags".toList, .arr [s "reading", s "gaming", s "coding"])]) "tags[3]: reading,gaming,coding"
-- encodes tabular arrays with tab delimiter
#guard writes { defaultEnc with delim := '\t' } (.obj [("items".toList, .arr [.obj [("sku".toList, s "A1"), ("qty".toList, n "2"), ("price".toList, n "9.99")], .obj [("sku".toList, s "B2"), ("qty".toList, n "1"), ("price".toList, n "14.5")]])]) "items[2\t]{sku\tqty\tprice}:\n  A1\t2\t9.99\n  B2\t1\t14.5"
-- encodes tabular arrays with pipe delimiter
#guard writes { defaultEnc with delim := '|' } (.obj [("items".toList, .arr [.obj [("sku".toList, s "A1"), ("qty".toList, n "2"), ("price".toList, n "9.99")], .obj [("sku".toList, s "B2"), ("qty".toList, n "1"), ("price".toList, n "14.5")]])]) "items[2|]{sku|qty|price}:\n  A1|2|9.99\n  B2|1|14.5"
-- encodes nested arrays with tab delimiter
#guard writes { defaultEnc with delim := '\t' } (.obj [("pairs".toList, .arr [.arr [s "a", s "b"], .arr [s "c", s "d"]])]) "pairs[2\t]:\n  - [2\t]: a\tb\n  - [2\t]: c\td"
-- encodes nested arrays with pipe delimiter
#guard writes { defaultEnc with delim := '|' } (.obj [("pairs".toList, .arr [.arr [s "a", s "b"], .arr [s "c", s "d"]])]) "pairs[2|]:\n  - [2|]: a|b\n  - [2|]: c|d"
-- encodes root-level array with tab delimiter
#guard writes { defaultEnc with delim := '\t' } (.arr [s "x", s "y", s "z"]) "[3\t]: x\ty\tz"
-- encodes root-level array with pipe delimiter
#guard writes { defaultEnc with delim := '|' } (.arr [s "x", s "y", s "z"]) "[3|]: x|y|z"
-- encodes root-level array of objects with tab delimiter
#guard writes { defaultEnc with delim := '\t' } (.arr [.obj [("id".toList, n "1")], .obj [("id".toList, n "2")]]) "[2\t]{id}:\n  1\n  2"
-- encodes root-level array of objects with pipe delimiter
#guard writes { defaultEnc with delim := '|' } (.arr [.obj [("id".toList, n "1")], .obj [("id".toList, n "2")]]) "[2|]{id}:\n  1\n  2"
-- quotes strings containing tab delimiter
#guard writes { defaultEnc with delim := '\t' } (.obj [("items".toList, .arr [s "a", s "b\tc", s "d"])]) "items[3\t]: a\t\"b\\tc\"\td"
-- quotes strings containing pipe delimiter
#guard writes { defaultEnc with delim := '|' } (.obj [("items".toList, .arr [s "a", s "b|c", s "d"])]) "items[3|]: a|\"b|c\"|d"
-- does not quote commas with tab delimiter
#guard writes { defaultEnc with delim := '\t' } (.obj [("items".toList, .arr [s "a,b", s "c,d"])]) "items[2\t]: a,b\tc,d"
-- does not quote commas with pipe delimiter
#guard writes { defaultEnc with delim := '|' } (.obj [("items".toList, .arr [s "a,b", s "c,d"])]) "items[2|]: a,b|c,d"
-- quotes tabular values containing comma delimiter
#guard writes { defaultEnc with delim := ',' } (.obj [("items".toList, .arr [.obj [("id".toList, n "1"), ("note".toList, s "a,b")], .obj [("id".toList, n "2"), ("note".toList, s "c,d")]])]) "items[2]{id,note}:\n  1,\"a,b\"\n  2,\"c,d\""
-- does not quote commas in tabular values with tab delimiter
#guard writes { defaultEnc with delim := '\t' } (.obj [("items".toList, .arr [.obj [("id".toList, n "1"), ("note".toList, s "a,b")], .obj [("id".toList, n "2"), ("note".toList, s "c,d")]])]) "items[2\t]{id\tnote}:\n  1\ta,b\n  2\tc,d"
-- does not quote commas in object values with pipe delimiter
#guard writes { defaultEnc with delim := '|' } (.obj [("note".toList, s "a,b")]) "note: a,b"
-- does not quote commas in object values with tab delimiter
#guard writes { defaultEnc with delim := '\t' } (.obj [("note".toList, s "a,b")]) "note: a,b"
-- quotes nested array values containing pipe delimiter
#guard writes { defaultEnc with delim := '|' } (.obj [("pairs".toList, .arr [.arr [s "a", s "b|c"]])]) "pairs[1|]:\n  - [2|]: a|\"b|c\""
-- quotes nested array values containing tab delimiter
#guard writes { defaultEnc with delim := '\t' } (.obj [("pairs".toList, .arr [.arr [s "a", s "b\tc"]])]) "pairs[1\t]:\n  - [2\t]: a\t\"b\\tc\""
-- preserves ambiguity quoting regardless of delimiter
#guard writes { defaultEnc with delim := '|' } (.obj [("items".toList, .arr [s "true", s "42", s "-3.14"])]) "items[3|]: \"true\"|\"42\"|\"-3.14\""

/-! ## key-folding.json -/

-- encodes folded chain to primitive (safe mode)
#guard writes { defaultEnc with fold := true } (.obj [("a".toList, .obj [("b".toList, .obj [("c".toList, n "1")])])]) "a.b.c: 1"
-- encodes folded chain with inline array
#guard writes { defaultEnc with fold := true } (.obj [("data".toList, .obj [("meta".toList, .obj [("items".toList, .arr [s "x", s "y"])])])]) "data.meta.items[2]: x,y"
-- encodes folded chain with tabular array
#guard writes { defaultEnc with fold := true } (.obj [("a".toList, .obj [("b".toList, .obj [("items".toList, .arr [.obj [("id".toList, n "1"), ("name".toList, s "A")], .obj [("id".toList, n "2"), ("name".toList, s "B")]])])])]) "a.b.items[2]{id,name}:\n  1,A\n  2,B"
-- skips folding when segment requires quotes (safe mode)
#guard writes { defaultEnc with fold := true } (.obj [("data".toList, .obj [("full-name".toList, .obj [("x".toList, n "1")])])]) "data:\n  \"full-name\":\n    x: 1"
-- skips folding on sibling literal-key collision (safe mode)
#guard writes { defaultEnc with fold := true } (.obj [("data".toList, .obj [("meta".toList, .obj [("items".toList, .arr [n "1", n "2"])])]), ("data.meta.items".toList, s "literal")]) "data:\n  meta:\n    items[2]: 1,2\ndata.meta.items: literal"
-- encodes partial folding with flattenDepth=2
#guard writes { defaultEnc with fold := true, flattenDepth := 2 } (.obj [("a".toList, .obj [("b".toList, .obj [("c".toList, .obj [("d".toList, n "1")])])])]) "a.b:\n  c:\n    d: 1"
-- encodes full chain with flattenDepth=Infinity (default)
#guard writes { defaultEnc with fold := true } (.obj [("a".toList, .obj [("b".toList, .obj [("c".toList, .obj [("d".toList, n "1")])])])]) "a.b.c.d: 1"
-- encodes standard nesting with flattenDepth=0 (no folding)
#guard writes { defaultEnc with fold := true, flattenDepth := 0 } (.obj [("a".toList, .obj [("b".toList, .obj [("c".toList, n "1")])])]) "a:\n  b:\n    c: 1"
-- encodes standard nesting with flattenDepth=1 (no practical effect)
#guard writes { defaultEnc with fold := true, flattenDepth := 1 } (.obj [("a".toList, .obj [("b".toList, .obj [("c".toList, n "1")])])]) "a:\n  b:\n    c: 1"
-- encodes standard nesting with keyFolding=off (baseline)
#guard writes { defaultEnc with fold := false } (.obj [("a".toList, .obj [("b".toList, .obj [("c".toList, n "1")])])]) "a:\n  b:\n    c: 1"
-- encodes folded chain ending with empty object
#guard writes { defaultEnc with fold := true } (.obj [("a".toList, .obj [("b".toList, .obj [("c".toList, .obj [])])])]) "a.b.c:"
-- stops folding at array boundary (not single-key object)
#guard writes { defaultEnc with fold := true } (.obj [("a".toList, .obj [("b".toList, .arr [n "1", n "2"])])]) "a.b[2]: 1,2"
-- encodes folded chains preserving sibling field order
#guard writes { defaultEnc with fold := true } (.obj [("first".toList, .obj [("second".toList, .obj [("third".toList, n "1")])]), ("simple".toList, n "2"), ("short".toList, .obj [("path".toList, n "3")])]) "first.second.third: 1\nsimple: 2\nshort.path: 3"

/-! ## objects.json -/

-- preserves key order in objects
#guard writes defaultEnc (.obj [("id".toList, n "123"), ("name".toList, s "Ada"), ("active".toList, .prim (.bool true))]) "id: 123\nname: Ada\nactive: true"
-- encodes null values in objects
#guard writes defaultEnc (.obj [("id".toList, n "123"), ("value".toList, .prim .null)]) "id: 123\nvalue: null"
-- encodes empty objects as empty string
#guard writes defaultEnc (.obj []) ""
-- quotes string value with colon
#guard writes defaultEnc (.obj [("note".toList, s "a:b")]) "note: \"a:b\""
-- quotes string value with comma
#guard writes defaultEnc (.obj [("note".toList, s "a,b")]) "note: \"a,b\""
-- quotes string value with newline
#guard writes defaultEnc (.obj [("text".toList, s "line1\nline2")]) "text: \"line1\\nline2\""
-- quotes string value with embedded quotes
#guard writes defaultEnc (.obj [("text".toList, s "say \"hello\"")]) "text: \"say \\\"hello\\\"\""
-- quotes string value with leading space
#guard writes defaultEnc (.obj [("text".toList, s " padded ")]) "text: \" padded \""
-- quotes string value with only spaces
#guard writes defaultEnc (.obj [("text".toList, s "  ")]) "text: \"  \""
-- quotes string value that looks like true
#guard writes defaultEnc (.obj [("v".toList, s "true")]) "v: \"true\""
-- quotes string value that looks like number
#guard writes defaultEnc (.obj [("v".toList, s "42")]) "v: \"42\""
-- quotes string value that looks like negative decimal
#guard writes defaultEnc (.obj [("v".toList, s "-7.5")]) "v: \"-7.5\""
-- quotes key with colon
#guard writes defaultEnc (.obj [("order:id".toList, n "7")]) "\"order:id\": 7"
-- quotes key with brackets
#guard writes defaultEnc (.obj [("[index]".toList, n "5")]) "\"[index]\": 5"
-- quotes key with braces
#guard writes defaultEnc (.obj [("{key}".toList, n "5")]) "\"{key}\": 5"
-- quotes key with comma
#guard writes defaultEnc (.obj [("a,b".toList, n "1")]) "\"a,b\": 1"
-- quotes key with spaces
#guard writes defaultEnc (.obj [("full name".toList, s "Ada")]) "\"full name\": Ada"
-- quotes key with leading hyphen
#guard writes defaultEnc (.obj [("-lead".toList, n "1")]) "\"-lead\": 1"
-- quotes key with leading and trailing spaces
#guard writes defaultEnc (.obj [(" a ".toList, n "1")]) "\" a \": 1"
-- quotes numeric key
#guard writes defaultEnc (.obj [("123".toList, s "x")]) "\"123\": x"
-- quotes empty string key
#guard writes defaultEnc (.obj [("".toList, n "1")]) "\"\": 1"
-- escapes newline in key
#guard writes defaultEnc (.obj [("line\nbreak".toList, n "1")]) "\"line\\nbreak\": 1"
-- escapes tab in key
#guard writes defaultEnc (.obj [("tab\there".toList, n "2")]) "\"tab\\there\": 2"
-- escapes quotes in key
#guard writes defaultEnc (.obj [("he said \"hi\"".toList, n "1")]) "\"he said \\\"hi\\\"\": 1"
-- encodes deeply nested objects
#guard writes defaultEnc (.obj [("a".toList, .obj [("b".toList, .obj [("c".toList, s "deep")])])]) "a:\n  b:\n    c: deep"
-- encodes empty nested object
#guard writes defaultEnc (.obj [("user".toList, .obj [])]) "user:"

/-! ## primitives.json -/

-- encodes safe strings without quotes
#guard writes defaultEnc (s "hello") "hello"
-- encodes safe string with underscore and numbers
#guard writes defaultEnc (s "Ada_99") "Ada_99"
-- quotes empty string
#guard writes defaultEnc (s "") "\"\""
-- quotes string that looks like true
#guard writes defaultEnc (s "true") "\"true\""
-- quotes string that looks like false
#guard writes defaultEnc (s "false") "\"false\""
-- quotes string that looks like null
#guard writes defaultEnc (s "null") "\"null\""
-- quotes string that looks like integer
#guard writes defaultEnc (s "42") "\"42\""
-- quotes string that looks like negative decimal
#guard writes defaultEnc (s "-3.14") "\"-3.14\""
-- quotes string that looks like scientific notation
#guard writes defaultEnc (s "1e-6") "\"1e-6\""
-- quotes string with leading zero
#guard writes defaultEnc (s "05") "\"05\""
-- escapes newline in string
#guard writes defaultEnc (s "line1\nline2") "\"line1\\nline2\""
-- escapes tab in string
#guard writes defaultEnc (s "tab\there") "\"tab\\there\""
-- escapes carriage return in string
#guard writes defaultEnc (s "return\rcarriage") "\"return\\rcarriage\""
-- escapes backslash in string
#guard writes defaultEnc (s "C:\\Users\\path") "\"C:\\\\Users\\\\path\""
-- quotes string with array-like syntax
#guard writes defaultEnc (s "[3]: x,y") "\"[3]: x,y\""
-- quotes string starting with hyphen-space
#guard writes defaultEnc (s "- item") "\"- item\""
-- quotes single hyphen as object value
#guard writes defaultEnc (.obj [("marker".toList, s "-")]) "marker: \"-\""
-- quotes string starting with hyphen as object value
#guard writes defaultEnc (.obj [("note".toList, s "- item")]) "note: \"- item\""
-- quotes single hyphen in array
#guard writes defaultEnc (.obj [("items".toList, .arr [s "-"])]) "items[1]: \"-\""
-- quotes leading-hyphen string in array
#guard writes defaultEnc (.obj [("tags".toList, .arr [s "a", s "- item", s "b"])]) "tags[3]: a,\"- item\",b"
-- quotes string with bracket notation
#guard writes defaultEnc (s "[test]") "\"[test]\""
-- quotes string with brace notation
#guard writes defaultEnc (s "{key}") "\"{key}\""
-- encodes Unicode string without quotes
#guard writes defaultEnc (s "café") "café"
-- encodes Chinese characters without quotes
#guard writes defaultEnc (s "你好") "你好"
-- encodes emoji without quotes
#guard writes defaultEnc (s "🚀") "🚀"
-- encodes string with emoji and spaces
#guard writes defaultEnc (s "hello 👋 world") "hello 👋 world"
-- encodes positive integer
#guard writes defaultEnc (n "42") "42"
-- encodes decimal number
#guard writes defaultEnc (n "3.14") "3.14"
-- encodes negative integer
#guard writes defaultEnc (n "-7") "-7"
-- encodes zero
#guard writes defaultEnc (n "0") "0"
-- encodes negative zero as zero
#guard writes defaultEnc (n "-0") "0"
-- encodes scientific notation as decimal
#guard writes defaultEnc (n "1000000") "1000000"
-- encodes small decimal from scientific notation
#guard writes defaultEnc (n "0.000001") "0.000001"
-- encodes large number
#guard writes defaultEnc (n "100000000000000000000") "100000000000000000000"
-- encodes MAX_SAFE_INTEGER
#guard writes defaultEnc (n "9007199254740991") "9007199254740991"
-- encodes repeating decimal with full precision
#guard writes defaultEnc (n "0.3333333333333333") "0.3333333333333333"
-- encodes true
#guard writes defaultEnc (.prim (.bool true)) "true"
-- encodes false
#guard writes defaultEnc (.prim (.bool false)) "false"
-- encodes null
#guard writes defaultEnc (.prim .null) "null"

/-! ## whitespace.json -/

-- produces no trailing newline at end of output
#guard writes defaultEnc (.obj [("id".toList, n "123")]) "id: 123"
-- maintains proper indentation for nested structures
#guard writes defaultEnc (.obj [("user".toList, .obj [("id".toList, n "123"), ("name".toList, s "Ada")]), ("items".toList, .arr [s "a", s "b"])]) "user:\n  id: 123\n  name: Ada\nitems[2]: a,b"
-- respects custom indent size option
#guard writes { defaultEnc with indent := 4 } (.obj [("user".toList, .obj [("name".toList, s "Ada"), ("role".toList, s "admin")])]) "user:\n    name: Ada\n    role: admin"

end Toon.Tests
