import Verif.Tests.Support

/-!
# Decoding fixtures

Tests of the model, not theorems about it: every case of `/repo/tests/fixtures/spec/decode/*.json`, as
`/repo/tests/decode_fixtures.rs` runs them.  The kernel evaluates the model of `try_decode`.
-/

namespace Toon.Tests

/-! ## arrays-nested.json -/

-- parses list arrays for non-uniform objects
example : reads defaultDec "items[2]:\n  - id: 1\n    name: First\n  - id: 2\n    name: Second\n    extra: true" (.obj [("items".toList, .arr [.obj [("id".toList, n "1"), ("name".toList, s "First")], .obj [("id".toList, n "2"), ("name".toList, s "Second"), ("extra".toList, .prim (.bool true))]])]) = true := by decide +kernel
-- parses list arrays with empty items
example : reads defaultDec "items[3]:\n  - first\n  - second\n  -" (.obj [("items".toList, .arr [s "first", s "second", .obj []])]) = true := by decide +kernel
-- parses list arrays with deeply nested objects
example : reads defaultDec "items[2]:\n  - properties:\n      state:\n        type: string\n  - id: 2" (.obj [("items".toList, .arr [.obj [("properties".toList, .obj [("state".toList, .obj [("type".toList, s "string")])])], .obj [("id".toList, n "2")]])]) = true := by decide +kernel
-- parses list arrays containing objects with nested properties
example : reads defaultDec "items[1]:\n  - id: 1\n    nested:\n      x: 1" (.obj [("items".toList, .arr [.obj [("id".toList, n "1"), ("nested".toList, .obj [("x".toList, n "1")])]])]) = true := by decide +kernel
-- parses list items whose first field is a tabular array
example : reads defaultDec "items[1]:\n  - users[2]{id,name}:\n      1,Ada\n      2,Bob\n    status: active" (.obj [("items".toList, .arr [.obj [("users".toList, .arr [.obj [("id".toList, n "1"), ("name".toList, s "Ada")], .obj [("id".toList, n "2"), ("name".toList, s "Bob")]]), ("status".toList, s "active")]])]) = true := by decide +kernel
-- parses single-field list-item object with tabular array
example : reads defaultDec "items[1]:\n  - users[2]{id,name}:\n      1,Ada\n      2,Bob" (.obj [("items".toList, .arr [.obj [("users".toList, .arr [.obj [("id".toList, n "1"), ("name".toList, s "Ada")], .obj [("id".toList, n "2"), ("name".toList, s "Bob")]])]])]) = true := by decide +kernel
-- parses objects containing arrays (including empty arrays) in list format
example : reads defaultDec "items[1]:\n  - name: Ada\n    data[0]:" (.obj [("items".toList, .arr [.obj [("name".toList, s "Ada"), ("data".toList, .arr [])]])]) = true := by decide +kernel
-- parses arrays of arrays within objects
example : reads defaultDec "items[1]:\n  - matrix[2]:\n      - [2]: 1,2\n      - [2]: 3,4\n    name: grid" (.obj [("items".toList, .arr [.obj [("matrix".toList, .arr [.arr [n "1", n "2"], .arr [n "3", n "4"]]), ("name".toList, s "grid")]])]) = true := by decide +kernel
-- parses nested arrays of primitives
example : reads defaultDec "pairs[2]:\n  - [2]: a,b\n  - [2]: c,d" (.obj [("pairs".toList, .arr [.arr [s "a", s "b"], .arr [s "c", s "d"]])]) = true := by decide +kernel
-- parses quoted strings and mixed lengths in nested arrays
example : reads defaultDec "pairs[2]:\n  - [2]: a,b\n  - [3]: \"c,d\",\"e:f\",\"true\"" (.obj [("pairs".toList, .arr [.arr [s "a", s "b"], .arr [s "c,d", s "e:f", s "true"]])]) = true := by decide +kernel
-- parses empty inner arrays
example : reads defaultDec "pairs[2]:\n  - [0]:\n  - [0]:" (.obj [("pairs".toList, .arr [.arr [], .arr []])]) = true := by decide +kernel
-- parses mixed-length inner arrays
example : reads defaultDec "pairs[2]:\n  - [1]: 1\n  - [2]: 2,3" (.obj [("pairs".toList, .arr [.arr [n "1"], .arr [n "2", n "3"]])]) = true := by decide +kernel
-- parses root-level primitive array inline
example : reads defaultDec "[5]: x,y,\"true\",true,10" (.arr [s "x", s "y", s "true", .prim (.bool true), n "10"]) = true := by decide +kernel
-- parses root-level array of uniform objects in tabular format
example : reads defaultDec "[2]{id}:\n  1\n  2" (.arr [.obj [("id".toList, n "1")], .obj [("id".toList, n "2")]]) = true := by decide +kernel
-- parses root-level array of non-uniform objects in list format
example : reads defaultDec "[2]:\n  - id: 1\n  - id: 2\n    name: Ada" (.arr [.obj [("id".toList, n "1")], .obj [("id".toList, n "2"), ("name".toList, s "Ada")]]) = true := by decide +kernel
-- parses root-level array mixing primitive, object, and array of objects in list format
example : reads defaultDec "[3]:\n  - summary\n  - id: 1\n    name: Ada\n  - [2]:\n    - id: 2\n    - status: draft" (.arr [s "summary", .obj [("id".toList, n "1"), ("name".toList, s "Ada")], .arr [.obj [("id".toList, n "2")], .obj [("status".toList, s "draft")]]]) = true := by decide +kernel
-- parses root-level array of arrays
example : reads defaultDec "[2]:\n  - [2]: 1,2\n  - [0]:" (.arr [.arr [n "1", n "2"], .arr []]) = true := by decide +kernel
-- parses empty root-level array
example : reads defaultDec "[0]:" (.arr []) = true := by decide +kernel
-- parses complex mixed object with arrays and nested objects
example : reads defaultDec "user:\n  id: 123\n  name: Ada\n  tags[2]: reading,gaming\n  active: true\n  prefs[0]:" (.obj [("user".toList, .obj [("id".toList, n "123"), ("name".toList, s "Ada"), ("tags".toList, .arr [s "reading", s "gaming"]), ("active".toList, .prim (.bool true)), ("prefs".toList, .arr [])])]) = true := by decide +kernel
-- parses arrays mixing primitives, objects, and strings in list format
example : reads defaultDec "items[3]:\n  - 1\n  - a: 1\n  - text" (.obj [("items".toList, .arr [n "1", .obj [("a".toList, n "1")], s "text"])]) = true := by decide +kernel
-- parses arrays mixing objects and arrays
example : reads defaultDec "items[2]:\n  - a: 1\n  - [2]: 1,2" (.obj [("items".toList, .arr [.obj [("a".toList, n "1")], .arr [n "1", n "2"]])]) = true := by decide +kernel
-- parses quoted key with list array format
example : reads defaultDec "\"x-items\"[2]:\n  - id: 1\n  - id: 2" (.obj [("x-items".toList, .arr [.obj [("id".toList, n "1")], .obj [("id".toList, n "2")]])]) = true := by decide +kernel

/-! ## arrays-primitive.json -/

-- parses string arrays inline
example : reads defaultDec "tags[3]: reading,gaming,coding" (.obj [("tags".toList, .arr [s "reading", s "gaming", s "coding"])]) = true := by decide +kernel
-- parses number arrays inline
example : reads defaultDec "nums[3]: 1,2,3" (.obj [("nums".toList, .arr [n "1", n "2", n "3"])]) = true := by decide +kernel
-- parses mixed primitive arrays inline
example : reads defaultDec "data[4]: x,y,true,10" (.obj [("data".toList, .arr [s "x", s "y", .prim (.bool true), n "10"])]) = true := by decide +kernel
-- parses empty arrays
example : reads defaultDec "items[0]:" (.obj [("items".toList, .arr [])]) = true := by decide +kernel
-- parses single-item array with empty string
example : reads defaultDec "items[1]: \"\"" (.obj [("items".toList, .arr [s ""])]) = true := by decide +kernel
-- parses multi-item array with empty string
example : reads defaultDec "items[3]: a,\"\",b" (.obj [("items".toList, .arr [s "a", s "", s "b"])]) = true := by decide +kernel
-- parses whitespace-only strings in arrays
example : reads defaultDec "items[2]: \" \",\"  \"" (.obj [("items".toList, .arr [s " ", s "  "])]) = true := by decide +kernel
-- parses strings with delimiters in arrays
example : reads defaultDec "items[3]: a,\"b,c\",\"d:e\"" (.obj [("items".toList, .arr [s "a", s "b,c", s "d:e"])]) = true := by decide +kernel
-- parses strings that look like primitives when quoted
example : reads defaultDec "items[4]: x,\"true\",\"42\",\"-3.14\"" (.obj [("items".toList, .arr [s "x", s "true", s "42", s "-3.14"])]) = true := by decide +kernel
-- parses strings with structural tokens in arrays
example : reads defaultDec "items[3]: \"[5]\",\"- item\",\"{key}\"" (.obj [("items".toList, .arr [s "[5]", s "- item", s "{key}"])]) = true := by decide +kernel
-- parses quoted key with inline array
example : reads defaultDec "\"my-key\"[3]: 1,2,3" (.obj [("my-key".toList, .arr [n "1", n "2", n "3"])]) = true := by decide +kernel
-- parses quoted key containing brackets with inline array
example : reads defaultDec "\"key[test]\"[3]: 1,2,3" (.obj [("key[test]".toList, .arr [n "1", n "2", n "3"])]) = true := by decide +kernel
-- parses quoted key with empty array
example : reads defaultDec "\"x-custom\"[0]:" (.obj [("x-custom".toList, .arr [])]) = true := by decide +kernel

/-! ## arrays-tabular.json -/

-- parses tabular arrays of uniform objects
example : reads defaultDec "items[2]{sku,qty,price}:\n  A1,2,9.99\n  B2,1,14.5" (.obj [("items".toList, .arr [.obj [("sku".toList, s "A1"), ("qty".toList, n "2"), ("price".toList, n "9.99")], .obj [("sku".toList, s "B2"), ("qty".toList, n "1"), ("price".toList, n "14.5")]])]) = true := by decide +kernel
-- parses nulls and quoted values in tabular rows
example : reads defaultDec "items[2]{id,value}:\n  1,null\n  2,\"test\"" (.obj [("items".toList, .arr [.obj [("id".toList, n "1"), ("value".toList, .prim .null)], .obj [("id".toList, n "2"), ("value".toList, s "test")]])]) = true := by decide +kernel
-- parses quoted colon in tabular row as data
example : reads defaultDec "items[2]{id,note}:\n  1,\"a:b\"\n  2,\"c:d\"" (.obj [("items".toList, .arr [.obj [("id".toList, n "1"), ("note".toList, s "a:b")], .obj [("id".toList, n "2"), ("note".toList, s "c:d")]])]) = true := by decide +kernel
-- parses quoted header keys in tabular arrays
example : reads defaultDec "items[2]{\"order:id\",\"full name\"}:\n  1,Ada\n  2,Bob" (.obj [("items".toList, .arr [.obj [("order:id".toList, n "1"), ("full name".toList, s "Ada")], .obj [("order:id".toList, n "2"), ("full name".toList, s "Bob")]])]) = true := by decide +kernel
-- parses quoted key with tabular array format
example : reads defaultDec "\"x-items\"[2]{id,name}:\n  1,Ada\n  2,Bob" (.obj [("x-items".toList, .arr [.obj [("id".toList, n "1"), ("name".toList, s "Ada")], .obj [("id".toList, n "2"), ("name".toList, s "Bob")]])]) = true := by decide +kernel
-- treats unquoted colon as terminator for tabular rows and start of key-value pair
example : reads defaultDec "items[2]{id,name}:\n  1,Alice\n  2,Bob\ncount: 2" (.obj [("items".toList, .arr [.obj [("id".toList, n "1"), ("name".toList, s "Alice")], .obj [("id".toList, n "2"), ("name".toList, s "Bob")]]), ("count".toList, n "2")]) = true := by decide +kernel

/-! ## blank-lines.json -/

-- throws on blank line inside list array
example : fails { defaultDec with strict := true } "items[3]:\n  - a\n\n  - b\n  - c" = true := by decide +kernel
-- throws on blank line inside tabular array
example : fails { defaultDec with strict := true } "items[2]{id}:\n  1\n\n  2" = true := by decide +kernel
-- throws on multiple blank lines inside array
example : fails { defaultDec with strict := true } "items[2]:\n  - a\n\n\n  - b" = true := by decide +kernel
-- throws on blank line with spaces inside array
example : fails { defaultDec with strict := true } "items[2]:\n  - a\n  \n  - b" = true := by decide +kernel
-- throws on blank line in nested list array
example : fails { defaultDec with strict := true } "outer[2]:\n  - inner[2]:\n    - a\n\n    - b\n  - x" = true := by decide +kernel
-- accepts blank line between root-level fields
example : reads { defaultDec with strict := true } "a: 1\n\nb: 2" (.obj [("a".toList, n "1"), ("b".toList, n "2")]) = true := by decide +kernel
-- accepts trailing newline at end of file
example : reads { defaultDec with strict := true } "a: 1\n" (.obj [("a".toList, n "1")]) = true := by decide +kernel
-- accepts multiple trailing newlines
example : reads { defaultDec with strict := true } "a: 1\n\n\n" (.obj [("a".toList, n "1")]) = true := by decide +kernel
-- accepts blank line after array ends
example : reads { defaultDec with strict := true } "items[1]:\n  - a\n\nb: 2" (.obj [("items".toList, .arr [s "a"]), ("b".toList, n "2")]) = true := by decide +kernel
-- accepts blank line between nested object fields
example : reads { defaultDec with strict := true } "a:\n  b: 1\n\n  c: 2" (.obj [("a".toList, .obj [("b".toList, n "1"), ("c".toList, n "2")])]) = true := by decide +kernel
-- ignores blank lines inside list array when strict=false
example : reads { defaultDec with strict := false } "items[3]:\n  - a\n\n  - b\n  - c" (.obj [("items".toList, .arr [s "a", s "b", s "c"])]) = true := by decide +kernel
-- ignores blank lines inside tabular array when strict=false
example : reads { defaultDec with strict := false } "items[2]{id,name}:\n  1,Alice\n\n  2,Bob" (.obj [("items".toList, .arr [.obj [("id".toList, n "1"), ("name".toList, s "Alice")], .obj [("id".toList, n "2"), ("name".toList, s "Bob")]])]) = true := by decide +kernel
-- ignores multiple blank lines in arrays when strict=false
example : reads { defaultDec with strict := false } "items[2]:\n  - a\n\n\n  - b" (.obj [("items".toList, .arr [s "a", s "b"])]) = true := by decide +kernel

/-! ## delimiters.json -/

-- parses primitive arrays with tab delimiter
example : reads defaultDec "tags[3\t]: reading\tgaming\tcoding" (.obj [("tags".toList, .arr [s "reading", s "gaming", s "coding"])]) = true := by decide +kernel
-- parses primitive arrays with pipe delimiter
example : reads defaultDec "tags[3|]: reading|gaming|coding" (.obj [("tags".toList, .arr [s "reading", s "gaming", s "coding"])]) = true := by decide +kernel
-- parses primitive arrays with comma delimiter
example : reads defaultDec "tags[3]: reading,gaming,coding" (.obj [("tags".toList, .arr [s "reading", s "gaming", s "coding"])]) = true := by decide +kernel
-- parses tabular arrays with tab delimiter
example : reads defaultDec "items[2\t]{sku\tqty\tprice}:\n  A1\t2\t9.99\n  B2\t1\t14.5" (.obj [("items".toList, .arr [.obj [("sku".toList, s "A1"), ("qty".toList, n "2"), ("price".toList, n "9.99")], .obj [("sku".toList, s "B2"), ("qty".toList, n "1"), ("price".toList, n "14.5")]])]) = true := by decide +kernel
-- parses tabular arrays with pipe delimiter
example : reads defaultDec "items[2|]{sku|qty|price}:\n  A1|2|9.99\n  B2|1|14.5" (.obj [("items".toList, .arr [.obj [("sku".toList, s "A1"), ("qty".toList, n "2"), ("price".toList, n "9.99")], .obj [("sku".toList, s "B2"), ("qty".toList, n "1"), ("price".toList, n "14.5")]])]) = true := by decide +kernel
-- parses nested arrays with tab delimiter
example : reads defaultDec "pairs[2\t]:\n  - [2\t]: a\tb\n  - [2\t]: c\td" (.obj [("pairs".toList, .arr [.arr [s "a", s "b"], .arr [s "c", s "d"]])]) = true := by decide +kernel
-- parses nested arrays with pipe delimiter
example : reads defaultDec "pairs[2|]:\n  - [2|]: a|b\n  - [2|]: c|d" (.obj [("pairs".toList, .arr [.arr [s "a", s "b"], .arr [s "c", s "d"]])]) = true := by decide +kernel
-- parses nested arrays inside list items with default comma delimiter
example : reads defaultDec "items[1\t]:\n  - tags[3]: a,b,c" (.obj [("items".toList, .arr [.obj [("tags".toList, .arr [s "a", s "b", s "c"])]])]) = true := by decide +kernel
-- parses nested arrays inside list items with default comma delimiter when parent uses pipe
example : reads defaultDec "items[1|]:\n  - tags[3]: a,b,c" (.obj [("items".toList, .arr [.obj [("tags".toList, .arr [s "a", s "b", s "c"])]])]) = true := by decide +kernel
-- parses root-level array with tab delimiter
example : reads defaultDec "[3\t]: x\ty\tz" (.arr [s "x", s "y", s "z"]) = true := by decide +kernel
-- parses root-level array with pipe delimiter
example : reads defaultDec "[3|]: x|y|z" (.arr [s "x", s "y", s "z"]) = true := by decide +kernel
-- parses root-level array of objects with tab delimiter
example : reads defaultDec "[2\t]{id}:\n  1\n  2" (.arr [.obj [("id".toList, n "1")], .obj [("id".toList, n "2")]]) = true := by decide +kernel
-- parses root-level array of objects with pipe delimiter
example : reads defaultDec "[2|]{id}:\n  1\n  2" (.arr [.obj [("id".toList, n "1")], .obj [("id".toList, n "2")]]) = true := by decide +kernel
-- parses values containing tab delimiter when quoted
example : reads defaultDec "items[3\t]: a\t\"b\\tc\"\td" (.obj [("items".toList, .arr [s "a", s "b\tc", s "d"])]) = true := by decide +kernel
-- parses values containing pipe delimiter when quoted
example : reads defaultDec "items[3|]: a|\"b|c\"|d" (.obj [("items".toList, .arr [s "a", s "b|c", s "d"])]) = true := by decide +kernel
-- does not split on commas when using tab delimiter
example : reads defaultDec "items[2\t]: a,b\tc,d" (.obj [("items".toList, .arr [s "a,b", s "c,d"])]) = true := by decide +kernel
-- does not split on commas when using pipe delimiter
example : reads defaultDec "items[2|]: a,b|c,d" (.obj [("items".toList, .arr [s "a,b", s "c,d"])]) = true := by decide +kernel
-- parses tabular values containing comma with comma delimiter
example : reads defaultDec "items[2]{id,note}:\n  1,\"a,b\"\n  2,\"c,d\"" (.obj [("items".toList, .arr [.obj [("id".toList, n "1"), ("note".toList, s "a,b")], .obj [("id".toList, n "2"), ("note".toList, s "c,d")]])]) = true := by decide +kernel
-- does not require quoting commas with tab delimiter
example : reads defaultDec "items[2\t]{id\tnote}:\n  1\ta,b\n  2\tc,d" (.obj [("items".toList, .arr [.obj [("id".toList, n "1"), ("note".toList, s "a,b")], .obj [("id".toList, n "2"), ("note".toList, s "c,d")]])]) = true := by decide +kernel
-- does not require quoting commas in object values
example : reads defaultDec "note: a,b" (.obj [("note".toList, s "a,b")]) = true := by decide +kernel
-- object values in list items follow document delimiter
example : reads defaultDec "items[2\t]:\n  - status: a,b\n  - status: c,d" (.obj [("items".toList, .arr [.obj [("status".toList, s "a,b")], .obj [("status".toList, s "c,d")]])]) = true := by decide +kernel
-- object values with comma must be quoted when document delimiter is comma
example : reads defaultDec "items[2]:\n  - status: \"a,b\"\n  - status: \"c,d\"" (.obj [("items".toList, .arr [.obj [("status".toList, s "a,b")], .obj [("status".toList, s "c,d")]])]) = true := by decide +kernel
-- parses nested array values containing pipe delimiter
example : reads defaultDec "pairs[1|]:\n  - [2|]: a|\"b|c\"" (.obj [("pairs".toList, .arr [.arr [s "a", s "b|c"]])]) = true := by decide +kernel
-- parses nested array values containing tab delimiter
example : reads defaultDec "pairs[1\t]:\n  - [2\t]: a\t\"b\\tc\"" (.obj [("pairs".toList, .arr [.arr [s "a", s "b\tc"]])]) = true := by decide +kernel
-- preserves quoted ambiguity with pipe delimiter
example : reads defaultDec "items[3|]: \"true\"|\"42\"|\"-3.14\"" (.obj [("items".toList, .arr [s "true", s "42", s "-3.14"])]) = true := by decide +kernel
-- preserves quoted ambiguity with tab delimiter
example : reads defaultDec "items[3\t]: \"true\"\t\"42\"\t\"-3.14\"" (.obj [("items".toList, .arr [s "true", s "42", s "-3.14"])]) = true := by decide +kernel
-- parses structural-looking strings when quoted with pipe delimiter
example : reads defaultDec "items[3|]: \"[5]\"|\"{key}\"|\"- item\"" (.obj [("items".toList, .arr [s "[5]", s "{key}", s "- item"])]) = true := by decide +kernel
-- parses structural-looking strings when quoted with tab delimiter
example : reads defaultDec "items[3\t]: \"[5]\"\t\"{key}\"\t\"- item\"" (.obj [("items".toList, .arr [s "[5]", s "{key}", s "- item"])]) = true := by decide +kernel
-- parses tabular headers with keys containing the active delimiter
example : reads defaultDec "items[2|]{\"a|b\"}:\n  1\n  2" (.obj [("items".toList, .arr [.obj [("a|b".toList, n "1")], .obj [("a|b".toList, n "2")]])]) = true := by decide +kernel

/-! ## indentation-errors.json -/

-- throws on object field with non-multiple indentation (3 spaces with indent=2)
example : fails { defaultDec with indent := 2, strict := true } "a:\n   b: 1" = true := by decide +kernel
-- throws on list item with non-multiple indentation (3 spaces with indent=2)
example : fails { defaultDec with indent := 2, strict := true } "items[2]:\n   - id: 1\n   - id: 2" = true := by decide +kernel
-- throws on non-multiple indentation with custom indent=4 (3 spaces)
example : fails { defaultDec with indent := 4, strict := true } "a:\n   b: 1" = true := by decide +kernel
-- accepts correct indentation with custom indent size (4 spaces with indent=4)
example : reads { defaultDec with indent := 4, strict := true } "a:\n    b: 1" (.obj [("a".toList, .obj [("b".toList, n "1")])]) = true := by decide +kernel
-- throws on tab character used in indentation
example : fails { defaultDec with strict := true } "a:\n\tb: 1" = true := by decide +kernel
-- throws on mixed tabs and spaces in indentation
example : fails { defaultDec with strict := true } "a:\n \tb: 1" = true := by decide +kernel
-- throws on tab at start of line
example : fails { defaultDec with strict := true } "\ta: 1" = true := by decide +kernel
-- accepts tabs in quoted string values
example : reads { defaultDec with strict := true } "text: \"hello\tworld\"" (.obj [("text".toList, s "hello\tworld")]) = true := by decide +kernel
-- accepts tabs in quoted keys
example : reads { defaultDec with strict := true } "\"key\ttab\": value" (.obj [("key\ttab".toList, s "value")]) = true := by decide +kernel
-- accepts tabs in quoted array elements
example : reads { defaultDec with strict := true } "items[2]: \"a\tb\",\"c\td\"" (.obj [("items".toList, .arr [s "a\tb", s "c\td"])]) = true := by decide +kernel
-- accepts non-multiple indentation when strict=false
example : reads { defaultDec with indent := 2, strict := false } "a:\n   b: 1" (.obj [("a".toList, .obj [("b".toList, n "1")])]) = true := by decide +kernel
-- accepts deeply nested non-multiples when strict=false
example : reads { defaultDec with indent := 2, strict := false } "a:\n   b:\n     c: 1" (.obj [("a".toList, .obj [("b".toList, .obj [("c".toList, n "1")])])]) = true := by decide +kernel
-- parses empty lines without validation errors
example : reads { defaultDec with strict := true } "a: 1\n\nb: 2" (.obj [("a".toList, n "1"), ("b".toList, n "2")]) = true := by decide +kernel
-- parses root-level content (0 indentation) as always valid
example : reads { defaultDec with strict := true } "a: 1\nb: 2\nc: 3" (.obj [("a".toList, n "1"), ("b".toList, n "2"), ("c".toList, n "3")]) = true := by decide +kernel
-- parses lines with only spaces without validation if empty
example : reads { defaultDec with strict := true } "a: 1\n   \nb: 2" (.obj [("a".toList, n "1"), ("b".toList, n "2")]) = true := by decide +kernel

/-! ## numbers.json -/

-- parses number with trailing zeros in fractional part
example : reads defaultDec "value: 1.5000" (.obj [("value".toList, n "1.5")]) = true := by decide +kernel
-- parses negative number with positive exponent
example : reads defaultDec "value: -1E+03" (.obj [("value".toList, n "-1000")]) = true := by decide +kernel
-- parses lowercase exponent
example : reads defaultDec "value: 2.5e2" (.obj [("value".toList, n "250")]) = true := by decide +kernel
-- parses uppercase exponent with negative sign
example : reads defaultDec "value: 3E-02" (.obj [("value".toList, n "0.03")]) = true := by decide +kernel
-- parses negative zero as zero
example : reads defaultDec "value: -0" (.obj [("value".toList, n "0")]) = true := by decide +kernel
-- parses negative zero with fractional part
example : reads defaultDec "value: -0.0" (.obj [("value".toList, n "0")]) = true := by decide +kernel
-- parses array with mixed numeric forms
example : reads defaultDec "nums[5]: 42,-1E+03,1.5000,-0,2.5e2" (.obj [("nums".toList, .arr [n "42", n "-1000", n "1.5", n "0", n "250"])]) = true := by decide +kernel
-- treats leading zero as string not number
example : reads defaultDec "value: 05" (.obj [("value".toList, s "05")]) = true := by decide +kernel
-- parses very small exponent
example : reads defaultDec "value: 1e-10" (.obj [("value".toList, n "0.0000000001")]) = true := by decide +kernel
-- parses integer with positive exponent
example : reads defaultDec "value: 5E+00" (.obj [("value".toList, n "5")]) = true := by decide +kernel
-- parses zero with exponent as number
example : reads defaultDec "value: 0e1" (.obj [("value".toList, n "0")]) = true := by decide +kernel
-- parses negative zero with exponent as number
example : reads defaultDec "value: -0e1" (.obj [("value".toList, n "0")]) = true := by decide +kernel
-- parses exponent notation
example : reads defaultDec "1e6" (n "1000000") = true := by decide +kernel
-- parses exponent notation with uppercase E
example : reads defaultDec "1E+6" (n "1000000") = true := by decide +kernel
-- parses negative exponent notation
example : reads defaultDec "-1e-3" (n "-0.001") = true := by decide +kernel
-- treats unquoted leading-zero number as string
example : reads defaultDec "05" (s "05") = true := by decide +kernel
-- treats unquoted multi-leading-zero as string
example : reads defaultDec "007" (s "007") = true := by decide +kernel
-- treats unquoted octal-like as string
example : reads defaultDec "0123" (s "0123") = true := by decide +kernel
-- treats leading-zero in object value as string
example : reads defaultDec "a: 05" (.obj [("a".toList, s "05")]) = true := by decide +kernel
-- treats leading-zeros in array as strings
example : reads defaultDec "nums[3]: 05,007,0123" (.obj [("nums".toList, .arr [s "05", s "007", s "0123"])]) = true := by decide +kernel
-- treats unquoted negative leading-zero number as string
example : reads defaultDec "-05" (s "-05") = true := by decide +kernel
-- treats negative leading-zeros in array as strings
example : reads defaultDec "nums[2]: -05,-007" (.obj [("nums".toList, .arr [s "-05", s "-007"])]) = true := by decide +kernel

/-! ## objects.json -/

-- parses objects with primitive values
example : reads defaultDec "id: 123\nname: Ada\nactive: true" (.obj [("id".toList, n "123"), ("name".toList, s "Ada"), ("active".toList, .prim (.bool true))]) = true := by decide +kernel
-- parses null values in objects
example : reads defaultDec "id: 123\nvalue: null" (.obj [("id".toList, n "123"), ("value".toList, .prim .null)]) = true := by decide +kernel
-- parses empty nested object header
example : reads defaultDec "user:" (.obj [("user".toList, .obj [])]) = true := by decide +kernel
-- parses quoted object value with colon
example : reads defaultDec "note: \"a:b\"" (.obj [("note".toList, s "a:b")]) = true := by decide +kernel
-- parses quoted object value with comma
example : reads defaultDec "note: \"a,b\"" (.obj [("note".toList, s "a,b")]) = true := by decide +kernel
-- parses quoted object value with newline escape
example : reads defaultDec "text: \"line1\\nline2\"" (.obj [("text".toList, s "line1\nline2")]) = true := by decide +kernel
-- parses quoted object value with escaped quotes
example : reads defaultDec "text: \"say \\\"hello\\\"\"" (.obj [("text".toList, s "say \"hello\"")]) = true := by decide +kernel
-- parses quoted object value with leading/trailing spaces
example : reads defaultDec "text: \" padded \"" (.obj [("text".toList, s " padded ")]) = true := by decide +kernel
-- parses quoted object value with only spaces
example : reads defaultDec "text: \"  \"" (.obj [("text".toList, s "  ")]) = true := by decide +kernel
-- parses quoted string value that looks like true
example : reads defaultDec "v: \"true\"" (.obj [("v".toList, s "true")]) = true := by decide +kernel
-- parses quoted string value that looks like integer
example : reads defaultDec "v: \"42\"" (.obj [("v".toList, s "42")]) = true := by decide +kernel
-- parses quoted string value that looks like negative decimal
example : reads defaultDec "v: \"-7.5\"" (.obj [("v".toList, s "-7.5")]) = true := by decide +kernel
-- parses quoted key with colon
example : reads defaultDec "\"order:id\": 7" (.obj [("order:id".toList, n "7")]) = true := by decide +kernel
-- parses quoted key with brackets
example : reads defaultDec "\"[index]\": 5" (.obj [("[index]".toList, n "5")]) = true := by decide +kernel
-- parses quoted key with braces
example : reads defaultDec "\"{key}\": 5" (.obj [("{key}".toList, n "5")]) = true := by decide +kernel
-- parses quoted key with comma
example : reads defaultDec "\"a,b\": 1" (.obj [("a,b".toList, n "1")]) = true := by decide +kernel
-- parses quoted key with spaces
example : reads defaultDec "\"full name\": Ada" (.obj [("full name".toList, s "Ada")]) = true := by decide +kernel
-- parses quoted key with leading hyphen
example : reads defaultDec "\"-lead\": 1" (.obj [("-lead".toList, n "1")]) = true := by decide +kernel
-- parses quoted key with leading and trailing spaces
example : reads defaultDec "\" a \": 1" (.obj [(" a ".toList, n "1")]) = true := by decide +kernel
-- parses quoted numeric key
example : reads defaultDec "\"123\": x" (.obj [("123".toList, s "x")]) = true := by decide +kernel
-- parses quoted empty string key
example : reads defaultDec "\"\": 1" (.obj [("".toList, n "1")]) = true := by decide +kernel
-- parses dotted keys as identifiers
example : reads defaultDec "user.name: Ada" (.obj [("user.name".toList, s "Ada")]) = true := by decide +kernel
-- parses underscore-prefixed keys
example : reads defaultDec "_private: 1" (.obj [("_private".toList, n "1")]) = true := by decide +kernel
-- parses underscore-containing keys
example : reads defaultDec "user_name: 1" (.obj [("user_name".toList, n "1")]) = true := by decide +kernel
-- unescapes newline in key
example : reads defaultDec "\"line\\nbreak\": 1" (.obj [("line\nbreak".toList, n "1")]) = true := by decide +kernel
-- unescapes tab in key
example : reads defaultDec "\"tab\\there\": 2" (.obj [("tab\there".toList, n "2")]) = true := by decide +kernel
-- unescapes quotes in key
example : reads defaultDec "\"he said \\\"hi\\\"\": 1" (.obj [("he said \"hi\"".toList, n "1")]) = true := by decide +kernel
-- parses deeply nested objects with indentation
example : reads defaultDec "a:\n  b:\n    c: deep" (.obj [("a".toList, .obj [("b".toList, .obj [("c".toList, s "deep")])])]) = true := by decide +kernel

/-! ## path-expansion.json -/

-- expands dotted key to nested object in safe mode
example : reads { defaultDec with expand := true } "a.b.c: 1" (.obj [("a".toList, .obj [("b".toList, .obj [("c".toList, n "1")])])]) = true := by decide +kernel
-- expands dotted key with inline array
example : reads { defaultDec with expand := true } "data.meta.items[2]: a,b" (.obj [("data".toList, .obj [("meta".toList, .obj [("items".toList, .arr [s "a", s "b"])])])]) = true := by decide +kernel
-- expands dotted key with tabular array
example : reads { defaultDec with expand := true } "a.b.items[2]{id,name}:\n  1,A\n  2,B" (.obj [("a".toList, .obj [("b".toList, .obj [("items".toList, .arr [.obj [("id".toList, n "1"), ("name".toList, s "A")], .obj [("id".toList, n "2"), ("name".toList, s "B")]])])])]) = true := by decide +kernel
-- preserves literal dotted keys when expansion is off
example : reads { defaultDec with expand := false } "user.name: Ada" (.obj [("user.name".toList, s "Ada")]) = true := by decide +kernel
-- expands and deep-merges preserving document-order insertion
example : reads { defaultDec with expand := true } "a.b.c: 1\na.b.d: 2\na.e: 3" (.obj [("a".toList, .obj [("b".toList, .obj [("c".toList, n "1"), ("d".toList, n "2")]), ("e".toList, n "3")])]) = true := by decide +kernel
-- throws on expansion conflict (object vs primitive) when strict=true
example : fails { defaultDec with strict := true, expand := true } "a.b: 1\na: 2" = true := by decide +kernel
-- throws on expansion conflict (object vs array) when strict=true
example : fails { defaultDec with strict := true, expand := true } "a.b: 1\na[2]: 2,3" = true := by decide +kernel
-- applies LWW when strict=false (primitive overwrites expanded object)
example : reads { defaultDec with strict := false, expand := true } "a.b: 1\na: 2" (.obj [("a".toList, n "2")]) = true := by decide +kernel
-- applies LWW when strict=false (expanded object overwrites primitive)
example : reads { defaultDec with strict := false, expand := true } "a: 1\na.b: 2" (.obj [("a".toList, .obj [("b".toList, n "2")])]) = true := by decide +kernel
-- preserves quoted dotted key as literal when expandPaths=safe
example : reads { defaultDec with expand := true } "a.b: 1\n\"c.d\": 2" (.obj [("a".toList, .obj [("b".toList, n "1")]), ("c.d".toList, n "2")]) = true := by decide +kernel
-- preserves non-IdentifierSegment keys as literals
example : reads { defaultDec with expand := true } "full-name.x: 1" (.obj [("full-name.x".toList, n "1")]) = true := by decide +kernel
-- expands keys creating empty nested objects
example : reads { defaultDec with expand := true } "a.b.c:" (.obj [("a".toList, .obj [("b".toList, .obj [("c".toList, .obj [])])])]) = true := by decide +kernel

/-! ## primitives.json -/

-- parses safe unquoted string
example : reads defaultDec "hello" (s "hello") = true := by decide +kernel
-- parses unquoted string with underscore and numbers
example : reads defaultDec "Ada_99" (s "Ada_99") = true := by decide +kernel
-- parses empty quoted string
example : reads defaultDec "\"\"" (s "") = true := by decide +kernel
-- parses quoted string with newline escape
example : reads defaultDec "\"line1\\nline2\"" (s "line1\nline2") = true := by decide +kernel
-- parses quoted string with tab escape
example : reads defaultDec "\"tab\\there\"" (s "tab\there") = true := by decide +kernel
-- parses quoted string with carriage return escape
example : reads defaultDec "\"return\\rcarriage\"" (s "return\rcarriage") = true := by decide +kernel
-- parses quoted string with backslash escape
example : reads defaultDec "\"C:\\\\Users\\\\path\"" (s "C:\\Users\\path") = true := by decide +kernel
-- parses quoted string with escaped quotes
example : reads defaultDec "\"say \\\"hello\\\"\"" (s "say \"hello\"") = true := by decide +kernel
-- parses Unicode string
example : reads defaultDec "café" (s "café") = true := by decide +kernel
-- parses Chinese characters
example : reads defaultDec "你好" (s "你好") = true := by decide +kernel
-- parses emoji
example : reads defaultDec "🚀" (s "🚀") = true := by decide +kernel
-- parses string with emoji and spaces
example : reads defaultDec "hello 👋 world" (s "hello 👋 world") = true := by decide +kernel
-- parses positive integer
example : reads defaultDec "42" (n "42") = true := by decide +kernel
-- parses decimal number
example : reads defaultDec "3.14" (n "3.14") = true := by decide +kernel
-- parses negative integer
example : reads defaultDec "-7" (n "-7") = true := by decide +kernel
-- parses true
example : reads defaultDec "true" (.prim (.bool true)) = true := by decide +kernel
-- parses false
example : reads defaultDec "false" (.prim (.bool false)) = true := by decide +kernel
-- parses null
example : reads defaultDec "null" (.prim .null) = true := by decide +kernel
-- respects ambiguity quoting for true
example : reads defaultDec "\"true\"" (s "true") = true := by decide +kernel
-- respects ambiguity quoting for false
example : reads defaultDec "\"false\"" (s "false") = true := by decide +kernel
-- respects ambiguity quoting for null
example : reads defaultDec "\"null\"" (s "null") = true := by decide +kernel
-- respects ambiguity quoting for integer
example : reads defaultDec "\"42\"" (s "42") = true := by decide +kernel
-- respects ambiguity quoting for negative decimal
example : reads defaultDec "\"-3.14\"" (s "-3.14") = true := by decide +kernel
-- respects ambiguity quoting for scientific notation
example : reads defaultDec "\"1e-6\"" (s "1e-6") = true := by decide +kernel
-- respects ambiguity quoting for leading-zero
example : reads defaultDec "\"05\"" (s "05") = true := by decide +kernel

/-! ## root-form.json -/

-- parses empty document as empty object
example : reads { defaultDec with strict := true } "" (.obj []) = true := by decide +kernel

/-! ## validation-errors.json -/

-- throws on array length mismatch (inline primitives - too many)
example : fails defaultDec "tags[2]: a,b,c" = true := by decide +kernel
-- throws on array length mismatch (list format - too many)
example : fails defaultDec "items[1]:\n  - 1\n  - 2" = true := by decide +kernel
-- throws on tabular row value count mismatch with header field count
example : fails defaultDec "items[2]{id,name}:\n  1,Ada\n  2" = true := by decide +kernel
-- throws on tabular row count mismatch with header length
example : fails defaultDec "[1]{id}:\n  1\n  2" = true := by decide +kernel
-- throws on invalid escape sequence
example : fails defaultDec "\"a\\x\"" = true := by decide +kernel
-- throws on unterminated string
example : fails defaultDec "\"unterminated" = true := by decide +kernel
-- throws on missing colon in key-value context
example : fails defaultDec "a:\n  user" = true := by decide +kernel
-- throws on two primitives at root depth in strict mode
example : fails { defaultDec with strict := true } "hello\nworld" = true := by decide +kernel
-- throws on delimiter mismatch (header declares tab, row uses comma)
example : fails defaultDec "items[2\t]{a\tb}:\n  1,2\n  3,4" = true := by decide +kernel
-- throws on mismatched delimiter between bracket and brace fields
example : fails { defaultDec with strict := true } "items[2\t]{a,b}:\n  1\t2\n  3\t4" = true := by decide +kernel

/-! ## whitespace.json -/

-- tolerates spaces around commas in inline arrays
example : reads defaultDec "tags[3]: a , b , c" (.obj [("tags".toList, .arr [s "a", s "b", s "c"])]) = true := by decide +kernel
-- tolerates spaces around pipes in inline arrays
example : reads defaultDec "tags[3|]: a | b | c" (.obj [("tags".toList, .arr [s "a", s "b", s "c"])]) = true := by decide +kernel
-- tolerates spaces around tabs in inline arrays
example : reads defaultDec "tags[3\t]: a \t b \t c" (.obj [("tags".toList, .arr [s "a", s "b", s "c"])]) = true := by decide +kernel
-- tolerates leading and trailing spaces in tabular row values
example : reads defaultDec "items[2]{id,name}:\n  1 , Alice \n  2 , Bob " (.obj [("items".toList, .arr [.obj [("id".toList, n "1"), ("name".toList, s "Alice")], .obj [("id".toList, n "2"), ("name".toList, s "Bob")]])]) = true := by decide +kernel
-- tolerates spaces around delimiters with quoted values
example : reads defaultDec "items[3]: \"a\" , \"b\" , \"c\"" (.obj [("items".toList, .arr [s "a", s "b", s "c"])]) = true := by decide +kernel
-- parses empty tokens as empty string
example : reads defaultDec "items[3]: a,,c" (.obj [("items".toList, .arr [s "a", s "", s "c"])]) = true := by decide +kernel

end Toon.Tests
