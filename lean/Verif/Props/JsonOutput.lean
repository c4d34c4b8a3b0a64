import Verif.Model.Cli
import Verif.Lemmas.JsonLayout
import Verif.Lemmas.JsonRead
import Verif.Lemmas.JsonFloat64
import Verif.Lemmas.Dec
import Verif.Lemmas.Float64
import Verif.Props.Events

/-!
# C35, C36: JSON output of the command line tool

The meaning of JSON text is `JsonDoc` of `Verif/Spec/JsonText.lean`, the grammar of RFC 8259.
-/

namespace Toon

section
variable {F : Type} [F64 F] [JsonNum F] [LawfulJsonNum F]

/-! ## C35 -/

/-- C35.  What is printed for a value, at any indent, is a JSON text, and it denotes the value with NaN
and the infinities replaced by `null`. -/
theorem C35_denotes (v : Json F) (indent : Nat) :
    JsonDoc exactNumber (finiteOrNull v) (jsonStringifyLines v indent).flatten := by
  refine ⟨[], _, [], ?_, by intro c h; simp at h, layout_isJson goodStr_jsonString jsonNumber_reads indent 0 v,
    by intro c h; simp at h⟩
  simp [jsonStringifyLines, jsonStringify_eq]

/-- C35.  For a value with finite numbers: the printed text denotes that value and no other. -/
theorem C35_exact (v : Json F) (h : AllPrims FinitePrim v) (indent : Nat) (w : Json F) :
    JsonDoc exactNumber w (jsonStringifyLines v indent).flatten ↔ w = v := by
  have h1 := C35_denotes v indent
  rw [finiteOrNull_id v h] at h1
  constructor
  · intro h2
    exact jsonDoc_unique h2 h1
  · rintro rfl
    exact h1

/-- C35.  The JSON reader reads the printed text back to the value. -/
theorem C35_read_back (v : Json F) (h : AllPrims FinitePrim v) (indent : Nat) :
    readJson exactNumber (jsonStringifyLines v indent).flatten = some v :=
  (readJson_iff v _).2 ((C35_exact v h indent v).2 rfl)

/-- C35.  Values with finite numbers are printed as the same text only when they are equal, even at
different indents. -/
theorem C35_injective (v w : Json F) (hv : AllPrims FinitePrim v) (hw : AllPrims FinitePrim w) (i j : Nat)
    (h : (jsonStringifyLines v i).flatten = (jsonStringifyLines w j).flatten) : v = w := by
  have h1 := (C35_exact w hw j v).1
  rw [← h] at h1
  exact h1 ((C35_exact v hv i v).2 rfl)

omit [LawfulJsonNum F] in
/-- C35.  The layout: without indent on one line, with indent one element or member per line. -/
theorem C35_layout (v : Json F) (indent : Nat) :
    (jsonStringifyLines v indent).flatten = jsonLayout jsonString jsonNumber indent 0 v := by
  simp [jsonStringifyLines, jsonStringify_eq]

omit [LawfulJsonNum F] in
/-- C35.  `json_stringify_null` writes `null`, at every indent. -/
theorem C35_null (indent : Nat) : (jsonStringifyNull F indent).flatten = "null".toList := by
  rw [jsonStringifyNull, C35_layout]
  rfl

/-! ## C36 -/

/-- C36.  For every text the decoder accepts (no path expansion), writing JSON from the events succeeds,
and what is written is a JSON text that denotes the decoded value and no other. -/
theorem C36_denotes [LawfulF64 F] (opts : DecOpts) (hx : opts.expand = false) (text : Str) (v : Json F)
    (h : decode opts text = .ok v) (indent : Nat) :
    ∃ (evs : List (Ev F)) (cs : List Str), decodeStream opts.indent opts.strict (splitOn '\n' text) = .ok evs ∧
      jsonStreamFromEvents evs indent = .ok cs ∧
      (∀ w : Json F, JsonDoc exactNumber w cs.flatten ↔ w = v) ∧
      (∀ w : Json F, JsonDoc exactNumber w (jsonStringifyLines v indent).flatten ↔ w = v) := by
  have hp := C20_plain_numbers opts text v h
  have hf : AllPrims FinitePrim v := allPrims_mono (fun p hp => by
    cases p with
    | num x => exact hp.1
    | _ => trivial) v hp
  obtain ⟨t, h1, rfl⟩ := (C14_value opts hx text v).1 h
  obtain ⟨cs, h2, h3⟩ := stream_tree indent t
  refine ⟨_, cs, h1, h2, fun w => ?_, C35_exact t.json hf indent⟩
  have hd : JsonDoc exactNumber t.json cs.flatten := by
    refine ⟨[], jsonLayout serdeString jsonNumber indent 0 t.json, [], by simp [h3], by intro c h; simp at h, ?_,
      by intro c h; simp at h⟩
    · have := layout_isJson (rd := exactNumber) goodStr_serdeString jsonNumber_reads indent 0 t.json
      rw [finiteOrNull_id _ hf] at this
      exact this
  constructor
  · intro h2
    exact jsonDoc_unique h2 hd
  · rintro rfl
    exact hd

omit [LawfulJsonNum F] in
/-- C36.  The two ways of printing have the same layout and write numbers the same way: they differ
only in the way strings are escaped. -/
theorem C36_layout [LawfulF64 F] (opts : DecOpts) (hx : opts.expand = false) (text : Str) (v : Json F)
    (h : decode opts text = .ok v) (indent : Nat) :
    ∃ (evs : List (Ev F)) (cs : List Str), decodeStream opts.indent opts.strict (splitOn '\n' text) = .ok evs ∧
      jsonStreamFromEvents evs indent = .ok cs ∧
      cs.flatten = jsonLayout serdeString jsonNumber indent 0 v ∧
      (jsonStringifyLines v indent).flatten = jsonLayout jsonString jsonNumber indent 0 v := by
  obtain ⟨t, h1, rfl⟩ := (C14_value opts hx text v).1 h
  obtain ⟨cs, h2, h3⟩ := stream_tree indent t
  exact ⟨_, cs, h1, h2, h3, C35_layout t.json indent⟩

omit [LawfulJsonNum F] in
/-- C36.  When no string and no key contains a backspace, a form feed or a character from U+007F to
U+009F, the two ways of printing give the same bytes. -/
theorem C36_same_bytes [LawfulF64 F] (opts : DecOpts) (hx : opts.expand = false) (text : Str) (v : Json F)
    (h : decode opts text = .ok v) (hs : AllStrings (fun s => ∀ c ∈ s, PlainJsonChar c) v) (indent : Nat) :
    ∃ (evs : List (Ev F)) (cs : List Str), decodeStream opts.indent opts.strict (splitOn '\n' text) = .ok evs ∧
      jsonStreamFromEvents evs indent = .ok cs ∧ cs.flatten = (jsonStringifyLines v indent).flatten := by
  obtain ⟨evs, cs, h1, h2, h3, h4⟩ := C36_layout opts hx text v h indent
  refine ⟨evs, cs, h1, h2, ?_⟩
  rw [h3, h4]
  exact (layout_congr jsonNumber (fun s h => string_agree h) indent 0 v hs).symm

omit [LawfulJsonNum F] in
/-- C36, for the events of any tree (any declared lengths and quoted flags), not only the decoder's. -/
theorem C36_trees (t : ETree F) (indent : Nat) :
    ∃ cs, jsonStreamFromEvents t.events indent = .ok cs ∧
      cs.flatten = jsonLayout serdeString jsonNumber indent 0 t.json := stream_tree indent t

end

/-! ## Concrete cases -/

namespace JsonOutput

/-- -1.5 -/
def half : B64 := ⟨true, 1023, 2 ^ 51⟩

/-- A value with nesting, empty containers, escapes, a negative number and a duplicate key. -/
def value : Json B64 :=
  .obj [("a".toList, .arr [.prim (.num half), .arr [], .obj []]), ("b\n\"".toList, .prim (.str ['\\', '\t', Char.ofNat 1])),
    ("a".toList, .prim .null)]

def print (indent : Nat) (v : Json B64) : String := String.ofList (jsonStringifyLines v indent).flatten

def stream (indent : Nat) (evs : List (Ev B64)) : Option String :=
  (jsonStreamFromEvents evs indent).toOption.map fun cs => String.ofList cs.flatten

def built (evs : List (Ev B64)) : Option (Json B64) := (buildNode evs).toOption.map nodeToJson

end JsonOutput
open JsonOutput

example : AllPrims FinitePrim value := by
  have h : F64.isFinite half = true := by decide +kernel
  simp [value, AllPrims, AllPrimsEntries, AllPrimsItems, FinitePrim, h]
example : print 0 value = "{\"a\":[-1.5,[],{}],\"b\\n\\\"\":\"\\\\\\t\\u0001\",\"a\":null}" := by decide +kernel
example : print 2 value = "{\n  \"a\": [\n    -1.5,\n    [],\n    {}\n  ],\n  \"b\\n\\\"\": \"\\\\\\t\\u0001\",\n  \"a\": null\n}" := by
  decide +kernel
/-- NaN and the infinities are printed as `null`. -/
example : print 0 (.arr [.prim (.num ⟨false, 2047, 0⟩), .prim (.num ⟨true, 2047, 1⟩), .prim (.num ⟨true, 0, 0⟩)]) = "[null,null,-0.0]" := by
  decide +kernel

/-- A document to which C36 applies; both ways of printing give the same bytes. -/
example : decode (F := B64) ⟨2, true, false⟩ "a[2]: x,1\nb:\n  c: \"q\\n\"".toList =
      .ok (.obj [("a".toList, .arr [.prim (.str "x".toList), .prim (.num ⟨false, 1023, 0⟩)]),
        ("b".toList, .obj [("c".toList, .prim (.str "q\n".toList))])]) ∧
    (decodeStream (F := B64) 2 true (splitOn '\n' "a[2]: x,1\nb:\n  c: \"q\\n\"".toList)).toOption.bind (stream 2) =
      some "{\n  \"a\": [\n    \"x\",\n    1.0\n  ],\n  \"b\": {\n    \"c\": \"q\\n\"\n  }\n}" := by decide +kernel

/-- **The bytes differ (F11).**  The document is one string, U+0008 U+000C U+007F: the event printer writes
`"\b\f<DEL>"`, the value printer `"\u0008\u000c\u007f"`. -/
theorem C36_bytes_differ :
    (decode (F := B64) ⟨2, true, false⟩ [Char.ofNat 8, Char.ofNat 12, Char.ofNat 127]).map (print 0) =
      .ok "\"\\u0008\\u000c\\u007f\"" ∧
    (decodeStream (F := B64) 2 true [[Char.ofNat 8, Char.ofNat 12, Char.ofNat 127]]).toOption.bind (stream 0) =
      some ("\"\\b\\f" ++ String.ofList [Char.ofNat 127] ++ "\"") := by decide +kernel

/-- **Malformed event lists (F16).**  The event printer refuses unbalanced ends, a key outside an object,
a primitive without key and unclosed containers. -/
theorem C36_malformed_refused :
    stream 0 [.endObj] = none ∧ stream 0 [.startArr 0, .endObj] = none ∧ stream 0 [.key ['a'] false] = none ∧
    stream 0 [.startArr 1, .key ['a'] false] = none ∧ stream 0 [.startObj, .prim .null, .endObj] = none ∧
    stream 0 [.startArr 1, .prim .null] = none := by decide +kernel

/-- It accepts, and writes text that is not JSON for: no event at all, two roots, a key without a value,
two keys in a row, an object without key inside an object. -/
theorem C36_malformed_accepted :
    stream 0 [] = some "" ∧
    stream 0 [.prim .null, .prim .null] = some "nullnull" ∧
    stream 0 [.startObj, .key ['a'] false, .endObj] = some "{\"a\":}" ∧
    stream 0 [.startObj, .key ['a'] false, .key ['b'] false, .prim .null, .endObj] = some "{\"a\":,\"b\":null}" ∧
    stream 0 [.startObj, .startObj, .endObj, .endObj] = some "{{}}" ∧
    (readJson (F := B64) exactNumber "".toList).isNone ∧
    (readJson (F := B64) exactNumber "nullnull".toList).isNone ∧
    (readJson (F := B64) exactNumber "{\"a\":}".toList).isNone ∧
    (readJson (F := B64) exactNumber "{\"a\":,\"b\":null}".toList).isNone ∧
    (readJson (F := B64) exactNumber "{{}}".toList).isNone := by decide +kernel

/-- The value builder refuses the empty list and the missing key, but takes the last of several roots,
drops a key without a value and keeps the last of two keys in a row. -/
theorem C36_malformed_built :
    built [] = none ∧
    built [.startObj, .startObj, .endObj, .endObj] = none ∧
    built [.prim .null, .prim (.bool true)] = some (.prim (.bool true)) ∧
    built [.startObj, .key ['a'] false, .endObj] = some (.obj []) ∧
    built [.startObj, .key ['a'] false, .key ['b'] false, .prim .null, .endObj] = some (.obj [(['b'], .prim .null)]) := by
  decide +kernel

end Toon
