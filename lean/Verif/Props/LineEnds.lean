import Verif.Lemmas.CrlfWrite
import Verif.Lemmas.Canon
import Verif.Lemmas.Dec
import Verif.Lemmas.Float64

/-! # C37: line endings and white space at the end of lines -/

namespace Toon

section
variable {F : Type} [F64 F]

/-- C37.  White space other than tabs at the end of lines never changes the outcome of decoding (value or error, in
either mode, with or without path expansion), except after a hyphen alone. -/
theorem C37_trailing_space (opts : DecOpts) (lines : List (Str × Str))
    (h : ∀ p ∈ lines, TrailingSpace p.2 ∧ (p.2 = [] ∨ ¬ BareHyphen p.1)) :
    decodeFromLines (F := F) opts (lines.map fun p => p.1 ++ p.2) = decodeFromLines opts (lines.map Prod.fst) := by
  unfold decodeFromLines
  rw [decodeStream_pad _ _ lines h]

/-- C37, texts.  A carriage return before every newline never changes the outcome of decoding, unless a line is a
hyphen alone. -/
theorem C37_crlf (opts : DecOpts) (text : Str) (h : ∀ line ∈ (splitOn '\n' text).dropLast, ¬ BareHyphen line) :
    decode (F := F) opts (crlf text) = decode opts text := by
  unfold decode
  rw [splitOn_crlf, C37_trailing_space, crLines_fst]
  intro p hp
  obtain ⟨h1, h2⟩ := crLines_snd _ p hp
  refine ⟨?_, h2.imp_right fun hm => h _ hm⟩
  rcases h1 with h1 | h1 <;> rw [h1] <;> decide

/-- C37, written texts.  When no array has an empty object as an element, the encoded text may be converted to CRLF line
endings: every decoder reads it as before, whatever the options on both sides. -/
theorem C37_crlf_written [LawfulF64 F] (enc : EncOpts) (dec : DecOpts) (v : Json F) (hd : GoodDelim enc.delim)
    (h : NoEmptyElements v) : decode (F := F) dec (crlf (encode enc v)) = decode dec (encode enc v) :=
  C37_crlf dec _ fun line hl => encode_noHyphen hd h line (List.dropLast_subset _ hl)

/-- C37, round trip through CRLF. -/
theorem C37_crlf_round_trip [LawfulF64 F] (opts : EncOpts) (strict : Bool) (v : Json F)
    (hi : 0 < opts.indent) (hd : GoodDelim opts.delim) (hf : opts.fold = false)
    (hw : Writable true v) (hk : DistinctKeys v) (hn : PlainNumbers v) (he : NoEmptyElements v) :
    ∃ w, decode { indent := opts.indent, strict := strict, expand := false } (crlf (encode opts v)) = .ok w ∧ w ≃ v := by
  rw [C37_crlf_written opts _ v hd he]
  refine ⟨_, decode_encode hi hd strict hw, ?_⟩
  have := shape_equiv hf ((distinct_normalize v).mpr hk)
  rwa [normalize_normal ((normal_iff v).mpr hn)] at this ⊢

end

/-! Cases. -/

example : TrailingSpace [' ', '\r', Char.ofNat 0x2003] := by decide

namespace LineEndsExample

/-- A text with a table, a list, a quoted string ending in a backslash escape and a nested object. -/
def text : Str := "t[2|]{a|b}:\n  1|\"x\\\\\"\n  |\nl[2]:\n  - k: v\n    m:\n      n: 1\n  - \no:".toList

theorem no_hyphen : ∀ line ∈ (splitOn '\n' text).dropLast, ¬ BareHyphen line := by
  rintro line hl ⟨n, rfl⟩
  have hlen : ∀ l ∈ (splitOn '\n' text).dropLast, l.length < 20 ∧ l.getLast? = some '-' → False := by decide +kernel
  refine hlen _ hl ⟨?_, by simp⟩
  have : ∀ l ∈ (splitOn '\n' text).dropLast, l.length < 20 := by decide +kernel
  exact this _ hl

example : decode (F := B64) { indent := 2, strict := true, expand := false } (crlf text) =
    decode { indent := 2, strict := true, expand := false } text := C37_crlf _ _ no_hyphen

/-- The outcome is a value, not an error. -/
example : (decode (F := B64) { indent := 2, strict := true, expand := false } (crlf text)).isOk = true := by decide +kernel

/-- A value with a list of objects, a table and nested arrays. -/
def value : Json B64 :=
  .obj [(['l'], .arr [.obj [(['k'], .prim .null), (['e'], .obj [])], .arr [.prim (.bool true)], .prim (.str ['-'])]),
    (['t'], .arr [.obj [(['a'], .prim (.str ['x', '\n'])), (['b'], .prim (.str []))]])]

example : ∃ w, decode { indent := 2, strict := true, expand := false }
    (crlf (encode { indent := 2, delim := ',', fold := false, flattenDepth := 0 } value)) = .ok w ∧ w ≃ value := by
  refine C37_crlf_round_trip { indent := 2, delim := ',', fold := false, flattenDepth := 0 } true value (by decide) (by decide) rfl ?_ ?_ ?_ ?_
  · simp [value, Writable, WritableItems, WritableEntries, IsTable]
    refine ⟨?_, Or.inr ⟨fun _ => by decide, fun _ => by decide⟩⟩
    rintro cols _ rfl _ _ c hc
    simp at hc
    rcases hc with rfl | rfl <;> decide
  · simp [value, DistinctKeys, DistinctKeysItems, DistinctKeysEntries]
  · simp [value, PlainNumbers, AllPrims, AllPrimsItems, AllPrimsEntries, PlainPrim]
  · simp [value, NoEmptyElements, NoEmptyElementsItems, NoEmptyElementsEntries]

/-- **Hyphen and carriage return (F7).**  A list item that is a hyphen alone is an empty object; with a carriage
return after it strict decoding fails, and lax decoding drops the item. -/
theorem C37_bare_hyphen :
    decode (F := B64) { indent := 2, strict := true, expand := false } "a[1]:\n  -\nb: x".toList =
      .ok (.obj [(['a'], .arr [.obj []]), (['b'], .prim (.str ['x']))]) ∧
    decode (F := B64) { indent := 2, strict := true, expand := false } (crlf "a[1]:\n  -\nb: x".toList) =
      .error (.countMismatch 1 .listItems 0) ∧
    decode (F := B64) { indent := 2, strict := false, expand := false } (crlf "a[1]:\n  -\nb: x".toList) =
      .ok (.obj [(['a'], .arr [])]) := by decide +kernel

/-- A space after a hyphen alone matters only for surplus items: they are noticed with the space. -/
theorem C37_hyphen_space :
    (decode (F := B64) { indent := 2, strict := true, expand := false } "a[1]:\n  - 1\n  -".toList).isOk = true ∧
    decode (F := B64) { indent := 2, strict := true, expand := false } "a[1]:\n  - 1\n  - ".toList = .error (.extraItems 1) := by
  decide +kernel

/-- A tab at the end of a line is data when tabs separate cells. -/
theorem C37_tab :
    decode (F := B64) { indent := 2, strict := true, expand := false } "[1\t]{a\tb}:\n  x\t".toList =
      .ok (.arr [.obj [(['a'], .prim (.str ['x'])), (['b'], .prim (.str []))]]) ∧
    decode (F := B64) { indent := 2, strict := true, expand := false } "[1\t]{a\tb}:\n  x".toList =
      .error (.countMismatch 2 .rowValues 1) := by
  decide +kernel

end LineEndsExample

end Toon
