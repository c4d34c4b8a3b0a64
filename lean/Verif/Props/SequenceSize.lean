import Verif.Props.Sequence

/-!
# Strings are not copied

C117.  All strings of a decoded value together have no more characters than the text it is read from.  (Keys may be repeated: see C59.)
-/

namespace Toon

section
variable {F : Type} [F64 F] [LawfulF64 F]

/-- C117.  All strings of a decoded value together have no more characters than the text, line breaks not counted, whatever the options. -/
theorem C117_characters (opts : DecOpts) (text : Str) (v : Json F) (h : decode opts text = .ok v) :
    stringChars (inside v) + (splitOn '\n' text).length ≤ text.length + 1 := by
  obtain ⟨ws, ps, h1, h2, h3⟩ := C116_among opts text v h
  have h4 := wordsIn_length h1
  rw [sourceLength_split] at h4
  have h5 := stringChars_loosely h2
  have h6 := stringChars_among h3
  omega

/-- C117, for the events of the decoder. -/
theorem C117_events (indent : Nat) (strict : Bool) (source : List Str) (evs : List (Ev F))
    (h : decodeStream indent strict source = .ok evs) : stringChars (eventPrims evs) ≤ (source.map List.length).sum := by
  obtain ⟨ws, h1, h2, _⟩ := C116_events indent strict source evs h
  have h3 := wordsIn_length h1
  have h4 := stringChars_loosely h2
  have key : ∀ source : List Str, sourceLength source = (source.map List.length).sum + source.length := by
    intro source
    unfold sourceLength
    induction source with
    | nil => rfl
    | cons raw source ih => simp only [List.map_cons, List.sum_cons, List.length_cons, ih]; omega
  rw [key] at h3
  omega

/-- C117, for the text of a value: it has room for all strings of the value. -/
theorem C117_written (opts : EncOpts) (v : Json F) (hi : 0 < opts.indent) (hd : GoodDelim opts.delim)
    (hw : Writable true v) (hk : DistinctKeys v) : stringChars (inside (normalize v)) ≤ (encode opts v).length := by
  obtain ⟨w, h1, h2⟩ := C24_leaves opts true v hi hd hw hk
  have h3 := C117_characters ⟨opts.indent, true, false⟩ _ w h1
  rw [stringChars_perm (inside_dotLeaves h2)] at h3
  have h4 := splitOn_ne_nil '\n' (encode opts v)
  have h5 := List.length_pos_iff.mpr h4
  omega

end

/-- C117.  The bound is reached. -/
example : decode (F := B64) ⟨2, true, false⟩ "abc".toList = .ok (.prim (.str "abc".toList)) ∧
    stringChars (inside (.prim (.str "abc".toList) : Json B64)) + (splitOn '\n' "abc".toList).length = "abc".toList.length + 1 :=
  ⟨by decide +kernel, by simp [inside, stringChars, splitOn]⟩

/-- C117.  The hypotheses of `C117_written` hold of the example of C23. -/
example := C117_written { indent := 4, delim := '|', fold := true, flattenDepth := 2 } FoldExample.value (by decide) (by decide)
  FoldExample.writable FoldExample.distinct

/-- C117.  Keys are copied: the name of a column stands in the text once and in the value once for every row. -/
theorem C117_keys_copied : decode (F := B64) ⟨2, true, false⟩ "[2]{abc}:\n  x\n  y".toList =
    .ok (.arr [.obj [("abc".toList, .prim (.str "x".toList))], .obj [("abc".toList, .prim (.str "y".toList))]]) := by
  decide +kernel

end Toon
