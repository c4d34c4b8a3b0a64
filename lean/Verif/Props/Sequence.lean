import Verif.Lemmas.SequencePaths
import Verif.Props.ExpandExact
import Verif.Props.Fold
import Verif.Props.RoundTrip

/-!
# A decoded value is read from left to right

C116.  In strict mode and without path expansion the primitives of a decoded value, taken from left to right, are the meanings of words that
stand in the text in this order, line after line, no two of them overlapping: nothing is read twice and nothing changes places.
-/

namespace Toon

section
variable {F : Type} [F64 F] [LawfulF64 F]

/-- C116.  The primitives of the value, in order, are the meanings of words of the text, in order. -/
theorem C116_sequence (opts : DecOpts) (hs : opts.strict = true) (hx : opts.expand = false) (text : Str) (v : Json F)
    (h : decode opts text = .ok v) : ∃ ws, WordsIn ws (splitOn '\n' text) ∧ Pointwise TokenMeans ws (inside v) := by
  obtain ⟨t, ⟨lines, blanks, rest', h1, h2⟩, rfl⟩ := (C58_value opts hx text v).mp h
  obtain ⟨ws, h3, _, h4⟩ := document_sequence h2
  exact ⟨ws, scansTo_sequence h1 ws h3, h4 hs⟩

/-- C116.  In lenient mode too, except that cells beyond the columns are left out and nulls put in for missing ones. -/
theorem C116_lenient (opts : DecOpts) (hx : opts.expand = false) (text : Str) (v : Json F)
    (h : decode opts text = .ok v) : ∃ ws, WordsIn ws (splitOn '\n' text) ∧ Loosely ws (inside v) := by
  obtain ⟨t, ⟨lines, blanks, rest', h1, h2⟩, rfl⟩ := (C58_value opts hx text v).mp h
  obtain ⟨ws, h3, h4, _⟩ := document_sequence h2
  exact ⟨ws, scansTo_sequence h1 ws h3, h4⟩

/-- C116.  With path expansion, in strict mode, primitives may change places, but still each of them is read from a word of its own. -/
theorem C116_reordered (opts : DecOpts) (hs : opts.strict = true) (hx : opts.expand = true) (text : Str) (v : Json F)
    (h : decode opts text = .ok v) :
    ∃ ws ps, WordsIn ws (splitOn '\n' text) ∧ Pointwise TokenMeans ws ps ∧ (inside v).Perm ps := by
  obtain ⟨t, ⟨lines, blanks, rest', h1, h2⟩, rfl, _, h5⟩ := (C63_value opts hx text v).mp h
  obtain ⟨ws, h3, _, h4⟩ := document_sequence h2
  exact ⟨ws, inside t.json, scansTo_sequence h1 ws h3, h4 hs, inside_expanded t (h5 hs)⟩

/-- C116.  A text that is accepted with path expansion in strict mode is accepted without it, with exactly the same primitives. -/
theorem C116_same_primitives (indent : Nat) (text : Str) (v : Json F) (h : decode ⟨indent, true, true⟩ text = .ok v) :
    ∃ w, decode ⟨indent, true, false⟩ text = .ok w ∧ (inside v).Perm (inside w) := by
  obtain ⟨t, h1, rfl, _, h2⟩ := (C63_value ⟨indent, true, true⟩ rfl text v).mp h
  exact ⟨t.json, (C58_value ⟨indent, true, false⟩ rfl text _).mpr ⟨t, h1, rfl⟩, inside_expanded t (h2 rfl)⟩

/-- C116.  With path expansion in any mode, no word is read twice: the primitives of the value are among the meanings of the words (and
the nulls put in for missing cells), each used at most as often as it occurs there. -/
theorem C116_among (opts : DecOpts) (text : Str) (v : Json F) (h : decode opts text = .ok v) :
    ∃ ws ps, WordsIn ws (splitOn '\n' text) ∧ Loosely ws ps ∧ Among (inside v) ps := by
  cases hx : opts.expand with
  | false =>
    obtain ⟨ws, h1, h2⟩ := C116_lenient opts hx text v h
    exact ⟨ws, _, h1, h2, .refl _⟩
  | true =>
    obtain ⟨t, ⟨lines, blanks, rest', h1, h2⟩, rfl, _⟩ := (C63_value opts hx text v).mp h
    obtain ⟨ws, h3, h4, _⟩ := document_sequence h2
    exact ⟨ws, inside t.json, scansTo_sequence h1 ws h3, h4, expanded_among t⟩

/-- C116, for the events of a text: the primitives come in the order in which they stand in the lines. -/
theorem C116_events (indent : Nat) (strict : Bool) (source : List Str) (evs : List (Ev F))
    (h : decodeStream indent strict source = .ok evs) :
    ∃ ws, WordsIn ws source ∧ Loosely ws (eventPrims evs) ∧ (strict = true → Pointwise TokenMeans ws (eventPrims evs)) := by
  obtain ⟨t, ⟨lines, blanks, rest', h1, h2⟩, rfl⟩ := (C58_events indent strict source evs).mp h
  rw [eventPrims_tree]
  obtain ⟨ws, h3, h4, h5⟩ := document_sequence h2
  exact ⟨ws, scansTo_sequence h1 ws h3, h4, h5⟩

/-- C116, for the text of a value: when the rows of tables list their keys in column order, the primitives of the value stand in its text
in the order of the value (the hypotheses are those of `C01_round_trip_exact`). -/
theorem C116_written (opts : EncOpts) (v : Json F) (hi : 0 < opts.indent) (hd : GoodDelim opts.delim) (hf : opts.fold = false)
    (hw : Writable true v) (hk : DistinctKeys v) (ha : Aligned true v) (hn : PlainNumbers v) :
    ∃ ws, WordsIn ws (splitOn '\n' (encode opts v)) ∧ Pointwise TokenMeans ws (inside v) :=
  C116_sequence _ rfl rfl _ v (C01_round_trip_exact opts true v hi hd hf hw hk ha hn)

/-- C116, for the text of any value, keys joined or not and rows in any order: every primitive of the value (normalized) has a word of its
own in the text. -/
theorem C116_each_written (opts : EncOpts) (v : Json F) (hi : 0 < opts.indent) (hd : GoodDelim opts.delim)
    (hw : Writable true v) (hk : DistinctKeys v) :
    ∃ ws ps, WordsIn ws (splitOn '\n' (encode opts v)) ∧ Pointwise TokenMeans ws ps ∧ ps.Perm (inside (normalize v)) := by
  obtain ⟨w, h1, h2⟩ := C24_leaves opts true v hi hd hw hk
  obtain ⟨ws, h3, h4⟩ := C116_sequence ⟨opts.indent, true, false⟩ rfl rfl _ w h1
  exact ⟨ws, inside w, h3, h4, inside_dotLeaves h2⟩

end

/-- C116.  The hypotheses of `C116_each_written` hold of the example of C23, with joined keys. -/
example := C116_each_written { indent := 4, delim := '|', fold := true, flattenDepth := 2 } FoldExample.value (by decide) (by decide)
  FoldExample.writable FoldExample.distinct

/-- C116.  A table, a list with a blank line after it, and a quoted string. -/
example : ∃ v : Json B64, decode ⟨2, true, false⟩ "a[1]{x,y}:\n  p,q\nb[1]:\n  - k: r\n\nc: \"s,t\"".toList = .ok v ∧
    inside v = [.str "p".toList, .str "q".toList, .str "r".toList, .str "s,t".toList] := by
  refine ⟨.obj [("a".toList, .arr [.obj [("x".toList, .prim (.str "p".toList)), ("y".toList, .prim (.str "q".toList))]]),
    ("b".toList, .arr [.obj [("k".toList, .prim (.str "r".toList))]]), ("c".toList, .prim (.str "s,t".toList))], by decide +kernel, ?_⟩
  simp [inside, insideItems, insideEntries]

/-- C116.  A cell too many and a cell too few. -/
example : ∃ v : Json B64, decode ⟨2, false, false⟩ "[2]{x,y}:\n  p,q,r\n  s".toList = .ok v ∧
    inside v = [.str "p".toList, .str "q".toList, .str "s".toList, .null] := by
  refine ⟨.arr [.obj [("x".toList, .prim (.str "p".toList)), ("y".toList, .prim (.str "q".toList))],
    .obj [("x".toList, .prim (.str "s".toList)), ("y".toList, .prim .null)]], by decide +kernel, ?_⟩
  simp [inside, insideItems, insideEntries]

/-- C116.  The primitives of the events of a list of objects. -/
example : ∃ evs : List (Ev B64), decodeStream 2 true ["a[2]:".toList, "  - k: p".toList, "  - q".toList] = .ok evs ∧
    eventPrims evs = [.str "p".toList, .str "q".toList] :=
  ⟨[.startObj, .key "a".toList false, .startArr 2, .startObj, .key "k".toList false, .prim (.str "p".toList), .endObj,
    .prim (.str "q".toList), .endArr, .endObj], by decide +kernel, rfl⟩

/-- C116.  The words of a row with padding around the cells. -/
example : WordsIn ["p".toList, "q".toList] ["x: ".toList, " p , q".toList] :=
  .line (ws := []) (.none _) (.line (ws := ["p".toList, "q".toList]) (ws' := [])
    (.word (a := " ".toList) (b := " , q".toList) (by decide) (by decide)
      (.word (a := " , ".toList) (b := []) (by decide) (by decide) (.none _))) .nil)

/-- C116.  One word cannot be read twice. -/
theorem C116_once : ¬ WordsIn ["p".toList, "p".toList] ["p".toList] := by
  intro h
  have len : ∀ {ws : List Str} {text : Str}, WordsOf ws text → ws.flatten.length ≤ text.length := by
    intro ws text h
    induction h with
    | none => simp
    | word _ _ _ ih => simp only [List.flatten_cons, List.length_append] at *; omega
  generalize hw : ["p".toList, "p".toList] = ws at h
  cases h with
  | line h1 h2 =>
    cases h2
    rw [List.append_nil] at hw
    have := len h1
    rw [← hw] at this
    simp at this

/-- C116.  Nor can words be read in another order than they stand in. -/
theorem C116_in_order : ¬ WordsIn ["q".toList, "p".toList] ["p,q".toList] := by
  intro h
  have sub : ∀ {ws : List Str} {text : Str}, WordsOf ws text → ws.flatten.Sublist text := by
    intro ws text h
    induction h with
    | none => simp
    | @word a w b ws _ _ _ ih =>
      rw [List.flatten_cons, List.append_assoc]
      exact ((List.Sublist.refl w).append ih).trans (List.sublist_append_right a _)
  generalize hw : ["q".toList, "p".toList] = ws at h
  cases h with
  | line h1 h2 =>
    cases h2
    rw [List.append_nil] at hw
    have := sub h1
    rw [← hw] at this
    revert this
    decide

/-- C116.  Nor is a primitive among others more often than it occurs there. -/
theorem C116_not_twice (p : Prim B64) : ¬ Among [p, p] [p] := by
  rintro ⟨rest, h⟩
  have := h.length_eq
  simp at this

/-- C116.  With path expansion primitives change places: entries with a common prefix are brought together. -/
theorem C116_expanded : ∃ v : Json B64, decode ⟨2, true, true⟩ "a.b: p\nc: q\na.d: r".toList = .ok v ∧
    inside v = [.str "p".toList, .str "r".toList, .str "q".toList] := by
  refine ⟨.obj [("a".toList, .obj [("b".toList, .prim (.str "p".toList)), ("d".toList, .prim (.str "r".toList))]),
    ("c".toList, .prim (.str "q".toList))], by decide +kernel, ?_⟩
  simp [inside, insideEntries]

/-- C116.  Without strict mode a word may be lost to a later entry of the same path. -/
theorem C116_overwritten : ∃ v w : Json B64, decode ⟨2, false, true⟩ "a.b: p\na.b: q".toList = .ok v ∧
    decode ⟨2, false, false⟩ "a.b: p\na.b: q".toList = .ok w ∧ inside v = [.str "q".toList] ∧
    inside w = [.str "p".toList, .str "q".toList] := by
  refine ⟨.obj [("a".toList, .obj [("b".toList, .prim (.str "q".toList))])],
    .obj [("a.b".toList, .prim (.str "p".toList)), ("a.b".toList, .prim (.str "q".toList))], by decide +kernel, by decide +kernel, ?_, ?_⟩ <;>
  simp [inside, insideEntries]

end Toon
