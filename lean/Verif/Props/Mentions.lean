import Verif.Lemmas.Mentions
import Verif.Lemmas.Float64
import Verif.Lemmas.Dec
import Verif.Props.Layout
import Verif.Spec.Complaints

/-!
# C112: searching the text finds every string

What a user who searches a text for a word, line by line, can rely on.
-/

namespace Toon

section
variable {F : Type} [F64 F] [LawfulF64 F]

/-- C112.  Every part of a string or key of the value stands, with its special characters escaped, in one line of the text, whatever the
options are: quotes, tables, lists and joined keys never tear a word apart. -/
theorem C112_found (opts : EncOpts) (v : Json F) (hd : DistinctKeys v) (s w : Str) (hm : Mentions s v) (hw : w <:+: s) :
    Appears (encodeLines opts v) (asWritten w) ∧ asWritten w <:+: encode opts v := by
  obtain ⟨l, h, _⟩ := C56_one_layout opts.fold opts.flattenDepth (v.mapPrims Prim.plain)
  obtain ⟨r, hr, hf⟩ := document_found hw h (distinct_mapPrims _ v hd) (mentions_mapPrims (fun _ => rfl) v hm) opts.delim
  have ha : ∃ x ∈ (l.documentRows opts.delim).map (rowText opts.indent), asWritten w <:+: x :=
    ⟨_, List.mem_map_of_mem hr, by rw [rowText]; exact infix_right _ hf⟩
  refine ⟨by rw [C56_lines opts v l h]; exact ha, ?_⟩
  rw [C56_text opts v l h]
  exact separated_found _ _ ha

/-- C112.  A word without quotation mark, backslash, line feed, carriage return and tab is searched for as it is; if no line has it, it
does not occur in the value. -/
theorem C112_absent (opts : EncOpts) (v : Json F) (hd : DistinctKeys v) (w : Str) (hw : ∀ c ∈ w, c ∉ ['\\', '"', '\n', '\r', '\t'])
    (ha : ¬ Appears (encodeLines opts v) w) (s : Str) (hm : Mentions s v) : ¬ w <:+: s := by
  intro h
  have := (C112_found opts v hd s w hm h).1
  rw [asWritten_same hw] at this
  exact ha this

end

/-! ## Examples -/

namespace MentionsExample

/-- `{"a": [{"b": "x y", "c": null}]}` -/
def value : Json B64 := .obj [(['a'], .arr [.obj [(['b'], .prim (.str ['x', ' ', 'y'])), (['c'], .prim .null)]])]

theorem value_distinct : DistinctKeys value := by
  simp [value, DistinctKeys, DistinctKeysItems, DistinctKeysEntries]

theorem value_mentions : Mentions ['x', ' ', 'y'] value := by
  simp [value, Mentions, MentionsItems, MentionsEntries]

/-- A string in a cell of a table, under a key. -/
example (opts : EncOpts) : ['y'] <:+: encode opts value := by
  have := (C112_found opts value value_distinct _ ['y'] value_mentions ⟨['x', ' '], [], rfl⟩).2
  rwa [asWritten_same (by decide)] at this

/-- `["\""]`: a quotation mark. -/
def escaped : Json B64 := .arr [.prim (.str ['a', '"', 'b'])]

/-- Two entries with one key, which the type of values allows. -/
def twice : Json B64 := .arr [.obj [(['a'], .prim (.str ['x'])), (['a'], .prim (.str ['y']))]]

end MentionsExample

open MentionsExample

/-- C112.  A word with a quotation mark is not found as it is. -/
theorem C112_escaped : ∃ (v : Json B64) (w : Str), DistinctKeys v ∧ Mentions w v ∧ ¬ Appears (encodeLines ⟨2, ',', false, 0⟩ v) w := by
  refine ⟨escaped, ['a', '"', 'b'], by simp [escaped, DistinctKeys, DistinctKeysItems],
    by simp [escaped, Mentions, MentionsItems], ?_⟩
  have h : DocumentLayout false 0 (escaped.mapPrims Prim.plain) (.inline [.str ['a', '"', 'b']]) := .inline rfl
  have ht : encodeLines ⟨2, ',', false, 0⟩ escaped = ["[1]: \"a\\\"b\"".toList] := by
    rw [C56_lines _ _ _ h]
    simp only [Layout.documentRows, Layout.entryRows, inlineText, cellsText, tokenText_eq, List.map]
    decide +kernel
  rw [ht]
  rintro ⟨raw, hr, h⟩
  simp only [List.mem_cons, List.not_mem_nil, or_false] at hr
  subst hr
  have e : "[1]: \"a\\\"b\"".toList = ['[', '1', ']', ':', ' ', '"', 'a', '\\', '"', 'b', '"'] := by decide
  rw [e] at h
  simp [List.infix_cons_iff, List.cons_prefix_cons] at h

/-- C112.  Of two entries with one key in a table row the second is not in the text at all. -/
theorem C112_twice : ∃ (v : Json B64) (w : Str), Mentions w v ∧ ¬ Appears (encodeLines ⟨2, ',', false, 0⟩ v) w := by
  refine ⟨twice, ['y'], by simp [twice, Mentions, MentionsItems, MentionsEntries], ?_⟩
  have h : DocumentLayout false 0 (twice.mapPrims Prim.plain) (.table [['a'], ['a']] [[.str ['x'], .str ['x']]]) := by
    refine .table ⟨by decide, ⟨_, _, rfl, rfl⟩, ?_⟩ (.cons ⟨_, rfl, .cons rfl (.cons rfl .nil)⟩ .nil)
    intro item hm
    simp only [List.mem_cons, List.not_mem_nil, or_false, Json.mapPrimsItems] at hm
    subst hm
    refine ⟨_, rfl, rfl, ?_⟩
    intro c hc
    simp only [List.mem_cons, List.not_mem_nil, or_false, or_self] at hc
    subst hc
    exact ⟨_, rfl⟩
  have ht : encodeLines ⟨2, ',', false, 0⟩ twice = ["[1]{a,a}:".toList, "  x,x".toList] := by
    rw [C56_lines _ _ _ h]
    simp only [Layout.documentRows, Layout.entryRows, cellsText, tokenText_eq, List.map, tableText]
    decide +kernel
  rw [ht]
  rintro ⟨raw, hr, h⟩
  simp only [List.mem_cons, List.not_mem_nil, or_false] at hr
  rcases hr with rfl | rfl
  · exact absurd (h.subset List.mem_cons_self) (by decide)
  · exact absurd (h.subset List.mem_cons_self) (by decide)

end Toon
