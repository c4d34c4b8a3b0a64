import Verif.Lemmas.Compact
import Verif.Lemmas.Float64
import Verif.Lemmas.Dec
import Verif.Props.Draft
import Verif.Props.LineCount

/-!
# C109: no shorter text says the same

A draft (`Spec/Draft.lean`) is a text for which one has chosen freely how each array is written: on one line, as a table or as a list.
C82 says what a draft is read as.
-/

namespace Toon

section
variable {F : Type} [F64 F] [LawfulF64 F]

omit [LawfulF64 F] in
mutual
private theorem noInner_normalize (v : Json F) (h : NoInnerTables v) : NoInnerTables (normalize v) := by
  match v with
  | .prim p => simp only [normalize, NoInnerTables]
  | .arr items =>
    simp only [NoInnerTables] at h
    simp only [normalize, NoInnerTables]
    exact noInner_normalizeItems items h
  | .obj es =>
    simp only [NoInnerTables] at h
    simp only [normalize, NoInnerTables]
    exact noInner_normalizeEntries es h
private theorem noInner_normalizeItems (vs : List (Json F)) (h : NoInnerTablesItems vs) : NoInnerTablesItems (normalizeItems vs) := by
  match vs with
  | [] => simp only [normalizeItems, NoInnerTablesItems]
  | v :: vs =>
    simp only [NoInnerTablesItems] at h
    simp only [normalizeItems, NoInnerTablesItems]
    refine ⟨?_, noInner_normalize v h.2.1, noInner_normalizeItems vs h.2.2⟩
    rintro xs hx ⟨cols, hc⟩
    match v, hx with
    | .arr ys, hx =>
      simp only [normalize, Json.arr.injEq] at hx
      rw [← hx] at hc
      exact h.1 ys rfl ⟨cols, isTable_normalize.mp hc⟩
private theorem noInner_normalizeEntries (es : List (Str × Json F)) (h : NoInnerTablesEntries es) :
    NoInnerTablesEntries (normalizeEntries es) := by
  match es with
  | [] => simp only [normalizeEntries, NoInnerTablesEntries]
  | (k, v) :: es =>
    simp only [NoInnerTablesEntries] at h
    simp only [normalizeEntries, NoInnerTablesEntries]
    exact ⟨noInner_normalize v h.1, noInner_normalizeEntries es h.2⟩
end

/-- C109.  Without key folding: however the arrays are written, a text that is read as the same value has at least as many lines and
at least as many characters as the text the encoder writes, if no element of an array is an array that could be a table. -/
theorem C109_shortest (opts : EncOpts) (hf : opts.fold = false) (hi : 0 < opts.indent) (hd : GoodDelim opts.delim) (v : Json F)
    (hw : Writable true v) (hn : NoInnerTables v) (D : Draft F) (hl : D.Legible) (hh : D.Honest)
    (h : decode (F := F) ⟨opts.indent, true, false⟩ (D.written opts.indent opts.delim) =
      decode ⟨opts.indent, true, false⟩ (encode opts v)) :
    (encodeLines opts v).length ≤ (D.documentRows opts.delim).length ∧
    (encode opts v).length ≤ (D.written opts.indent opts.delim).length := by
  obtain ⟨l, hly, _⟩ := C56_one_layout opts.fold opts.flattenDepth (v.mapPrims Prim.plain)
  obtain ⟨h1, h2⟩ := C82_honest opts v hw l hly
  have ht := C82_written opts v l hly
  have hlines : (encodeLines opts v).length = (l.draft.documentRows opts.delim).length := by
    rw [documentRows_layout, documentRows_length, C98_lines opts v l hly]
  have htight : l.draft.Tight := by
    have hly' := hly
    rw [hf, ← normalize_plain] at hly'
    exact value_tight _ hly' (noInner_normalize v hn)
  rw [ht, C82_value hi hd D hl hh, C82_value hi hd l.draft h2 h1] at h
  obtain ⟨e1, e2⟩ := documentRows_fewer opts.delim l.draft D htight h1 hh hl (Except.ok.inj h).symm
  refine ⟨by rw [hlines]; exact e1, ?_⟩
  rw [ht, Draft.written, Draft.written]
  by_cases h0 : l.draft.documentRows opts.delim = []
  · rw [h0]; exact Nat.zero_le _
  · have h3 : D.documentRows opts.delim ≠ [] := by
      intro h4
      rw [h4] at e1
      exact h0 (List.length_eq_zero_iff.mp (by simpa using e1))
    have a := separated_rows opts.indent _ h0
    have b := separated_rows opts.indent _ h3
    have c := e2 opts.indent
    omega

end

/-! ## Arrays inside arrays -/

namespace CompactExample

def ka : Str := ['a']
def kb : Str := ['b']

def row : Json B64 := .obj [(ka, .prim .null), (kb, .prim .null)]

/-- An array of an array that could be a table. -/
def inner : Json B64 := .arr [.arr [row]]

def innerLayout : Layout B64 := .list [.list [.object [(ka, .prim .null), (kb, .prim .null)]]]

/-- The text with the table. -/
def innerTable : Draft B64 := .list 1 [.table 1 [ka, kb] [[.null, .null]]]

theorem inner_layout : DocumentLayout false 0 (inner.mapPrims Prim.plain) innerLayout := by
  have hv : inner.mapPrims Prim.plain = inner := by
    rw [show inner.mapPrims Prim.plain = normalize inner by decide +kernel]; decide +kernel
  rw [hv]
  refine .list (LayoutExample.not_prims rfl) ?_ (.cons (.list (LayoutExample.not_prims rfl) (.cons (.object (.prim _)
    (.plain (fun h => nomatch h) (.prim _) .nil)) .nil)) .nil)
  rintro ⟨cols, _, ⟨es, rest, h, _⟩, _⟩
  simp at h

theorem innerTable_good : innerTable.Legible ∧ innerTable.Honest := by
  constructor
  · simp [innerTable, Draft.Legible, Draft.LegibleItems, PlainPrim, ka, kb]
  · simp [innerTable, Draft.Honest, Draft.HonestItems]

theorem inner_text : encode ⟨2, ',', false, 0⟩ inner = "[1]:\n  - [1]:\n    - a: null\n      b: null".toList := by
  rw [C56_text _ _ _ inner_layout]
  rfl

theorem innerTable_text : innerTable.written 2 ',' = "[1]:\n  - [1]{a,b}:\n    null,null".toList := by rfl

/-- A table under a key, and the same as a list. -/
def table : Json B64 := .obj [(ka, .arr [row, row])]

def tableAsList : Draft B64 :=
  .object [(ka, .list 2 [.object [(ka, .prim .null), (kb, .prim .null)], .object [(ka, .prim .null), (kb, .prim .null)]])]

end CompactExample

open CompactExample

/-- Finding F55.  An array that is an element of an array is never written as a table, although the decoder reads it: the text is longer
than it has to be. -/
theorem C109_inner : ∃ (v : Json B64) (D : Draft B64), Writable true v ∧ D.Legible ∧ D.Honest ∧
    decode (F := B64) ⟨2, true, false⟩ (D.written 2 ',') = decode ⟨2, true, false⟩ (encode ⟨2, ',', false, 0⟩ v) ∧
    (D.written 2 ',').length < (encode ⟨2, ',', false, 0⟩ v).length := by
  have hw : Writable true inner := by
    simp [inner, row, Writable, WritableItems, WritableEntries]
    rintro cols ⟨_, ⟨es, rest, h, _⟩, _⟩
    simp at h
  refine ⟨inner, innerTable, hw, innerTable_good.1, innerTable_good.2, ?_, by rw [inner_text, innerTable_text]; decide⟩
  obtain ⟨h1, h2⟩ := C82_honest ⟨2, ',', false, 0⟩ inner hw innerLayout inner_layout
  rw [C82_value (by decide) (by decide) innerTable innerTable_good.1 innerTable_good.2, C82_written ⟨2, ',', false, 0⟩ inner _ inner_layout,
    C82_value (by decide) (by decide) _ h2 h1]
  simp [innerTable, innerLayout, Layout.draft, Layout.drafts, Layout.draftEntries, Draft.value, Draft.values, Draft.valueEntries, rowObject]

/-- A table is at most as long as the same array written as a list. -/
example : (encode ⟨2, ',', false, 0⟩ table).length ≤ (tableAsList.written 2 ',').length := by
  have ht : IsTable [row, row] [ka, kb] := by
    refine ⟨by decide, ⟨_, _, rfl, rfl⟩, ?_⟩
    intro item hm
    have : item = row := by simpa using hm
    subst this
    refine ⟨_, rfl, rfl, ?_⟩
    intro c hc
    simp only [List.mem_cons, List.not_mem_nil, or_false] at hc
    rcases hc with rfl | rfl
    · exact ⟨.null, rfl⟩
    · exact ⟨.null, rfl⟩
  have hu : ∀ cols, IsTable [row, row] cols → cols = [ka, kb] := by
    rintro cols ⟨_, ⟨es, rest, h, h'⟩, _⟩
    simp only [List.cons.injEq, row, Json.obj.injEq] at h
    rw [← h', ← h.1]; rfl
  have hw : Writable true table := by
    simp only [table, Writable, WritableEntries]
    refine ⟨fun s h => (nomatch h), ⟨by decide, fun _ cols hc => ?_, Or.inl ⟨trivial, _, ht⟩⟩, trivial⟩
    rw [hu cols hc]; decide
  have hl : tableAsList.Legible := by
    simp [tableAsList, Draft.Legible, Draft.LegibleItems, Draft.LegibleEntries, PlainPrim]
  have hh : tableAsList.Honest := by simp [tableAsList, Draft.Honest, Draft.HonestItems, Draft.HonestEntries]
  have hly : DocumentLayout false 0 (table.mapPrims Prim.plain) (.object [(ka, .table [ka, kb] [[.null, .null], [.null, .null]])]) := by
    have hv : table.mapPrims Prim.plain = table := by
      rw [show table.mapPrims Prim.plain = normalize table by decide +kernel]; decide +kernel
    rw [hv]
    refine .object (.plain (fun h => nomatch h) (.table ht ?_) .nil)
    exact .cons ⟨_, rfl, .cons rfl (.cons rfl .nil)⟩ (.cons ⟨_, rfl, .cons rfl (.cons rfl .nil)⟩ .nil)
  refine (C109_shortest ⟨2, ',', false, 0⟩ rfl (by decide) (by decide) table hw
    (by simp [table, row, NoInnerTables, NoInnerTablesItems, NoInnerTablesEntries]) tableAsList hl hh ?_).2
  obtain ⟨h1, h2⟩ := C82_honest ⟨2, ',', false, 0⟩ table hw _ hly
  rw [C82_value (by decide) (by decide) tableAsList hl hh, C82_written ⟨2, ',', false, 0⟩ table _ hly,
    C82_value (by decide) (by decide) _ h2 h1]
  simp [tableAsList, Layout.draft, Layout.draftEntries, Draft.value, Draft.values, Draft.valueEntries, rowObject]

end Toon
