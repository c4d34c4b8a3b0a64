import Verif.Lemmas.DelimiterCost
import Verif.Lemmas.Float64
import Verif.Lemmas.Dec
import Verif.Props.Layout
import Verif.Props.LineCount

/-!
# C110: what the delimiter costs

The layout of a value (`Spec/Layout.lean`) does not depend on the delimiter.
-/

namespace Toon

section
variable {F : Type} [F64 F] [LawfulF64 F]

omit [LawfulF64 F] in
private theorem written_cost (i : Nat) (d : Char) (l : Layout F) :
    (separated '\n' ((l.documentRows d).map (rowText i))).length + l.arrays =
      (separated '\n' ((l.documentRows '\t').map (rowText i))).length + l.delimiterCost d := by
  have key := documentRows_cost i d l
  have hm : mark d * l.arrays = if d = ',' then 0 else l.arrays := by unfold mark; split <;> simp
  have hl : (l.documentRows d).length = (l.documentRows '\t').length := by rw [documentRows_length, documentRows_length]
  rw [Layout.delimiterCost, ← hm]
  by_cases h : l.documentRows d = []
  · have h' : l.documentRows '\t' = [] := List.length_eq_zero_iff.mp (by rw [← hl, h]; rfl)
    rw [h, h', rowsSize_nil] at key
    rw [h, h']
    omega
  · have h' : l.documentRows '\t' ≠ [] := fun g => h (List.length_eq_zero_iff.mp (by rw [hl, g]; rfl))
    have a := separated_rows i _ h
    have b := separated_rows i _ h'
    omega

/-- C110.  Two delimiters, the same value: the texts differ in length exactly by what the delimiters cost, two quotes for each string that
is quoted only because it contains the delimiter, and one character for each array unless the delimiter is the comma. -/
theorem C110_cost (opts : EncOpts) (d : Char) (v : Json F) (l : Layout F)
    (h : DocumentLayout opts.fold opts.flattenDepth (v.mapPrims Prim.plain) l) :
    (encode { opts with delim := d } v).length + l.delimiterCost opts.delim =
      (encode opts v).length + l.delimiterCost d := by
  rw [C56_text opts v l h, C56_text { opts with delim := d } v l h]
  have a := written_cost opts.indent d l
  have b := written_cost opts.indent opts.delim l
  simp only at a b ⊢
  omega

/-- C110.  The delimiter does not change the number of lines. -/
theorem C110_lines (opts : EncOpts) (d : Char) (v : Json F) :
    (encodeLines { opts with delim := d } v).length = (encodeLines opts v).length := by
  obtain ⟨l, h, _⟩ := C56_one_layout opts.fold opts.flattenDepth (v.mapPrims Prim.plain)
  rw [C98_lines opts v l h, C98_lines { opts with delim := d } v l h]

/-- C110.  The tab is never worse than any delimiter other than the comma. -/
theorem C110_tab (opts : EncOpts) (hc : opts.delim ≠ ',') (v : Json F) :
    (encode { opts with delim := '\t' } v).length ≤ (encode opts v).length := by
  obtain ⟨l, h, _⟩ := C56_one_layout opts.fold opts.flattenDepth (v.mapPrims Prim.plain)
  have := C110_cost opts '\t' v l h
  rw [Layout.delimiterCost, Layout.delimiterCost, l.exposed_tab, if_neg hc, if_neg (by decide)] at this
  omega

/-- C110.  The comma is worse than the tab exactly if more than half as many strings as there are arrays are quoted only because of a
comma. -/
theorem C110_comma_tab (opts : EncOpts) (hc : opts.delim = ',') (v : Json F) (l : Layout F)
    (h : DocumentLayout opts.fold opts.flattenDepth (v.mapPrims Prim.plain) l) :
    (encode { opts with delim := '\t' } v).length < (encode opts v).length ↔ l.arrays < 2 * l.exposed ',' := by
  have := C110_cost opts '\t' v l h
  rw [Layout.delimiterCost, Layout.delimiterCost, l.exposed_tab, if_pos hc, if_neg (by decide), hc] at this
  omega

/-- C110.  If no string contains a comma, no delimiter is better than the comma; if no string contains the other delimiter either, the
comma saves one character for each array. -/
theorem C110_comma (opts : EncOpts) (hc : opts.delim = ',') (d : Char) (hd : d ≠ ',') (v : Json F)
    (ha : AllPrims (Prim.Avoids ',') v) :
    (encode opts v).length ≤ (encode { opts with delim := d } v).length ∧
    (AllPrims (Prim.Avoids d) v → ∀ l, DocumentLayout opts.fold opts.flattenDepth (v.mapPrims Prim.plain) l →
      (encode { opts with delim := d } v).length = (encode opts v).length + l.arrays) := by
  have hp : ∀ (c : Char) (p : Prim F), p.Avoids c → p.plain.Avoids c := by
    intro c p h
    match p with
    | .null => exact h
    | .bool _ => exact h
    | .str s => exact h
    | .num x =>
      simp only [Prim.plain]
      split
      · split <;> trivial
      · trivial
  have hz : ∀ c, AllPrims (Prim.Avoids c) v → ∀ l, DocumentLayout opts.fold opts.flattenDepth (v.mapPrims Prim.plain) l →
      l.exposed c = 0 := fun c h l hl => value_avoids _ hl (allPrims_mapPrims (hp c) v h)
  constructor
  · obtain ⟨l, h, _⟩ := C56_one_layout opts.fold opts.flattenDepth (v.mapPrims Prim.plain)
    have := C110_cost opts d v l h
    rw [Layout.delimiterCost, Layout.delimiterCost, if_pos hc, if_neg hd, hc, hz _ ha l h] at this
    omega
  · intro hb l h
    have := C110_cost opts d v l h
    rw [Layout.delimiterCost, Layout.delimiterCost, if_pos hc, if_neg hd, hc, hz _ ha l h, hz _ hb l h] at this
    omega

end

/-! ## One value, three delimiters -/

namespace DelimiterExample

/-- `["a,b", "c,d"]` -/
def commas : Json B64 := .arr [.prim (.str ['a', ',', 'b']), .prim (.str ['c', ',', 'd'])]

def commasLayout : Layout B64 := .inline [.str ['a', ',', 'b'], .str ['c', ',', 'd']]

theorem commas_layout (fold : Bool) (n : Nat) : DocumentLayout fold n (commas.mapPrims Prim.plain) commasLayout := by
  have hv : commas.mapPrims Prim.plain = commas := by
    rw [show commas.mapPrims Prim.plain = normalize commas by decide +kernel]; decide +kernel
  rw [hv]
  exact .inline rfl

theorem comma_text : encode ⟨2, ',', false, 0⟩ commas = "[2]: \"a,b\",\"c,d\"".toList := by
  rw [C56_text _ _ _ (commas_layout _ _)]
  simp only [commasLayout, Layout.documentRows, Layout.entryRows, inlineText, cellsText, tokenText_eq, List.map]
  decide +kernel

theorem tab_text : encode ⟨2, '\t', false, 0⟩ commas = "[2\t]: a,b\tc,d".toList := by
  rw [C56_text _ _ _ (commas_layout _ _)]
  simp only [commasLayout, Layout.documentRows, Layout.entryRows, inlineText, cellsText, tokenText_eq, List.map]
  decide +kernel

/-- The tab saves four quotes and costs one character: the condition of `C110_comma_tab` is met. -/
example : commasLayout.arrays < 2 * commasLayout.exposed ',' := by
  refine (C110_comma_tab ⟨2, ',', false, 0⟩ rfl commas commasLayout (commas_layout _ _)).mp ?_
  rw [comma_text]
  show (encode ⟨2, '\t', false, 0⟩ commas).length < _
  rw [tab_text]
  decide

/-- Without a comma in a string the comma is shorter. -/
example : (encode ⟨2, '|', false, 0⟩ (.arr [.prim (.str ['a'])] : Json B64)).length =
    (encode ⟨2, ',', false, 0⟩ (.arr [.prim (.str ['a'])] : Json B64)).length + 1 :=
  (C110_comma ⟨2, ',', false, 0⟩ rfl '|' (by decide) (.arr [.prim (.str ['a'])] : Json B64)
    (by simp [AllPrims, AllPrimsItems, Prim.Avoids])).2 (by simp [AllPrims, AllPrimsItems, Prim.Avoids])
    (.inline [.str ['a']]) (.inline rfl)

end DelimiterExample

end Toon
