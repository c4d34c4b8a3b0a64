import Verif.Lemmas.Layout
import Verif.Props.Output
import Verif.Lemmas.Dec
import Verif.Lemmas.Float64

/-!
# C56: the written text, exactly

`Spec/Layout.lean` says which layout a value has and which lines a layout has.
-/

namespace Toon

section
variable {F : Type} [F64 F]

/-- A primitive as JSON can represent it: null for what is not a number, zero without a sign. -/
def Prim.plain : Prim F → Prim F
  | .num x => if F64.isFinite x = true then (if F64.isZero x = true then .num F64.zero else .num x) else .null
  | p => p

/-- C56.  Every value has exactly one layout. -/
theorem C56_one_layout [LawfulF64 F] (fold : Bool) (maxFold : Nat) (v : Json F) :
    ∃ l, DocumentLayout fold maxFold v l ∧ ∀ l', DocumentLayout fold maxFold v l' → l' = l := by
  obtain ⟨l, h, _⟩ := document_layout { indent := 2, delim := ',', fold := fold, flattenDepth := maxFold } v
  exact ⟨l, h, fun l' h' => value_unique v h' h⟩

/-- C56.  The lines written for a value are those of its layout. -/
theorem C56_lines [LawfulF64 F] (opts : EncOpts) (v : Json F) (l : Layout F)
    (h : DocumentLayout opts.fold opts.flattenDepth (v.mapPrims Prim.plain) l) :
    encodeLines opts v = (l.documentRows opts.delim).map (rowText opts.indent) := by
  obtain ⟨l', h1, h2⟩ := document_layout opts (v.mapPrims Prim.plain)
  have hv : normalize v = v.mapPrims Prim.plain := by
    rw [normalize_map]
    congr 1
    funext p
    cases p with
    | num x => simp only [normPrim, Prim.plain]; cases F64.isFinite x <;> simp
    | _ => rfl
  obtain rfl := value_unique _ h h1
  unfold encodeLines encodeJsonValue
  rw [hv, ← h2, rowsIn, List.map_map]
  rfl

/-- C56.  The text written for a value is those lines, separated by newlines. -/
theorem C56_text [LawfulF64 F] (opts : EncOpts) (v : Json F) (l : Layout F)
    (h : DocumentLayout opts.fold opts.flattenDepth (v.mapPrims Prim.plain) l) :
    encode opts v = separated '\n' ((l.documentRows opts.delim).map (rowText opts.indent)) := by
  rw [encode, C56_lines opts v l h, separated_eq]

/-- C56.  For values without NaN, infinities and negative zero the layout is that of the value itself. -/
theorem C56_plain [LawfulF64 F] (opts : EncOpts) (v : Json F) (hv : PlainNumbers v) (ls : List Str) :
    encodeLines opts v = ls ↔
      ∃ l, DocumentLayout opts.fold opts.flattenDepth v l ∧ ls = (l.documentRows opts.delim).map (rowText opts.indent) := by
  have hn := (C22_identity v).mpr hv
  obtain ⟨l, h1, h2⟩ := document_layout opts v
  have he : encodeLines opts v = (l.documentRows opts.delim).map (rowText opts.indent) := by
    unfold encodeLines encodeJsonValue
    rw [hn, ← h2, rowsIn, List.map_map]
    rfl
  rw [he]
  constructor
  · rintro rfl; exact ⟨l, h1, rfl⟩
  · rintro ⟨l', g1, rfl⟩
    rw [value_unique v g1 h1]

end

/-! ## A value with every kind of layout -/

namespace LayoutExample

def one : B64 := ⟨false, 1023, 0⟩
def num : Json B64 := .prim (.num one)
def a : Str := "a".toList
def b : Str := "b".toList
def c : Str := "c".toList
def d : Str := "d e".toList

/-- Two keys to be joined, three keys with a limit of two, an empty and an inline array, a table, a list with
an object whose second entry is folded, and an array inside an array. -/
def value : Json B64 := .obj [
  (a, .obj [(b, num)]),
  (b, .obj [(a, .obj [(c, num)])]),
  (c, .arr []),
  ("i".toList, .arr [num, .prim (.str d)]),
  ("t".toList, .arr [.obj [(a, num), (d, num)], .obj [(d, .prim .null), (a, num)]]),
  ("l".toList, .arr [.obj [(a, .obj [(b, num)]), (c, .obj [(d, num)]), (b, .obj [(a, num)])], .arr [.arr []]])]

def layout : Layout B64 := .object [
  ("a.b".toList, .prim (.num one)),
  ("b.a".toList, .object [(c, .prim (.num one))]),
  (c, .inline []),
  ("i".toList, .inline [.num one, .str d]),
  ("t".toList, .table [a, d] [[.num one, .num one], [.num one, .null]]),
  ("l".toList, .list [.object [(a, .object [(b, .prim (.num one))]), (c, .object [(d, .prim (.num one))]),
    ("b.a".toList, .prim (.num one))], .list [.inline []]])]

theorem not_prims {v : Json B64} {vs : List (Json B64)} (hv : v.isPrim = false) : ¬ ∃ ps, ArePrims (v :: vs) ps := by
  rw [arePrims_iff]; simp [isArrayOfPrims, hv]

theorem no_chain {s t p : List Str} {n : Nat} {k : Str} {v : Json B64} (h : ∀ k w, v ≠ .obj [(k, w)]) :
    ¬ ∃ ks leaf, Foldable s t p n k v ks leaf := by
  rintro ⟨ks, leaf, ⟨h1, _⟩, h2, _⟩
  cases ks with
  | nil => exact h2 rfl
  | cons x ks => exact h _ _ h1

theorem not_identifier {s t p : List Str} {n : Nat} {k k' : Str} {w : Json B64} (h : identifier k' = false) :
    ¬ ∃ ks leaf, Foldable s t p n k (.obj [(k', w)]) ks leaf := by
  rintro ⟨ks, leaf, ⟨h1, _⟩, h2, h3, _⟩
  cases ks with
  | nil => exact h2 rfl
  | cons x ks =>
    simp only [nested, Json.obj.injEq, List.cons.injEq, Prod.mk.injEq] at h1
    have := h3 x (by simp)
    rw [← h1.1.1, h] at this
    cases this

theorem layout_of : DocumentLayout true 2 value layout := by
  refine .object (.folded (ks := [b]) (leaf := num) rfl
    ⟨⟨rfl, by decide, Or.inl rfl⟩, by decide, by decide, by decide, by decide⟩ (.prim _) ?_)
  refine .folded (ks := [a]) (leaf := .obj [(c, num)]) rfl
    ⟨⟨rfl, by decide, Or.inl rfl⟩, by decide, by decide, by decide, by decide⟩
    (.object (.plain (fun _ => no_chain (by intro k w h; cases h)) (.prim _) .nil)) ?_
  refine .plain (fun _ => no_chain (by intro k w h; cases h)) (.inline rfl) ?_
  refine .plain (fun _ => no_chain (by intro k w h; cases h)) (.inline rfl) ?_
  refine .plain (fun _ => no_chain (by intro k w h; cases h)) (.table (isTable_of_header (by decide +kernel)) ?_) ?_
  · exact .cons ⟨_, rfl, .cons rfl (.cons rfl .nil)⟩ (.cons ⟨_, rfl, .cons rfl (.cons rfl .nil)⟩ .nil)
  refine .plain (fun _ => no_chain (by intro k w h; cases h)) (.list (not_prims rfl) ?_ ?_) .nil
  · rintro ⟨cols, h⟩
    have := header_of_isTable h
    revert this
    have : tableHeader (F := B64) [.obj [(a, .obj [(b, num)]), (c, .obj [(d, num)]), (b, .obj [(a, num)])], .arr [.arr []]] = none := by
      decide +kernel
    rw [this]; intro h; cases h
  · refine .cons (.object (.object (.plain (fun _ => no_chain (by intro k w h; cases h)) (.prim _) .nil)) ?_)
      (.cons (.list (not_prims rfl) (.cons (.inline rfl) .nil)) .nil)
    refine .plain (fun _ => not_identifier (by decide))
      (.object (.plain (fun _ => no_chain (by intro k w h; cases h)) (.prim _) .nil)) ?_
    exact .folded (ks := [a]) (leaf := num) rfl ⟨⟨rfl, by decide, Or.inl rfl⟩, by decide, by decide, by decide, by decide⟩
      (.prim _) .nil

/-- The text of that value with the delimiter `|`, and two spaces per level. -/
example : encodeLines { indent := 2, delim := '|', fold := true, flattenDepth := 2 } value = [
    "a.b: 1", "b.a:", "  c: 1", "c[0|]:", "i[2|]: 1|d e", "t[2|]{a|\"d e\"}:", "  1|1", "  1|null",
    "l[2|]:", "  - a:", "      b: 1", "    c:", "      \"d e\": 1", "    b.a: 1", "  - [1|]:", "    - [0|]:"].map String.toList := by
  rw [C56_lines _ _ layout (by
    have : value.mapPrims Prim.plain = value := by
      rw [show value.mapPrims Prim.plain = normalize value by decide +kernel]; decide +kernel
    rw [this]; exact layout_of)]
  simp only [layout, Layout.documentRows, Layout.entriesRows, Layout.entryRows, Layout.itemsRows, Layout.itemRows,
    inlineText, cellsText, tokenText_eq, List.map, tableText]
  decide +kernel

end LayoutExample

end Toon
