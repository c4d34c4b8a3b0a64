import Verif.Lemmas.SizeBound
import Verif.Props.Layout
import Verif.Lemmas.JsonFloat64
import Verif.Lemmas.JsonLayout
import Verif.Props.Cli

/-!
# C62: how long the written text is

Against JSON text, indented by the same width or compact.  `jsonStringify` is the printer of the command line
tool, which C19 and C49 relate to the value.
-/

namespace Toon

section
variable {F : Type} [F64 F] [JsonNum F]

/-- Written without an exponent the number is no longer than JSON text of it. -/
def NumberFits (p : Prim F) : Prop := ∀ x, p = .num x → (tokenText ',' p).length ≤ (jsonPrimitive p).length

theorem token_fits [LawfulF64 F] (d : Char) (p : Prim F) (h : NumberFits p) :
    tokenLength d (Prim.plain p) ≤ (jsonPrimitive p).length := by
  cases p with
  | null => exact Nat.le_refl _
  | bool b => cases b <;> exact Nat.le_refl _
  | str s => exact tokenText_str_length_le d s
  | num x =>
    have h := h x rfl
    simp only [tokenLength, Prim.plain]
    split
    · split
      · rename_i h1 h2
        simp only [tokenText, h2, if_true, LawfulF64.zero_isZero (F := F)] at h ⊢
        exact h
      · exact h
    · rename_i h1
      simp [tokenText, jsonPrimitive, jsonNumber, h1]

theorem json_length [LawfulF64 F] (d : Char) (i : Nat) (v : Json F) (hn : AllPrims NumberFits v) :
    jsonLen (tokenLength d) i 0 (v.mapPrims Prim.plain) ≤ (jsonStringify i 0 v).length := by
  rw [jsonStringify_length, jsonLen_mapPrims]
  exact jsonLen_mono (Nat.le_refl 0) v (allPrims_mono (token_fits d) v hn)

/-- C62.  Against JSON text indented by the same width, the written text is longer by at most four characters
for each element of an array written as a list, one for each array if the delimiter is not a comma, and two. -/
theorem C62_pretty [LawfulF64 F] (opts : EncOpts) (v : Json F) (l : Layout F)
    (h : DocumentLayout opts.fold opts.flattenDepth (v.mapPrims Prim.plain) l)
    (hi : 1 ≤ opts.indent) (hd : DistinctKeys v) (hn : AllPrims NumberFits v) :
    (encode opts v).length ≤ (jsonStringify opts.indent 0 v).length +
      4 * l.listElements + (if opts.delim = ',' then 0 else l.arrays) + 2 := by
  have h1 := document_size opts.delim opts.indent hi _ h (distinct_mapPrims _ v hd)
  have h2 := json_length opts.delim opts.indent v hn
  rw [C56_text opts v l h]
  have h3 : mark opts.delim * l.arrays = if opts.delim = ',' then 0 else l.arrays := by
    rw [mark]; split <;> simp
  simp only [Layout.cost, h3] at h1
  omega

/-- C62.  If every array under a key consists of primitives or is a table, and with the comma, the written text
is never longer than JSON text indented by the same width. -/
theorem C62_regular [LawfulF64 F] (opts : EncOpts) (v : Json F) (hc : opts.delim = ',') (hi : 1 ≤ opts.indent)
    (hr : Regular v) (hv : v ≠ .arr []) (hd : DistinctKeys v) (hn : AllPrims NumberFits v) :
    (encode opts v).length ≤ (jsonStringify opts.indent 0 v).length := by
  obtain ⟨l, h, _⟩ := C56_one_layout opts.fold opts.flattenDepth (v.mapPrims Prim.plain)
  have h1 := document_size_regular opts.indent hi _ h (distinct_mapPrims _ v hd) (regular_mapPrims _ v hr) (by
    intro h0
    apply hv
    match v with
    | .arr [] => rfl
    | .arr (_ :: _) => simp [Json.mapPrims, Json.mapPrimsItems] at h0
    | .prim _ => simp [Json.mapPrims] at h0
    | .obj _ => simp [Json.mapPrims] at h0)
  have h2 := json_length ',' opts.indent v hn
  rw [C56_text opts v l h, hc]
  omega

omit [JsonNum F] in
theorem flat_rows {fold : Bool} {n : Nat} {siblings taken path : List Str} {fd : Nat} (d : Char) (i : Nat) (es : List (Str × Json F))
    {ls : List (Str × Layout F)} (h : EntriesLayout fold n siblings taken path fd es ls)
    (hp : ∀ e ∈ es, bareKey e.1 = true ∧ ∃ p, e.2 = .prim p) :
    rowsSize i (Layout.entriesRows d 0 ls) + es.length ≤ jsonLenEntries (tokenLength d) 0 0 es + 1 := by
  match es with
  | [] => cases h; simp [Layout.entriesRows, rowsSize]
  | (k, v) :: es =>
    obtain ⟨hb, p, rfl⟩ := hp (k, v) (by simp)
    cases h with
    | @folded _ _ _ _ _ _ ks leaf l _ ls h1 h2 h3 h4 =>
      obtain ⟨⟨h5, _⟩, h6, _⟩ := h2
      cases ks with
      | nil => exact absurd rfl h6
      | cons => simp [nested] at h5
    | @plain _ _ _ _ _ _ l _ ls h1 h2 h3 =>
      have ih := flat_rows d i es h3 (fun e he => hp e (by simp [he]))
      have hj := bare_json hb
      cases h2
      have hk : keyTextOf k = k := by rw [keyTextOf, if_pos hb]
      rw [jsonLenEntries]
      simp only [Layout.entriesRows, Layout.entryRows, rowsSize_append, rowsSize_cons, rowsSize_nil, rowSize, List.length_append,
        List.length_cons, hk, hj, Nat.mul_zero, Nat.lt_irrefl, if_false, jsonLen, tokenLength] at ih ⊢
      cases es with
      | nil => cases h3; simp only [List.length_nil, List.isEmpty_nil, if_true, Layout.entriesRows, rowsSize_nil, jsonLenEntries]; omega
      | cons x es => simp only [List.isEmpty_cons, Bool.false_eq_true, if_false, List.length_cons] at ih ⊢; omega

/-- C62.  An object of `n` primitives under bare keys is shorter than compact JSON text by at least `n + 2`. -/
theorem C62_flat [LawfulF64 F] (opts : EncOpts) (es : List (Str × Json F)) (hp : ∀ e ∈ es, bareKey e.1 = true ∧ ∃ p, e.2 = .prim p)
    (hn : AllPrims NumberFits (.obj es)) :
    (encode opts (.obj es)).length + es.length + 2 ≤ (jsonStringify 0 0 (.obj es)).length := by
  obtain ⟨l, h, hu⟩ := C56_one_layout opts.fold opts.flattenDepth ((Json.obj es).mapPrims Prim.plain)
  have h2 := json_length opts.delim 0 (.obj es) hn
  rw [C56_text opts _ l h]
  have hlen : (Json.mapPrimsEntries Prim.plain es).length = es.length := by
    have := congrArg List.length (mapPrimsEntries_keys Prim.plain es)
    simpa using this
  have hp' : ∀ e ∈ Json.mapPrimsEntries Prim.plain es, bareKey e.1 = true ∧ ∃ p, e.2 = .prim p := by
    clear h h2 hlen hn hu
    induction es with
    | nil => simp [Json.mapPrimsEntries]
    | cons x es ih =>
      obtain ⟨k, v⟩ := x
      obtain ⟨hb, p, rfl⟩ := hp (k, v) (by simp)
      intro e he
      rcases List.mem_cons.mp he with rfl | he
      · exact ⟨hb, _, rfl⟩
      · exact ih (fun e he => hp e (by simp [he])) e he
  simp only [Json.mapPrims] at h h2
  rw [← hlen]
  generalize Json.mapPrimsEntries Prim.plain es = es' at *
  cases h with
  | @object _ _ _ _ ls h1 =>
    have h3 := flat_rows opts.delim opts.indent es' h1 hp'
    rw [Layout.documentRows]
    rw [jsonLen] at h2
    cases es' with
    | nil => cases h1; simpa [Layout.entriesRows, separated] using h2
    | cons x es' =>
      have hne : Layout.entriesRows opts.delim 0 ls ≠ [] := by
        cases h1 with
        | folded => simp [Layout.entriesRows, entryRows_ne_nil]
        | plain => simp [Layout.entriesRows, entryRows_ne_nil]
      have h4 := separated_rows opts.indent _ hne
      simp only [List.isEmpty_cons, Bool.false_eq_true, if_false, Nat.lt_irrefl, List.length_cons] at h2 h3 ⊢
      omega

/-- C62.  A table of `n` rows is shorter than compact JSON text by the column names in all rows but one, three
characters for each cell, less one for each column, and two for each row, except for the indentation, the
length mark and three characters. -/
theorem C62_table [LawfulF64 F] (opts : EncOpts) (items : List (Json F)) (cols : List Str) (ht : IsTable items cols)
    (hb : ∀ c ∈ cols, bareKey c = true) (hd : DistinctKeys (.arr items)) (hn : AllPrims NumberFits (.arr items)) :
    (encode opts (.arr items)).length +
        ((items.length - 1) * totalLength cols + (3 * items.length - 1) * cols.length + 2 * items.length) ≤
      (jsonStringify 0 0 (.arr items)).length +
        (items.length * opts.indent + (natDigits items.length).length + (if opts.delim = ',' then 0 else 1) + 3) := by
  obtain ⟨l, h, _⟩ := C56_one_layout opts.fold opts.flattenDepth ((Json.arr items).mapPrims Prim.plain)
  have h2 := json_length opts.delim 0 (.arr items) hn
  have hd' := distinct_mapPrims Prim.plain _ hd
  rw [C56_text opts _ l h]
  have ht' := isTable_mapPrims Prim.plain ht
  simp only [Json.mapPrims] at h h2 hd'
  have hlen : (Json.mapPrimsItems Prim.plain items).length = items.length := by simp [mapPrimsItems_map]
  rw [← hlen]
  generalize Json.mapPrimsItems Prim.plain items = items' at *
  obtain ⟨rows, hc, rfl⟩ := isTable_items ht' h
  obtain ⟨hne, hw⟩ := isTable_widths ht'
  have hnd := isTable_nodup ht' (by simpa only [DistinctKeys] using hd')
  have h3 := table_json (tokenLength opts.delim) 0 0 ht'.1 hnd hc hw hne
  have h4 := table_rows opts.delim opts.indent 1 ht'.1 hc
  have h5 := tableText_length opts.delim cols rows.length ht'.1
  have h6 := pointwise_length hc
  have h7 := separated_rows opts.indent (Layout.entryRows opts.delim [] 0 1 (.table cols rows)) (entryRows_ne_nil _ _ _ _ _)
  have hk : totalLength (cols.map keyTextOf) = totalLength cols := by
    congr 1
    conv => rhs; rw [← List.map_id cols]
    exact List.map_congr_left fun c hc => by rw [keyTextOf, if_pos (hb c hc)]; rfl
  have hj := totalLength_json cols hb
  rw [jsonLen, if_neg (by simpa using hne), if_neg (by omega)] at h2
  simp only [Layout.documentRows, Layout.entryRows, rowsSize_cons, rowSize, List.nil_append, Nat.mul_zero, h4, Nat.mul_one] at h7 ⊢
  have hpos : 1 ≤ items'.length := List.length_pos_iff.mpr hne
  obtain ⟨n, hn'⟩ : ∃ n, items'.length = n + 1 := ⟨items'.length - 1, by omega⟩
  rw [hj, rowJson] at h3
  simp only [← h6, hn', hk, Nat.lt_irrefl, if_false, Nat.zero_add, Nat.mul_one] at h3 h5 h7 ⊢
  generalize totalLength cols = K at *
  generalize cols.length = m at *
  have e1 : (n + 1) * (1 + m + (K + 2 * m) + m + 0 + 1) = n * K + K + 4 * (n * m) + 4 * m + 2 * n + 2 := by
    rw [show 1 + m + (K + 2 * m) + m + 0 + 1 = K + 4 * m + 2 by omega, Nat.succ_mul, Nat.mul_add, Nat.mul_add, Nat.mul_left_comm]
    omega
  have e2 : (3 * (n + 1) - 1) * m = 3 * (n * m) + 2 * m := by
    rw [show 3 * (n + 1) - 1 = 3 * n + 2 by omega, Nat.add_mul, Nat.mul_assoc]
  have e3 : (n + 1) * (opts.indent + m) = (n + 1) * opts.indent + n * m + m := by
    rw [Nat.mul_add, Nat.succ_mul n m]; omega
  rw [e1] at h3
  rw [e3] at h7
  rw [e2, show n + 1 - 1 = n from rfl]
  omega

end

/-! ## What makes it longer -/

section
variable {F : Type} [F64 F]

/-- The layout of `nestedArrays`. -/
def nestedLayout : Nat → Layout F
  | 0 => .inline []
  | n + 1 => .list [nestedLayout n]

omit [F64 F] in
theorem nested_not_prims (n : Nat) (vs : List (Json F)) : ¬ ∃ ps, ArePrims (nestedArrays (F := F) n :: vs) ps := by
  rw [arePrims_iff]
  cases n <;> simp [isArrayOfPrims, nestedArrays, Json.isPrim]

omit [F64 F] in
theorem nested_not_table (n : Nat) (vs : List (Json F)) : ¬ ∃ cols, IsTable (nestedArrays (F := F) n :: vs) cols := by
  rintro ⟨cols, _, ⟨es, rest, h, _⟩, _⟩
  cases n <;> simp [nestedArrays] at h

omit [F64 F] in
theorem nested_item (fold : Bool) (m n : Nat) : ItemLayout (F := F) fold m (nestedArrays n) (nestedLayout n) := by
  induction n with
  | zero => exact .inline (ps := []) rfl
  | succ n ih => exact .list (nested_not_prims n []) (.cons ih .nil)

omit [F64 F] in
theorem nested_plain (f : Prim F → Prim F) (n : Nat) : (nestedArrays n).mapPrims f = nestedArrays n := by
  induction n with
  | zero => rfl
  | succ n ih => simp [nestedArrays, Json.mapPrims, Json.mapPrimsItems, ih]

theorem nested_document (fold : Bool) (m n : Nat) :
    DocumentLayout (F := F) fold m ((nestedArrays n).mapPrims Prim.plain) (nestedLayout n) := by
  rw [nested_plain]
  cases n with
  | zero => exact .inline (ps := []) rfl
  | succ n => exact .list (nested_not_prims n []) (nested_not_table n []) (.cons (nested_item fold m n) .nil)

theorem nested_rows (i depth n : Nat) :
    2 * rowsSize i (Layout.itemRows (F := F) ',' depth (nestedLayout n)) = (n + 1) * (2 * (i * depth) + 14) + i * (n * (n + 1)) := by
  induction n generalizing depth with
  | zero =>
    have := inline_size (F := F) ',' []
    simp only [nestedLayout, Layout.itemRows, rowsSize_cons, rowsSize_nil, rowSize, List.length_cons, this, mark, if_true,
      List.isEmpty_nil, List.length_nil, show (natDigits 0).length = 1 by decide]
    omega
  | succ n ih =>
    have h1 := lengthMark_mark ',' 1
    have h2 := ih (depth + 1)
    simp only [nestedLayout, Layout.itemRows, Layout.itemsRows, rowsSize_cons, rowsSize_append, rowsSize_nil, rowSize, List.length_cons,
      List.length_append, List.length_nil, mark, if_true, show (natDigits 1).length = 1 by decide, Nat.zero_add, h1] at h2 ⊢
    have e1 : (n + 1) * (2 * (i * (depth + 1)) + 14) = (n + 1) * (2 * (i * depth) + 14) + 2 * (i * (n + 1)) := by
      rw [show 2 * (i * (depth + 1)) + 14 = 2 * (i * depth) + 14 + 2 * i by rw [Nat.mul_add]; omega, Nat.mul_add,
        Nat.mul_left_comm (n + 1) 2 i, Nat.mul_comm (n + 1) i]
    have e2 : i * ((n + 1) * (n + 1 + 1)) = i * (n * (n + 1)) + 2 * (i * (n + 1)) := by
      rw [show (n + 1) * (n + 1 + 1) = n * (n + 1) + 2 * (n + 1) by
        rw [Nat.mul_succ (n + 1) (n + 1), Nat.succ_mul n (n + 1)]; omega, Nat.mul_add, Nat.mul_left_comm i 2]
    have e3 : (n + 1 + 1) * (2 * (i * depth) + 14) = (n + 1) * (2 * (i * depth) + 14) + (2 * (i * depth) + 14) := Nat.succ_mul _ _
    rw [e2, e3]
    rw [e1] at h2
    omega

/-- C62.  An empty array inside `n` arrays is written in more than `n * n` characters, and is `2 * n + 2`
characters of compact JSON text: no multiple of the compact text bounds the written text. -/
theorem C62_nested [LawfulF64 F] [JsonNum F] (opts : EncOpts) (hc : opts.delim = ',') (hi : 2 ≤ opts.indent) (n : Nat) :
    n * n < (encode opts (nestedArrays (F := F) n)).length ∧ (jsonStringify 0 0 (nestedArrays (F := F) n)).length = 2 * n + 2 := by
  constructor
  · rw [C56_text opts _ _ (nested_document opts.fold opts.flattenDepth n), hc]
    cases n with
    | zero =>
      have := inline_size (F := F) ',' []
      simp only [nestedLayout, Layout.documentRows, Layout.entryRows, List.map_cons, List.map_nil, separated, rowText, List.nil_append,
        Nat.mul_zero, List.replicate_zero, this]
      omega
    | succ n =>
      have h1 := nested_rows (F := F) opts.indent 1 n
      have h2 := separated_rows opts.indent (Layout.entryRows (F := F) ',' [] 0 1 (nestedLayout (n + 1))) (entryRows_ne_nil _ _ _ _ _)
      have h3 := lengthMark_mark ',' 1
      simp only [nestedLayout, Layout.documentRows, Layout.entryRows, Layout.itemsRows, rowsSize_cons, rowsSize_append, rowsSize_nil,
        rowSize, List.length_append, List.length_nil, List.length_cons, Nat.zero_add, List.nil_append] at h2 ⊢
      have e1 : 2 * (n * (n + 1)) ≤ opts.indent * (n * (n + 1)) := Nat.mul_le_mul_right _ hi
      have e2 : (n + 1) * (n + 1) = n * (n + 1) + (n + 1) := Nat.succ_mul _ _
      have e3 : (n + 1) * (2 * (opts.indent * 1) + 14) = (n + 1) * (2 * opts.indent) + (n + 1) * 14 := by rw [Nat.mul_one, Nat.mul_add]
      omega
  · have key : ∀ n e, jsonLen (fun p => (jsonPrimitive (F := F) p).length) 0 e (nestedArrays n) = 2 * n + 2 := by
      intro n
      induction n with
      | zero => intro e; rfl
      | succ n ih =>
        intro e
        simp only [nestedArrays, jsonLen, jsonLenItems, ih, List.isEmpty_cons, List.isEmpty_nil, Nat.lt_irrefl, if_true, if_false,
          Bool.false_eq_true]
        omega
    rw [jsonStringify_length, key]

/-- The layout of an array of empty arrays. -/
theorem empties_document (fold : Bool) (m n : Nat) :
    DocumentLayout (F := F) fold m ((Json.arr (List.replicate (n + 1) (.arr []))).mapPrims Prim.plain)
      (.list (List.replicate (n + 1) (.inline []))) := by
  have e : (Json.arr (List.replicate (n + 1) (Json.arr (F := F) []))).mapPrims Prim.plain = .arr (List.replicate (n + 1) (.arr [])) := by
    simp [Json.mapPrims, mapPrimsItems_map, Json.mapPrimsItems]
  rw [e, List.replicate_succ, List.replicate_succ]
  refine .list (nested_not_prims 0 _) (nested_not_table 0 _) (.cons (.inline (ps := []) rfl) ?_)
  induction n with
  | zero => exact .nil
  | succ n ih =>
    rw [List.replicate_succ, List.replicate_succ]
    exact .cons (.inline (ps := []) rfl) (ih (by simp [Json.mapPrims, mapPrimsItems_map, Json.mapPrimsItems]))

/-- C62.  An array of `n` empty arrays is longer than JSON text indented by the same width, by three characters
for each of them. -/
theorem C62_empties [LawfulF64 F] [JsonNum F] (opts : EncOpts) (hc : opts.delim = ',') (hi : 1 ≤ opts.indent) (n : Nat) (hn : 1 ≤ n) :
    (encode opts (Json.arr (F := F) (List.replicate n (.arr [])))).length =
      (jsonStringify opts.indent 0 (Json.arr (F := F) (List.replicate n (.arr [])))).length + 3 * n + (natDigits n).length + 1 := by
  obtain ⟨n, rfl⟩ : ∃ m, n = m + 1 := ⟨n - 1, by omega⟩
  rw [C56_text opts _ _ (empties_document opts.fold opts.flattenDepth n), hc]
  have h2 := separated_rows opts.indent (Layout.entryRows (F := F) ',' [] 0 1 (.list (List.replicate (n + 1) (.inline []))))
    (entryRows_ne_nil _ _ _ _ _)
  have h3 := lengthMark_mark ',' (n + 1)
  have h4 : ∀ n, rowsSize opts.indent (Layout.itemsRows (F := F) ',' 1 (List.replicate n (.inline []))) = n * (opts.indent + 7) := by
    intro n
    induction n with
    | zero => simp [Layout.itemsRows, rowsSize]
    | succ n ih =>
      have := inline_size (F := F) ',' []
      simp only [List.replicate_succ, Layout.itemsRows, Layout.itemRows, rowsSize_append, rowsSize_cons, rowsSize_nil, rowSize, ih,
        List.length_cons, this, List.length_nil, List.isEmpty_nil, if_true, mark, show (natDigits 0).length = 1 by decide, Nat.succ_mul]
      omega
  have h5 : ∀ n (g : Prim F → Nat), jsonLenItems g opts.indent 0 (List.replicate (n + 1) (.arr [])) + 1 = (n + 1) * (opts.indent + 4) := by
    intro n g
    induction n with
    | zero => simp [jsonLenItems, jsonLen]; rw [if_pos (by omega)]; omega
    | succ n ih =>
      rw [List.replicate_succ, jsonLenItems, if_pos (by omega)]
      have e1 : (n + 1 + 1) * (opts.indent + 4) = (n + 1) * (opts.indent + 4) + (opts.indent + 4) := Nat.succ_mul _ _
      simp only [List.isEmpty_replicate, jsonLen, List.isEmpty_nil, if_true, Nat.succ_ne_zero, decide_false, Bool.false_eq_true, if_false,
        Nat.zero_add, Nat.one_mul]
      omega
  rw [jsonStringify_length, jsonLen, if_neg (by simp [List.replicate_succ]), if_pos (by omega)]
  have h6 := h5 n (fun p => (jsonPrimitive (F := F) p).length)
  simp only [Layout.documentRows, Layout.entryRows, rowsSize_cons, rowSize, List.nil_append, List.length_append, List.length_cons,
    List.length_nil, List.length_replicate, h3, h4, mark, if_true, Nat.mul_add] at h2 h6 ⊢
  omega

end

/-! ## Examples -/

namespace SizeExample

/-- In the concrete model of numbers (JSON text without exponents) every number fits. -/
theorem fits (p : Prim B64) : NumberFits p := by
  intro x hx
  subst hx
  have hz : F64.isZero x = true → 1 ≤ (JsonNum.text x).length := by
    intro _
    show 1 ≤ (B64.jsonText x).length
    rw [B64.jsonText]
    split
    · rename_i h
      cases hd : x.display with
      | nil => rw [hd] at h; cases h
      | cons => simp
    · simp
  have hd : (F64.display x).length ≤ (JsonNum.text x).length := by
    show (B64.display x).length ≤ (B64.jsonText x).length
    rw [B64.jsonText]
    split <;> simp
  simp only [tokenText, jsonPrimitive, jsonNumber]
  by_cases h1 : F64.isFinite x = true
  · simp only [h1, if_true]
    split
    · rename_i h2; exact hz h2
    · exact hd
  · have h2 : F64.isZero x ≠ true := fun h => h1 (LawfulF64.isZero_isFinite x h)
    simp [h1, h2]

def one : Json B64 := .prim (.num ⟨false, 1023, 0⟩)
def ada : Json B64 := .prim (.str "Ada".toList)
def id : Str := "id".toList
def name : Str := "name".toList

/-- Three rows, the second with its keys in another order. -/
def table : List (Json B64) :=
  [.obj [(id, one), (name, ada)], .obj [(name, ada), (id, one)], .obj [(id, one), (name, .prim .null)]]

theorem isTable : IsTable table [id, name] := isTable_of_header (by decide +kernel)

theorem distinct : DistinctKeys (.arr table) := by
  simp only [table, DistinctKeys, DistinctKeysItems, DistinctKeysEntries, one, ada]
  decide

/-- The three rows take at most 48 characters, against 72 of compact JSON text. -/
example : (jsonStringify 0 0 (Json.arr table)).length = 72 ∧
    (encode { indent := 2, delim := ',', fold := false, flattenDepth := 0 } (.arr table)).length ≤ 48 := by
  have h1 : (jsonStringify 0 0 (Json.arr table)).length = 72 := by decide +kernel
  refine ⟨h1, ?_⟩
  have h := C62_table { indent := 2, delim := ',', fold := false, flattenDepth := 0 } table _ isTable (by decide) distinct
    (allPrims_of _ fits _)
  rw [h1, show table.length = 3 from rfl] at h
  simp only [List.length_cons, List.length_nil, show totalLength [id, name] = 6 by decide, show (natDigits 3).length = 1 by decide,
    if_true] at h
  omega

/-- An object with a table, an inline array, an empty array and a nested object. -/
def value : Json B64 := .obj [("users".toList, .arr table), ("tags".toList, .arr [ada, one]), ("none".toList, .arr []),
  ("meta".toList, .obj [(id, .obj [(name, one)])])]

example : (encode { indent := 2, delim := ',', fold := true, flattenDepth := 8 } value).length ≤ (jsonStringify 2 0 value).length := by
  refine C62_regular { indent := 2, delim := ',', fold := true, flattenDepth := 8 } value rfl (by decide) ?_ (by simp [value]) ?_
    (allPrims_of _ fits _)
  · refine ⟨.inr ⟨_, isTable⟩, .inl ⟨[_, _], rfl⟩, .inl ⟨[], rfl⟩, ?_, trivial⟩
    simp [Regular, RegularEntries, one]
  · simp only [value, table, DistinctKeys, DistinctKeysItems, DistinctKeysEntries, one, ada]
    decide

example : (encode { indent := 2, delim := ',', fold := true, flattenDepth := 8 } (.obj [(name, ada), (id, one)])).length + 2 + 2 ≤
    (jsonStringify 0 0 (Json.obj [(name, ada), (id, one)])).length :=
  C62_flat _ [(name, ada), (id, one)] (by
    intro e he
    rcases List.mem_cons.mp he with rfl | he
    · exact ⟨by decide, _, rfl⟩
    · rcases List.mem_cons.mp he with rfl | he
      · exact ⟨by decide, _, rfl⟩
      · cases he) (allPrims_of _ fits _)

/-- A list: the value of C56, with three elements in lists. -/
example : (encode { indent := 2, delim := '|', fold := true, flattenDepth := 2 } LayoutExample.value).length ≤
    (jsonStringify 2 0 LayoutExample.value).length + 4 * 3 + 6 + 2 := by
  have h := C62_pretty { indent := 2, delim := '|', fold := true, flattenDepth := 2 } LayoutExample.value LayoutExample.layout (by
    have : LayoutExample.value.mapPrims Prim.plain = LayoutExample.value := by
      rw [show LayoutExample.value.mapPrims Prim.plain = normalize LayoutExample.value by decide +kernel]; decide +kernel
    rw [this]; exact LayoutExample.layout_of) (by decide) (by
      simp only [LayoutExample.value, LayoutExample.num, DistinctKeys, DistinctKeysItems, DistinctKeysEntries]
      decide) (allPrims_of _ fits _)
  have e1 : LayoutExample.layout.listElements = 3 := by decide
  have e2 : LayoutExample.layout.arrays = 6 := by decide
  rw [e1, e2, if_neg (by decide)] at h
  exact h

/-- One row and one column: longer than compact JSON text. -/
theorem C62_small : (jsonStringify 0 0 (Json.arr [.obj [("a".toList, .prim (F := B64) .null)]])).length <
    (encode { indent := 2, delim := ',', fold := false, flattenDepth := 0 } (Json.arr [.obj [("a".toList, .prim (F := B64) .null)]])).length := by
  have h : ValueLayout (F := B64) false 0 [] [] 0 (.arr [.obj [("a".toList, .prim .null)]]) (.table ["a".toList] [[.null]]) :=
    .table (isTable_of_header (by decide +kernel)) (.cons ⟨_, rfl, .cons rfl .nil⟩ .nil)
  rw [C56_text { indent := 2, delim := ',', fold := false, flattenDepth := 0 } (.arr [.obj [("a".toList, .prim .null)]]) _ h]
  simp only [Layout.documentRows, Layout.entryRows, cellsText, tokenText_eq, List.map, tableText]
  decide +kernel

/-- The number 1e308. -/
def big : B64 := (exactNumber "1e308".toList).getD ⟨false, 0, 0⟩

/-- C62.  A number of five characters is written in 309. -/
theorem C62_number : readJson exactNumber "1e308".toList = some (.prim (.num big)) ∧
    (encode { indent := 2, delim := ',', fold := false, flattenDepth := 0 } (Json.prim (.num big))).length = 309 := by
  refine ⟨by decide +kernel, ?_⟩
  have e : (Json.prim (.num big)).mapPrims Prim.plain = .prim (.num big) := by decide +kernel
  rw [C56_text (l := .prim (.num big)) _ _ (by rw [e]; exact .prim _)]
  simp only [Layout.documentRows, tokenText_eq, List.map, separated]
  decide +kernel

end SizeExample

end Toon
