import Verif.Lemmas.Size

/-! The written text against indented JSON text (C62). -/

namespace Toon

section
variable {F : Type} [F64 F]

/-- One character per array, unless the delimiter is a comma. -/
def mark (d : Char) : Nat := if d = ',' then 0 else 1

omit [F64 F] in
theorem lengthMark_mark (d : Char) (n : Nat) : (lengthMark d n).length = 2 + (natDigits n).length + mark d :=
  lengthMark_length d n

/-- What a layout may cost more than JSON text. -/
def Layout.cost (d : Char) (l : Layout F) : Nat := 4 * l.listElements + mark d * l.arrays

def Layout.costItems (d : Char) (ls : List (Layout F)) : Nat :=
  4 * Layout.listElementsItems ls + mark d * Layout.arraysItems ls

def Layout.costEntries (d : Char) (ls : List (Str × Layout F)) : Nat :=
  4 * Layout.listElementsEntries ls + mark d * Layout.arraysEntries ls

/-- The entries of an object at a level, each on a line. -/
def entrySum (g : Prim F → Nat) (i depth : Nat) : List (Str × Json F) → Nat
  | [] => 0
  | (k, v) :: es => i * depth + (jsonString k).length + jsonLen g i depth v + 3 + entrySum g i depth es

omit [F64 F] in
theorem jsonLenEntries_entrySum (g : Prim F → Nat) (i e : Nat) (hi : 1 ≤ i) (es : List (Str × Json F)) :
    entrySum g i (e + 1) es + es.length ≤ jsonLenEntries g i e es + 1 := by
  induction es with
  | nil => simp [entrySum, jsonLenEntries]
  | cons x es ih =>
    obtain ⟨k, v⟩ := x
    rw [entrySum, jsonLenEntries, if_pos (by omega), if_pos (by omega), Nat.mul_comm i (e + 1)]
    cases es with
    | nil => simp [entrySum, jsonLenEntries]; omega
    | cons y es =>
      simp only [List.length_cons, List.isEmpty_cons, Bool.false_eq_true, if_false] at ih ⊢
      omega

omit [F64 F] in
theorem jsonString_dot (a b : Str) : (jsonString (a ++ '.' :: b)).length + 1 = (jsonString a).length + (jsonString b).length := by
  have h : jsonEscapeChar '.' = ['.'] := by decide
  simp only [jsonString, List.flatMap_append, List.flatMap_cons, h, List.length_cons, List.length_append, List.length_nil]
  omega

omit [F64 F] in
theorem jsonString_chain (g : Prim F → Nat) (i : Nat) (leaf : Json F) : ∀ (ks : List Str) (k : Str) (depth : Nat),
    (jsonString (dotted (k :: ks))).length + jsonLen g i depth leaf ≤ (jsonString k).length + jsonLen g i depth (nested ks leaf)
  | [], k, depth => by simp [dotted, nested]
  | k' :: ks, k, depth => by
    have ih := jsonString_chain g i leaf ks k' (depth + 1)
    have h1 := jsonString_dot k (dotted (k' :: ks))
    have h2 := jsonLen_deeper g i (show depth ≤ depth + 1 by omega) leaf
    rw [dotted]
    · rw [nested]
      simp only [jsonLen, jsonLenEntries, List.isEmpty_cons, Bool.false_eq_true, if_false]
      repeat' split
      all_goals omega
    · simp

omit [F64 F] in
theorem distinct_leaf {leaf : Json F} : ∀ {ks : List Str}, DistinctKeys (nested ks leaf) → DistinctKeys leaf
  | [], h => h
  | _ :: ks, h => by
    rw [nested] at h
    simp only [DistinctKeys, DistinctKeysEntries] at h
    exact distinct_leaf (ks := ks) h.2.1

omit [F64 F] in
theorem isTable_nodup {items : List (Json F)} {cols : List Str} (h : IsTable items cols) (hd : DistinctKeysItems items) : cols.Nodup := by
  obtain ⟨_, ⟨es, rest, rfl, rfl⟩, _⟩ := h
  simp only [DistinctKeysItems, DistinctKeys] at hd
  exact hd.1.1

omit [F64 F] in
theorem isTable_widths {items : List (Json F)} {cols : List Str} (h : IsTable items cols) :
    items ≠ [] ∧ ∀ es, .obj es ∈ items → es.length = cols.length := by
  obtain ⟨_, ⟨es, rest, rfl, rfl⟩, h⟩ := h
  refine ⟨by simp, ?_⟩
  intro es' he
  obtain ⟨es'', h1, h2, _⟩ := h _ he
  cases h1; exact h2

omit [F64 F] in
theorem jsonLenItems_prims (g : Prim F → Nat) (i e : Nat) (ps : List (Prim F)) (h : ps ≠ []) :
    jsonLenItems g i e (ps.map .prim) + 1 = (ps.map g).sum + ps.length * ((if i > 0 then 1 + (e + 1) * i else 0) + 1) := by
  generalize ha : (if i > 0 then 1 + (e + 1) * i else 0) = a
  induction ps with
  | nil => exact absurd rfl h
  | cons p ps ih =>
    rw [List.map_cons, jsonLenItems, ha, jsonLen]
    cases ps with
    | nil => simp [jsonLenItems]; omega
    | cons q ps =>
      have := ih (by simp)
      simp only [List.map_cons, List.sum_cons, List.length_cons, List.isEmpty_cons, Bool.false_eq_true, if_false] at this ⊢
      have e1 : (ps.length + 1 + 1) * (a + 1) = (ps.length + 1) * (a + 1) + (a + 1) := Nat.succ_mul _ _
      omega

/-- An array on one line. -/
theorem inline_size (d : Char) (ps : List (Prim F)) :
    (inlineText d ps).length = 3 + (natDigits ps.length).length + mark d +
      (if ps.isEmpty then 0 else (ps.map (tokenLength d)).sum + ps.length) := by
  have hm := lengthMark_length d ps.length
  rw [inlineText, mark]
  cases ps with
  | nil => simp at hm ⊢; omega
  | cons p ps =>
    have := cellsText_length d (p :: ps) (by simp)
    simp only [List.isEmpty_cons, Bool.false_eq_true, if_false, List.length_append, List.length_cons] at hm this ⊢
    omega

omit [F64 F] in
/-- The JSON text of an array of primitives. -/
theorem inline_json (g : Prim F → Nat) (i e : Nat) (hi : 1 ≤ i) (ps : List (Prim F)) (h : ps ≠ []) :
    (ps.map g).sum + 2 * ps.length + ps.length * ((e + 1) * i) + 2 + e * i = jsonLen g i e (.arr (ps.map .prim)) := by
  have := jsonLenItems_prims g i e ps h
  rw [jsonLen, if_neg (by simpa using h), if_pos (by omega)]
  rw [if_pos (by omega), Nat.mul_add, Nat.mul_add] at this
  omega

/-- The JSON text of a table against its lines. -/
theorem table_size (d : Char) (i e depth : Nat) (hi : 1 ≤ i) {cols : List Str} {items : List (Json F)} {rows : List (List (Prim F))}
    (h : IsTable items cols) (hc : TableCells cols items rows) (hd : DistinctKeysItems items) :
    i * depth + (tableText d cols rows.length).length + 1 + rowsSize i (rows.map fun row => (e + 1, cellsText d row)) ≤
      i * depth + jsonLen (tokenLength d) i e (.arr items) + mark d := by
  obtain ⟨hne, hw⟩ := isTable_widths h
  have hnd := isTable_nodup h hd
  have h1 := table_json (tokenLength d) i e h.1 hnd hc hw hne
  have h2 := table_rows d i (e + 1) h.1 hc
  have h3 := tableText_length d cols rows.length h.1
  have h4 := totalLength_le keyTextOf_length_le cols
  have hlen := pointwise_length hc
  have hn : 0 < items.length := by
    cases items with
    | nil => exact absurd rfl hne
    | cons => simp
  have h5 := natDigits_length_pos rows.length (by omega)
  rw [jsonLen, if_neg (by simpa using hne), if_pos (by omega), h2, mark]
  rw [if_pos (by omega)] at h1
  have hr : (e + 1) * i + totalLength (cols.map jsonString) + 5 * cols.length + 2 ≤
      rowJson i (e + 1) cols.length (totalLength (cols.map jsonString)) := by
    rw [rowJson, if_pos (by omega), if_pos (by omega), if_pos (by omega)]
    have : cols.length * 4 ≤ cols.length * (1 + (e + 1 + 1) * i + 2) := by
      apply Nat.mul_le_mul_left
      have : 1 * 1 ≤ (e + 1 + 1) * i := Nat.mul_le_mul (by omega) hi
      omega
    omega
  have hm : 0 < cols.length := List.length_pos_iff.mpr h.1
  have he : 1 ≤ (e + 1) * i := Nat.mul_le_mul (show 1 ≤ e + 1 by omega) hi
  have hC : items.length * ((i * (e + 1) + cols.length) + (totalLength (cols.map jsonString) + cols.length) + 7) ≤
      items.length * (1 + (e + 1) * i + rowJson i (e + 1) cols.length (totalLength (cols.map jsonString)) + 1) := by
    apply Nat.mul_le_mul_left
    rw [Nat.mul_comm i (e + 1)]
    omega
  rw [Nat.mul_add, Nat.mul_add] at hC
  have hk := Nat.mul_le_mul_right (totalLength (cols.map jsonString) + cols.length) (show 1 ≤ items.length from hn)
  omega

mutual

theorem value_size {fold : Bool} {n : Nat} {taken path : List Str} {fd : Nat} (d : Char) (i : Nat) (hi : 1 ≤ i) (head : Str)
    (depth e : Nat) (v : Json F) {l : Layout F} (h : ValueLayout fold n taken path fd v l) (hd : DistinctKeys v) :
    rowsSize i (l.entryRows d head depth (e + 1)) ≤
      i * depth + head.length + 3 + jsonLen (tokenLength d) i e v + l.cost d := by
  match v with
  | .prim p =>
    cases h
    simp only [Layout.entryRows, rowsSize_cons, rowsSize_nil, rowSize, List.length_append, List.length_cons, jsonLen, tokenLength]
    omega
  | .arr items =>
    cases h with
    | @inline _ _ _ _ ps h1 =>
      subst h1
      have := inline_size d ps
      simp only [Layout.entryRows, rowsSize_cons, rowsSize_nil, rowSize, List.length_append, this, Layout.cost,
        Layout.listElements, Layout.arrays]
      cases ps with
      | nil => simp [jsonLen, natDigits, natDigitsAux]; omega
      | cons p ps =>
        rw [← inline_json _ i e hi (p :: ps) (by simp)]
        have h2 := natDigits_length_pos (p :: ps).length (by simp)
        simp only [List.isEmpty_cons, Bool.false_eq_true, if_false]
        omega
    | table h1 h2 =>
      have := table_size d i e depth hi h1 h2 (by simpa only [DistinctKeys] using hd)
      simp only [Layout.entryRows, rowsSize_cons, rowSize, List.length_append, Layout.cost, Layout.listElements, Layout.arrays]
      omega
    | @list _ _ _ _ ls h1 h2 h3 =>
      have hlen := itemsLayout_length h3
      have hne : items ≠ [] := by rintro rfl; exact h1 ⟨[], rfl⟩
      have ih := items_size d i hi e items h3 (by simpa only [DistinctKeys] using hd)
      have hm := lengthMark_mark d ls.length
      have h5 := natDigits_length_pos ls.length (by rw [hlen]; exact List.length_pos_iff.mpr hne)
      simp only [Layout.entryRows, rowsSize_cons, rowSize, List.length_append, List.length_cons, List.length_nil, Layout.cost,
        Layout.listElements, Layout.arrays, jsonLen, Layout.costItems, Nat.mul_add, Nat.mul_one] at ih ⊢
      rw [if_neg (by simpa using hne), if_pos (by omega)]
      omega
  | .obj es =>
    cases h with
    | object h1 =>
      have ih := entries_size d i hi (e + 1) es h1 (by simp only [DistinctKeys] at hd; exact hd.2)
      have hs := jsonLenEntries_entrySum (tokenLength d) i e hi es
      simp only [Layout.entryRows, rowsSize_cons, rowSize, List.length_append, List.length_cons, List.length_nil, Layout.cost,
        Layout.listElements, Layout.arrays, jsonLen, Layout.costEntries] at ih ⊢
      cases es with
      | nil => simp only [entrySum, List.isEmpty_nil, if_true] at ih ⊢; omega
      | cons x es =>
        simp only [List.isEmpty_cons, Bool.false_eq_true, if_false, List.length_cons] at hs ⊢
        omega
termination_by sizeOf v

theorem entries_size {fold : Bool} {n : Nat} {siblings taken path : List Str} {fd : Nat} (d : Char) (i : Nat) (hi : 1 ≤ i)
    (depth : Nat) (es : List (Str × Json F)) {ls : List (Str × Layout F)}
    (h : EntriesLayout fold n siblings taken path fd es ls) (hd : DistinctKeysEntries es) :
    rowsSize i (Layout.entriesRows d depth ls) ≤ entrySum (tokenLength d) i depth es + Layout.costEntries d ls := by
  match es with
  | [] => cases h; simp [Layout.entriesRows, rowsSize]
  | (k, v) :: es =>
    simp only [DistinctKeysEntries] at hd
    cases h with
    | @folded _ _ _ _ _ _ ks leaf l _ ls h1 h2 h3 h4 =>
      have hlt : sizeOf leaf < sizeOf v := by
        have := nested_size ks leaf h2.2.1
        rw [← h2.1.1] at this; exact this
      have e1 := value_size d i hi (keyTextOf (dotted (k :: ks))) depth depth leaf h3 (distinct_leaf (ks := ks) (h2.1.1 ▸ hd.1))
      have e2 := entries_size d i hi depth es h4 hd.2
      have e3 := keyTextOf_length_le (dotted (k :: ks))
      have e4 := jsonString_chain (tokenLength d) i leaf ks k depth
      rw [← h2.1.1] at e4
      simp only [Layout.entriesRows, rowsSize_append, entrySum, Layout.costEntries, Layout.cost, Layout.listElementsEntries,
        Layout.arraysEntries, Nat.mul_add] at e1 e2 ⊢
      omega
    | @plain _ _ _ _ _ _ l _ ls h1 h2 h3 =>
      have e1 := value_size d i hi (keyTextOf k) depth depth v h2 hd.1
      have e2 := entries_size d i hi depth es h3 hd.2
      have e3 := keyTextOf_length_le k
      simp only [Layout.entriesRows, rowsSize_append, entrySum, Layout.costEntries, Layout.cost, Layout.listElementsEntries,
        Layout.arraysEntries, Nat.mul_add] at e1 e2 ⊢
      omega
termination_by sizeOf es

theorem item_size {fold : Bool} {n : Nat} (d : Char) (i : Nat) (hi : 1 ≤ i) (depth : Nat) (v : Json F) {l : Layout F}
    (h : ItemLayout fold n v l) (hd : DistinctKeys v) :
    rowsSize i (l.itemRows d depth) ≤ i * depth + jsonLen (tokenLength d) i depth v + 5 + l.cost d := by
  match v with
  | .prim p =>
    cases h
    simp only [Layout.itemRows, rowsSize_cons, rowsSize_nil, rowSize, List.length_cons, jsonLen, tokenLength]
    omega
  | .arr items =>
    cases h with
    | @inline _ ps h1 =>
      subst h1
      have := inline_size d ps
      simp only [Layout.itemRows, rowsSize_cons, rowsSize_nil, rowSize, List.length_cons, this, Layout.cost,
        Layout.listElements, Layout.arrays]
      cases ps with
      | nil => simp [jsonLen, natDigits, natDigitsAux]; omega
      | cons p ps =>
        rw [← inline_json _ i depth hi (p :: ps) (by simp)]
        have h2 := natDigits_length_pos (p :: ps).length (by simp)
        have h3 : (p :: ps).length * 1 ≤ (p :: ps).length * ((depth + 1) * i) :=
          Nat.mul_le_mul_left _ (Nat.mul_le_mul (show 1 ≤ depth + 1 by omega) hi)
        simp only [List.isEmpty_cons, Bool.false_eq_true, if_false]
        omega
    | @list _ ls h1 h2 =>
      have hlen := itemsLayout_length h2
      have hne : items ≠ [] := by rintro rfl; exact h1 ⟨[], rfl⟩
      have ih := items_size d i hi depth items h2 (by simpa only [DistinctKeys] using hd)
      have hm := lengthMark_mark d ls.length
      have h5 := natDigits_length_pos ls.length (by rw [hlen]; exact List.length_pos_iff.mpr hne)
      simp only [Layout.itemRows, rowsSize_cons, rowSize, List.length_append, List.length_cons, List.length_nil, Layout.cost,
        Layout.listElements, Layout.arrays, jsonLen, Layout.costItems, Nat.mul_add, Nat.mul_one] at ih ⊢
      rw [if_neg (by simpa using hne), if_pos (by omega)]
      omega
  | .obj [] =>
    cases h
    simp only [Layout.itemRows, rowsSize_cons, rowsSize_nil, rowSize, List.length_cons, List.length_nil, jsonLen, List.isEmpty_nil, if_true]
    omega
  | .obj ((k, v) :: es) =>
    simp only [DistinctKeys, DistinctKeysEntries] at hd
    cases h with
    | object h1 h2 =>
      have e1 := value_size d i hi ('-' :: ' ' :: keyTextOf k) depth (depth + 1) v h1 hd.2.1
      rw [show depth + 1 + 1 = depth + 2 from rfl] at e1
      have e2 := entries_size d i hi (depth + 1) es h2 hd.2.2
      have e3 := keyTextOf_length_le k
      have hs := jsonLenEntries_entrySum (tokenLength d) i depth hi ((k, v) :: es)
      simp only [Layout.itemRows, rowsSize_append, entrySum, Layout.costEntries, Layout.cost, Layout.listElementsEntries,
        Layout.arraysEntries, Layout.listElements, Layout.arrays, Nat.mul_add, List.length_cons, jsonLen, List.isEmpty_cons,
        Bool.false_eq_true, if_false, Nat.mul_comm depth i] at e1 e2 hs ⊢
      rw [if_pos (by omega)]
      omega
termination_by sizeOf v

theorem items_size {fold : Bool} {n : Nat} (d : Char) (i : Nat) (hi : 1 ≤ i) (e : Nat) (vs : List (Json F)) {ls : List (Layout F)}
    (h : ItemsLayout fold n vs ls) (hd : DistinctKeysItems vs) :
    rowsSize i (Layout.itemsRows d (e + 1) ls) + vs.length ≤
      jsonLenItems (tokenLength d) i e vs + 1 + 4 * vs.length + Layout.costItems d ls := by
  match vs with
  | [] => cases h; simp [Layout.itemsRows, rowsSize]
  | v :: vs =>
    simp only [DistinctKeysItems] at hd
    cases h with
    | @cons _ l _ ls h1 h2 =>
      have e1 := item_size d i hi (e + 1) v h1 hd.1
      have e2 := items_size d i hi e vs h2 hd.2
      simp only [Layout.itemsRows, rowsSize_append, Layout.costItems, Layout.cost, Layout.listElementsItems,
        Layout.arraysItems, Nat.mul_add, jsonLenItems, List.length_cons] at e1 e2 ⊢
      rw [if_pos (by omega)]
      cases vs with
      | nil =>
        cases h2
        simp only [Layout.itemsRows, rowsSize_nil, jsonLenItems, List.isEmpty_nil, if_true, List.length_nil, Nat.add_mul,
          Nat.mul_comm i e, Nat.mul_one, Nat.one_mul] at e1 e2 ⊢
        omega
      | cons w ws =>
        simp only [List.isEmpty_cons, Bool.false_eq_true, if_false, List.length_cons, Nat.add_mul, Nat.mul_comm i e, Nat.mul_one, Nat.one_mul] at e1 e2 ⊢
        omega
termination_by sizeOf vs

end

end

section
variable {F : Type}

/-! ## Regular values -/

theorem regular_leaf {leaf : Json F} : ∀ {ks : List Str}, Regular (nested ks leaf) → Regular leaf
  | [], h => h
  | _ :: ks, h => by
    rw [nested] at h
    simp only [Regular, RegularEntries] at h
    exact regular_leaf (ks := ks) h.1

mutual
theorem regular_layout {fold : Bool} {n : Nat} {taken path : List Str} {fd : Nat} (v : Json F) {l : Layout F}
    (h : ValueLayout fold n taken path fd v l) (hr : Regular v) : l.listElements = 0 := by
  match v with
  | .prim p => cases h; rfl
  | .arr items =>
    cases h with
    | inline _ => rfl
    | table _ _ => rfl
    | list h1 h2 _ =>
      simp only [Regular] at hr
      rcases hr with hr | hr
      · exact absurd hr h1
      · exact absurd hr h2
  | .obj es =>
    cases h with
    | object h1 => rw [Layout.listElements]; exact regular_entries es h1 (by simpa only [Regular] using hr)
termination_by sizeOf v
theorem regular_entries {fold : Bool} {n : Nat} {siblings taken path : List Str} {fd : Nat} (es : List (Str × Json F))
    {ls : List (Str × Layout F)} (h : EntriesLayout fold n siblings taken path fd es ls) (hr : RegularEntries es) :
    Layout.listElementsEntries ls = 0 := by
  match es with
  | [] => cases h; rfl
  | (k, v) :: es =>
    simp only [RegularEntries] at hr
    cases h with
    | @folded _ _ _ _ _ _ ks leaf l _ ls h1 h2 h3 h4 =>
      have hlt : sizeOf leaf < sizeOf v := by
        have := nested_size ks leaf h2.2.1
        rw [← h2.1.1] at this; exact this
      rw [Layout.listElementsEntries, regular_layout leaf h3 (regular_leaf (ks := ks) (h2.1.1 ▸ hr.1)), regular_entries es h4 hr.2]
    | plain h1 h2 h3 => rw [Layout.listElementsEntries, regular_layout v h2 hr.1, regular_entries es h3 hr.2]
termination_by sizeOf es
end

/-! ## Other primitives in the same place -/

theorem mapPrimsEntries_keys (f : Prim F → Prim F) (es : List (Str × Json F)) :
    (Json.mapPrimsEntries f es).map Prod.fst = es.map Prod.fst := by
  induction es with
  | nil => rfl
  | cons x es ih => obtain ⟨k, v⟩ := x; simp [Json.mapPrimsEntries, ih]

theorem mapPrimsItems_map (f : Prim F → Prim F) (vs : List (Json F)) : Json.mapPrimsItems f vs = vs.map (Json.mapPrims f) := by
  induction vs with
  | nil => rfl
  | cons v vs ih => simp [Json.mapPrimsItems, ih]

theorem lookupKey_mapPrims (f : Prim F → Prim F) (k : Str) (es : List (Str × Json F)) :
    lookupKey k (Json.mapPrimsEntries f es) = (lookupKey k es).map (Json.mapPrims f) := by
  induction es with
  | nil => rfl
  | cons x es ih =>
    obtain ⟨k', v⟩ := x
    simp only [Json.mapPrimsEntries, lookupKey, ih]
    split <;> rfl

mutual
theorem distinct_mapPrims (f : Prim F → Prim F) (v : Json F) (h : DistinctKeys v) : DistinctKeys (v.mapPrims f) := by
  match v with
  | .prim _ => trivial
  | .arr items => exact distinct_mapPrimsItems f items h
  | .obj es =>
    simp only [DistinctKeys] at h
    refine ⟨?_, distinct_mapPrimsEntries f es h.2⟩
    rw [mapPrimsEntries_keys]; exact h.1
theorem distinct_mapPrimsItems (f : Prim F → Prim F) (vs : List (Json F)) (h : DistinctKeysItems vs) :
    DistinctKeysItems (Json.mapPrimsItems f vs) := by
  match vs with
  | [] => trivial
  | v :: vs => exact ⟨distinct_mapPrims f v h.1, distinct_mapPrimsItems f vs h.2⟩
theorem distinct_mapPrimsEntries (f : Prim F → Prim F) (es : List (Str × Json F)) (h : DistinctKeysEntries es) :
    DistinctKeysEntries (Json.mapPrimsEntries f es) := by
  match es with
  | [] => trivial
  | (_, v) :: es => exact ⟨distinct_mapPrims f v h.1, distinct_mapPrimsEntries f es h.2⟩
end

theorem isTable_mapPrims (f : Prim F → Prim F) {items : List (Json F)} {cols : List Str} (h : IsTable items cols) :
    IsTable (Json.mapPrimsItems f items) cols := by
  obtain ⟨h1, ⟨es, rest, rfl, rfl⟩, h3⟩ := h
  refine ⟨h1, ⟨_, _, rfl, mapPrimsEntries_keys f es⟩, ?_⟩
  intro item hi
  rw [mapPrimsItems_map] at hi
  obtain ⟨v, hv, rfl⟩ := List.mem_map.mp hi
  obtain ⟨es', rfl, g1, g2⟩ := h3 v hv
  refine ⟨_, rfl, ?_, ?_⟩
  · have := congrArg List.length (mapPrimsEntries_keys f es')
    simpa [g1] using this
  · intro c hc
    obtain ⟨p, hp⟩ := g2 c hc
    exact ⟨f p, by rw [lookupKey_mapPrims, hp]; rfl⟩

mutual
theorem regular_mapPrims (f : Prim F → Prim F) (v : Json F) (h : Regular v) : Regular (v.mapPrims f) := by
  match v with
  | .prim _ => trivial
  | .arr items =>
    simp only [Regular, Json.mapPrims] at h ⊢
    rcases h with ⟨ps, rfl⟩ | ⟨cols, h⟩
    · left; exact ⟨ps.map f, by simp [ArePrims, mapPrimsItems_map, Json.mapPrims]⟩
    · right; exact ⟨cols, isTable_mapPrims f h⟩
  | .obj es => exact regular_mapPrimsEntries f es h
theorem regular_mapPrimsEntries (f : Prim F → Prim F) (es : List (Str × Json F)) (h : RegularEntries es) :
    RegularEntries (Json.mapPrimsEntries f es) := by
  match es with
  | [] => trivial
  | (_, v) :: es => exact ⟨regular_mapPrims f v h.1, regular_mapPrimsEntries f es h.2⟩
end

end

section
variable {F : Type} [F64 F]

/-! ## The root -/

omit [F64 F] in
theorem entryRows_ne_nil [F64 F] (d : Char) (head : Str) (depth inner : Nat) (l : Layout F) : l.entryRows d head depth inner ≠ [] := by
  cases l <;> simp [Layout.entryRows]

omit [F64 F] in
theorem entrySum_deeper (g : Prim F → Nat) (i : Nat) (es : List (Str × Json F)) : entrySum g i 0 es ≤ entrySum g i 1 es := by
  induction es with
  | nil => exact Nat.le_refl _
  | cons x es ih =>
    obtain ⟨k, v⟩ := x
    have := jsonLen_deeper g i (Nat.zero_le 1) v
    simp only [entrySum, Nat.mul_zero, Nat.mul_one]
    omega

theorem document_size {fold : Bool} {n : Nat} (d : Char) (i : Nat) (hi : 1 ≤ i) (v : Json F) {l : Layout F}
    (h : DocumentLayout fold n v l) (hd : DistinctKeys v) :
    (separated '\n' ((l.documentRows d).map (rowText i))).length ≤ jsonLen (tokenLength d) i 0 v + l.cost d + 2 := by
  match v with
  | .prim p =>
    cases h
    simp [Layout.documentRows, separated, rowText, jsonLen, tokenLength]; omega
  | .arr items =>
    have h1 := value_size d i hi [] 0 0 _ h hd
    have h2 := separated_rows i (l.entryRows d [] 0 1) (entryRows_ne_nil d [] 0 1 l)
    have h3 : l.documentRows d = l.entryRows d [] 0 1 := by cases h <;> rfl
    rw [h3]
    simp only [List.length_nil, Nat.mul_zero, Nat.zero_add] at h1
    omega
  | .obj es =>
    cases h with
    | @object _ _ _ _ ls h1 =>
      simp only [DistinctKeys] at hd
      have h2 := entries_size d i hi 0 es h1 hd.2
      rw [Layout.documentRows]
      by_cases hr : Layout.entriesRows d 0 ls = []
      · rw [hr]; simp [separated]
      · have h3 := separated_rows i _ hr
        have h4 := entrySum_deeper (tokenLength d) i es
        have h5 := jsonLenEntries_entrySum (tokenLength d) i 0 hi es
        rw [Nat.zero_add] at h5
        have hes : es ≠ [] := by rintro rfl; cases h1; exact hr rfl
        rw [jsonLen, if_neg (by simpa using hes), if_pos (by omega)]
        simp only [Layout.cost, Layout.costEntries, Layout.listElements, Layout.arrays] at h2 ⊢
        omega

/-- A regular value other than the empty array is no longer than JSON. -/
theorem document_size_regular {fold : Bool} {n : Nat} (i : Nat) (hi : 1 ≤ i) (v : Json F) {l : Layout F}
    (h : DocumentLayout fold n v l) (hd : DistinctKeys v) (hr : Regular v) (hv : v ≠ .arr []) :
    (separated '\n' ((l.documentRows ',').map (rowText i))).length ≤ jsonLen (tokenLength ',') i 0 v := by
  match v with
  | .prim p =>
    cases h
    simp [Layout.documentRows, separated, rowText, jsonLen, tokenLength]
  | .arr items =>
    cases h with
    | @inline _ _ _ _ ps h1 =>
      subst h1
      have hps : ps ≠ [] := by rintro rfl; exact hv rfl
      rw [← inline_json _ i 0 hi ps hps]
      have h2 := inline_size ',' ps
      have h3 := natDigits_length_pos ps.length (List.length_pos_iff.mpr hps)
      have h4 : 1 ≤ ps.length * ((0 + 1) * i) := Nat.mul_le_mul (List.length_pos_iff.mpr hps) (Nat.mul_le_mul (Nat.le_refl 1) hi)
      rw [if_neg (by simpa using hps)] at h2
      simp only [Layout.documentRows, Layout.entryRows, List.map_cons, List.map_nil, separated, rowText, List.nil_append,
        Nat.mul_zero, List.replicate_zero, h2, mark, if_true]
      omega
    | @table _ _ _ _ cols rows h1 h2 =>
      have h3 := table_size ',' i 0 0 hi h1 h2 (by simpa only [DistinctKeys] using hd)
      have h4 := separated_rows i (Layout.entryRows ',' [] 0 1 (.table cols rows)) (entryRows_ne_nil _ _ _ _ _)
      simp only [Layout.documentRows, Layout.entryRows, rowsSize_cons, rowSize, mark, if_true, List.nil_append, Nat.zero_add] at h3 h4 ⊢
      omega
    | list h1 h2 _ =>
      simp only [Regular] at hr
      rcases hr with hr | hr
      · exact absurd hr h1
      · exact absurd hr h2
  | .obj es =>
    have h0 := regular_layout _ h hr
    cases h with
    | @object _ _ _ _ ls h1 =>
      simp only [DistinctKeys] at hd
      have h2 := entries_size ',' i hi 0 es h1 hd.2
      rw [Layout.documentRows]
      by_cases hr : Layout.entriesRows ',' 0 ls = []
      · rw [hr]; simp [separated]
      · have h3 := separated_rows i _ hr
        have h4 := entrySum_deeper (tokenLength ',') i es
        have h5 := jsonLenEntries_entrySum (tokenLength ',') i 0 hi es
        rw [Nat.zero_add] at h5
        have hes : es ≠ [] := by rintro rfl; cases h1; exact hr rfl
        rw [jsonLen, if_neg (by simpa using hes), if_pos (by omega)]
        simp only [Layout.costEntries, Layout.listElements, mark, if_true, Nat.zero_mul] at h0 h2 ⊢
        omega

end

/-! ## Compact JSON text -/

section
variable {F : Type}

theorem plain_char {c : Char} (h : (c.isAlphanum || c == '_' || c == '.') = true) : jsonEscapeChar c = [c] := by
  simp only [Char.isAlphanum, Char.isAlpha, Char.isUpper, Char.isLower, Char.isDigit, Bool.or_eq_true, Bool.and_eq_true,
    decide_eq_true_eq, beq_iff_eq, ge_iff_le, UInt32.le_iff_toNat_le] at h
  have hn : c.val.toNat = c.toNat := rfl
  have h0 : ∀ d : Char, c.toNat ≠ d.toNat → c ≠ d := fun d hd e => hd (by rw [e])
  have hr : 32 ≤ c.toNat ∧ c.toNat ≤ 126 ∧ c.toNat ≠ 34 ∧ c.toNat ≠ 92 := by
    rcases h with (((⟨h1, h2⟩ | ⟨h1, h2⟩) | ⟨h1, h2⟩) | h) | h
    · have : c.toNat ≤ 90 := h2
      have : 65 ≤ c.toNat := h1
      omega
    · have : c.toNat ≤ 122 := h2
      have : 97 ≤ c.toNat := h1
      omega
    · have : c.toNat ≤ 57 := h2
      have : 48 ≤ c.toNat := h1
      omega
    · subst h; decide
    · subst h; decide
  have g1 := h0 '"' (show c.toNat ≠ 34 by omega)
  have g2 := h0 '\\' (show c.toNat ≠ 92 by omega)
  have g3 := h0 '\n' (show c.toNat ≠ 10 by omega)
  have g4 := h0 '\r' (show c.toNat ≠ 13 by omega)
  have g5 := h0 '\t' (show c.toNat ≠ 9 by omega)
  rw [jsonEscapeChar, if_neg g1, if_neg g2, if_neg g3, if_neg g4, if_neg g5, if_neg]
  simp only [isControl, Bool.or_eq_true, Bool.and_eq_true, decide_eq_true_eq]
  omega

theorem bare_json {k : Str} (h : bareKey k = true) : (jsonString k).length = k.length + 2 := by
  have hk : k.flatMap jsonEscapeChar = k := by
    have hall : ∀ c ∈ k, jsonEscapeChar c = [c] := by
      cases k with
      | nil => simp
      | cons a k =>
        simp only [bareKey, Bool.and_eq_true, List.all_eq_true] at h
        intro c hc
        apply plain_char
        rcases List.mem_cons.mp hc with rfl | hc
        · have := h.1
          simp only [Char.isAlphanum, Bool.or_eq_true] at this ⊢
          rcases this with this | this
          · exact .inl (.inl (.inl this))
          · exact .inl (.inr this)
        · exact h.2 c hc
    clear h
    induction k with
    | nil => rfl
    | cons a k ih => rw [List.flatMap_cons, hall a (by simp), ih (fun c hc => hall c (by simp [hc]))]; rfl
  simp [jsonString, hk]

theorem totalLength_json (cols : List Str) (hb : ∀ c ∈ cols, bareKey c = true) :
    totalLength (cols.map jsonString) = totalLength cols + 2 * cols.length := by
  induction cols with
  | nil => rfl
  | cons c cols ih =>
    have := ih (fun c hc => hb c (by simp [hc]))
    have hc := bare_json (hb c (by simp))
    simp only [totalLength, List.map_cons, List.sum_cons, List.length_cons] at this ⊢
    omega

theorem isTable_items {items : List (Json F)} {cols : List Str} {fold : Bool} {n : Nat} {l : Layout F}
    (ht : IsTable items cols) (h : DocumentLayout fold n (.arr items) l) : ∃ rows, TableCells cols items rows ∧ l = .table cols rows := by
  cases h with
  | inline g1 => exact absurd ⟨_, g1⟩ (table_not_prims ht)
  | table g1 g2 => obtain rfl := isTable_unique g1 ht; exact ⟨_, g2, rfl⟩
  | list _ g2 _ => exact absurd ⟨_, ht⟩ g2

end

end Toon
