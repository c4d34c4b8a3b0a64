import Verif.Spec.DelimiterCost
import Verif.Lemmas.Size
import Verif.Lemmas.SizeBound
import Verif.Lemmas.DraftLayout

/-! # What the delimiter costs, row by row -/

namespace Toon

variable {F : Type}

theorem plainText_tab (s : Str) (d : Char) : PlainText s d ↔ PlainText s '\t' ∧ d ∉ s := by
  unfold PlainText
  constructor
  · rintro ⟨h1, h2, h3, h4, h5, h6, h7, h8, h9⟩
    refine ⟨⟨h1, h2, h3, h4, h5, h6, h7, h8, fun c hc => ?_⟩, fun h => ?_⟩
    · have := h9 c hc
      simp only [List.mem_cons, List.not_mem_nil, or_false, not_or] at this ⊢
      exact ⟨this.1, this.2.1, this.2.2.1, this.2.2.2.1, this.2.2.2.2.1, this.2.2.2.2.2.1, this.2.2.2.2.2.2.1, this.2.2.2.2.2.2.2.1,
        this.2.2.2.2.2.2.2.2.1, this.2.2.2.2.2.2.2.2.2.1, this.2.2.2.2.2.2.2.2.2.1⟩
    · exact h9 d h (by simp)
  · rintro ⟨⟨h1, h2, h3, h4, h5, h6, h7, h8, h9⟩, hd⟩
    refine ⟨h1, h2, h3, h4, h5, h6, h7, h8, fun c hc => ?_⟩
    have := h9 c hc
    simp only [List.mem_cons, List.not_mem_nil, or_false, not_or] at this ⊢
    exact ⟨this.1, this.2.1, this.2.2.1, this.2.2.2.1, this.2.2.2.2.1, this.2.2.2.2.2.1, this.2.2.2.2.2.2.1, this.2.2.2.2.2.2.2.1,
      this.2.2.2.2.2.2.2.2.1, this.2.2.2.2.2.2.2.2.2.1, fun e => hd (e ▸ hc)⟩

theorem plain_quoted (s : Str) (h : PlainText s '\t') : (quotedText s).length = s.length + 2 := by
  have h9 := h.2.2.2.2.2.2.2.2
  have key : ∀ t : Str, (∀ c ∈ t, c ∈ s) → t.flatMap escapedChar = t := by
    intro t
    induction t with
    | nil => intro _; rfl
    | cons c t ih =>
      intro ht
      rw [List.flatMap_cons, ih (fun x hx => ht x (List.mem_cons_of_mem _ hx))]
      have := h9 c (ht c List.mem_cons_self)
      simp only [List.mem_cons, List.not_mem_nil, or_false, not_or] at this
      have e : escapedChar c = [c] := by
        unfold escapedChar
        rw [List.find?_eq_none.mpr]
        intro x hx
        simp only [legalEscapes, List.mem_cons, List.not_mem_nil, or_false] at hx
        rcases hx with rfl | rfl | rfl | rfl | rfl <;> simp <;> intro e <;> simp [← e] at this
      rw [e]; rfl
  rw [quotedText, key s (fun _ h => h)]
  simp

section
variable [F64 F]

theorem tokenLength_cost (d : Char) (p : Prim F) : tokenLength d p = tokenLength '\t' p + 2 * p.exposed d := by
  unfold tokenLength
  match p with
  | .null => rfl
  | .bool true => rfl
  | .bool false => rfl
  | .num x => rfl
  | .str s =>
    simp only [tokenText, Prim.exposed]
    by_cases h : PlainText s '\t'
    · by_cases hd : d ∈ s
      · rw [if_neg (fun g => ((plainText_tab s d).mp g).2 hd), if_pos h, if_pos ⟨h, hd⟩, plain_quoted s h]
      · rw [if_pos ((plainText_tab s d).mpr ⟨h, hd⟩), if_pos h, if_neg (fun g => hd g.2)]; rfl
    · rw [if_neg (fun g => h ((plainText_tab s d).mp g).1), if_neg h, if_neg (fun g => h g.1)]; rfl

theorem tokens_cost (d : Char) (ps : List (Prim F)) :
    (ps.map (tokenLength d)).sum = (ps.map (tokenLength '\t')).sum + 2 * (ps.map (Prim.exposed d)).sum := by
  induction ps with
  | nil => rfl
  | cons p ps ih =>
    have := tokenLength_cost d p
    simp only [List.map_cons, List.sum_cons]
    omega

theorem cells_cost (d : Char) (ps : List (Prim F)) :
    (cellsText d ps).length = (cellsText '\t' ps).length + 2 * (ps.map (Prim.exposed d)).sum := by
  by_cases h : ps = []
  · subst h; rfl
  · have a := cellsText_length d ps h
    have b := cellsText_length '\t' ps h
    have := tokens_cost d ps
    omega

omit [F64 F] in
theorem lengthMark_cost (d : Char) (n : Nat) : (lengthMark d n).length + 1 = (lengthMark '\t' n).length + mark d := by
  rw [lengthMark_mark, lengthMark_mark]
  have : mark '\t' = 1 := rfl
  omega

theorem inline_cost (d : Char) (ps : List (Prim F)) :
    (inlineText d ps).length + 1 = (inlineText '\t' ps).length + 2 * (ps.map (Prim.exposed d)).sum + mark d := by
  have h1 := lengthMark_cost d ps.length
  have h2 := cells_cost d ps
  by_cases h : ps = []
  · subst h
    simp only [inlineText, List.length_append, List.length_cons, List.isEmpty_nil, if_true, List.map_nil, List.sum_nil] at h1 ⊢
    omega
  · have : ps.isEmpty = false := by simpa using h
    simp only [inlineText, List.length_append, List.length_cons, this, Bool.false_eq_true, if_false] at h1 ⊢
    omega

omit [F64 F] in
theorem table_cost (d : Char) (cols : List Str) (n : Nat) :
    (tableText d cols n).length + 1 = (tableText '\t' cols n).length + mark d := by
  have h1 := lengthMark_cost d n
  have h2 : (separated d (cols.map keyTextOf)).length = (separated '\t' (cols.map keyTextOf)).length := by
    by_cases h : cols.map keyTextOf = []
    · rw [h]; rfl
    · have a := separated_length d _ h
      have b := separated_length '\t' _ h
      omega
  simp only [tableText, List.length_append, List.length_cons] at h1 h2 ⊢
  omega

theorem cellRows_cost (i : Nat) (d : Char) (inner : Nat) (rows : List (List (Prim F))) :
    rowsSize i (rows.map fun row => (inner, cellsText d row)) =
      rowsSize i (rows.map fun row => (inner, cellsText '\t' row)) +
        2 * (rows.map fun row => (row.map (Prim.exposed d)).sum).sum := by
  induction rows with
  | nil => rfl
  | cons r rs ih =>
    have := cells_cost d r
    simp only [List.map_cons, rowsSize_cons, rowSize, List.sum_cons]
    omega

mutual
theorem entryRows_cost (i : Nat) (d : Char) (head : Str) (depth inner : Nat) : ∀ l : Layout F,
    rowsSize i (l.entryRows d head depth inner) + l.arrays =
      rowsSize i (l.entryRows '\t' head depth inner) + 2 * l.exposed d + mark d * l.arrays
  | .prim p => by
    have := tokenLength_cost d p
    simp only [tokenLength] at this
    simp only [Layout.entryRows, rowsSize_cons, rowsSize_nil, rowSize, List.length_append, List.length_cons, Layout.arrays, Layout.exposed]
    omega
  | .inline ps => by
    have := inline_cost d ps
    simp only [Layout.entryRows, rowsSize_cons, rowsSize_nil, rowSize, List.length_append, Layout.arrays, Layout.exposed]
    omega
  | .table cols rows => by
    have := table_cost d cols rows.length
    have := cellRows_cost i d inner rows
    simp only [Layout.entryRows, rowsSize_cons, rowSize, List.length_append, Layout.arrays, Layout.exposed]
    omega
  | .list items => by
    have := lengthMark_cost d items.length
    have := itemsRows_cost i d inner items
    simp only [Layout.entryRows, rowsSize_cons, rowSize, List.length_append, Layout.arrays, Layout.exposed, Nat.mul_add]
    omega
  | .object es => by
    have := entriesRows_cost i d inner es
    simp only [Layout.entryRows, rowsSize_cons, rowSize, List.length_append, Layout.arrays, Layout.exposed]
    omega
theorem entriesRows_cost (i : Nat) (d : Char) (depth : Nat) : ∀ es : List (Str × Layout F),
    rowsSize i (Layout.entriesRows d depth es) + Layout.arraysEntries es =
      rowsSize i (Layout.entriesRows '\t' depth es) + 2 * Layout.exposedEntries d es + mark d * Layout.arraysEntries es
  | [] => rfl
  | (k, l) :: es => by
    have := entryRows_cost i d (keyTextOf k) depth (depth + 1) l
    have := entriesRows_cost i d depth es
    simp only [Layout.entriesRows, rowsSize_append, Layout.arraysEntries, Layout.exposedEntries, Nat.mul_add]
    omega
theorem itemRows_cost (i : Nat) (d : Char) (depth : Nat) : ∀ l : Layout F,
    rowsSize i (l.itemRows d depth) + l.arrays =
      rowsSize i (l.itemRows '\t' depth) + 2 * l.exposed d + mark d * l.arrays
  | .prim p => by
    have := tokenLength_cost d p
    simp only [tokenLength] at this
    simp only [Layout.itemRows, rowsSize_cons, rowsSize_nil, rowSize, List.length_cons, Layout.arrays, Layout.exposed]
    omega
  | .inline ps => by
    have := inline_cost d ps
    simp only [Layout.itemRows, rowsSize_cons, rowsSize_nil, rowSize, List.length_cons, Layout.arrays, Layout.exposed]
    omega
  | .table cols rows => by
    have := table_cost d cols rows.length
    have := cellRows_cost i d (depth + 1) rows
    simp only [Layout.itemRows, rowsSize_cons, rowSize, List.length_cons, Layout.arrays, Layout.exposed]
    omega
  | .list items => by
    have := lengthMark_cost d items.length
    have := itemsRows_cost i d (depth + 1) items
    simp only [Layout.itemRows, rowsSize_cons, rowSize, List.length_append, List.length_cons, Layout.arrays, Layout.exposed, Nat.mul_add]
    omega
  | .object [] => rfl
  | .object ((k, l) :: es) => by
    have := entryRows_cost i d ('-' :: ' ' :: keyTextOf k) depth (depth + 2) l
    have := entriesRows_cost i d (depth + 1) es
    simp only [Layout.itemRows, rowsSize_append, Layout.arrays, Layout.exposed, Layout.arraysEntries, Layout.exposedEntries, Nat.mul_add]
    omega
theorem itemsRows_cost (i : Nat) (d : Char) (depth : Nat) : ∀ ls : List (Layout F),
    rowsSize i (Layout.itemsRows d depth ls) + Layout.arraysItems ls =
      rowsSize i (Layout.itemsRows '\t' depth ls) + 2 * Layout.exposedItems d ls + mark d * Layout.arraysItems ls
  | [] => rfl
  | l :: ls => by
    have := itemRows_cost i d depth l
    have := itemsRows_cost i d depth ls
    simp only [Layout.itemsRows, rowsSize_append, Layout.arraysItems, Layout.exposedItems, Nat.mul_add]
    omega
end

theorem documentRows_cost (i : Nat) (d : Char) (l : Layout F) :
    rowsSize i (l.documentRows d) + l.arrays = rowsSize i (l.documentRows '\t') + 2 * l.exposed d + mark d * l.arrays := by
  cases l with
  | prim p =>
    have := tokenLength_cost d p
    simp only [tokenLength] at this
    simp only [Layout.documentRows, rowsSize_cons, rowsSize_nil, rowSize, Layout.arrays, Layout.exposed]
    omega
  | object es =>
    have := entriesRows_cost i d 0 es
    simpa only [Layout.documentRows, Layout.arrays, Layout.exposed] using this
  | inline ps => exact entryRows_cost i d [] 0 1 _
  | table cols rows => exact entryRows_cost i d [] 0 1 _
  | list items => exact entryRows_cost i d [] 0 1 _

end

/-! ## Strings without the delimiter -/

theorem avoids_exposed {d : Char} {p : Prim F} (h : p.Avoids d) : p.exposed d = 0 := by
  match p with
  | .null => rfl
  | .bool _ => rfl
  | .num _ => rfl
  | .str s => exact if_neg (fun g => h g.2)

theorem avoids_exposeds {d : Char} {ps : List (Prim F)} (h : ∀ p ∈ ps, p.Avoids d) : (ps.map (Prim.exposed d)).sum = 0 := by
  induction ps with
  | nil => rfl
  | cons p ps ih =>
    rw [List.map_cons, List.sum_cons, avoids_exposed (h p List.mem_cons_self), ih (fun q hq => h q (List.mem_cons_of_mem _ hq))]

theorem avoids_rows {d : Char} {rows : List (List (Prim F))} (h : ∀ row ∈ rows, ∀ p ∈ row, p.Avoids d) :
    (rows.map fun row => (row.map (Prim.exposed d)).sum).sum = 0 := by
  induction rows with
  | nil => rfl
  | cons r rs ih =>
    rw [List.map_cons, List.sum_cons, avoids_exposeds (h r List.mem_cons_self), ih (fun q hq => h q (List.mem_cons_of_mem _ hq))]

theorem avoids_inline {d : Char} {items : List (Json F)} {ps : List (Prim F)} (h : ArePrims items ps)
    (hp : AllPrimsItems (Prim.Avoids d) items) : (ps.map (Prim.exposed d)).sum = 0 := by
  refine avoids_exposeds fun p hm => ?_
  exact allPrimsItems_mem hp (.prim p) (by rw [h]; exact List.mem_map_of_mem hm)

mutual

theorem value_avoids {d : Char} {fold : Bool} {n : Nat} {taken path : List Str} {fd : Nat} (v : Json F) {l : Layout F}
    (h : ValueLayout fold n taken path fd v l) (hp : AllPrims (Prim.Avoids d) v) : l.exposed d = 0 := by
  match v with
  | .prim p => cases h; exact avoids_exposed hp
  | .arr items =>
    cases h with
    | inline h1 => exact avoids_inline h1 hp
    | table h1 h2 => exact avoids_rows fun row hm => (table_rows_plain hp h2 row hm).2
    | list h1 h2 h3 => exact items_avoids items h3 hp
  | .obj es =>
    cases h with
    | object h1 => exact entries_avoids es h1 hp
termination_by sizeOf v

theorem entries_avoids {d : Char} {fold : Bool} {n : Nat} {siblings taken path : List Str} {fd : Nat} (es : List (Str × Json F))
    {ls : List (Str × Layout F)} (h : EntriesLayout fold n siblings taken path fd es ls)
    (hp : AllPrimsEntries (Prim.Avoids d) es) : Layout.exposedEntries d ls = 0 := by
  match es with
  | [] => cases h; rfl
  | (k, v) :: es =>
    cases h with
    | @folded _ _ _ _ _ _ ks leaf l _ ls h1 h2 h3 h4 =>
      have hlt : sizeOf leaf < sizeOf v := by
        have := nested_size ks leaf h2.2.1
        rw [← h2.1.1] at this; exact this
      have hv := h2.1.1
      rw [Layout.exposedEntries, value_avoids leaf h3 (nested_prims ks (by rw [← hv]; exact hp.1)), entries_avoids es h4 hp.2]
    | plain h1 h2 h3 =>
      rw [Layout.exposedEntries, value_avoids v h2 hp.1, entries_avoids es h3 hp.2]
termination_by sizeOf es

theorem item_avoids {d : Char} {fold : Bool} {n : Nat} (v : Json F) {l : Layout F} (h : ItemLayout fold n v l)
    (hp : AllPrims (Prim.Avoids d) v) : l.exposed d = 0 := by
  match v with
  | .prim p => cases h; exact avoids_exposed hp
  | .arr items =>
    cases h with
    | inline h1 => exact avoids_inline h1 hp
    | list h1 h2 => exact items_avoids items h2 hp
  | .obj [] => cases h; rfl
  | .obj ((k, v) :: es) =>
    cases h with
    | object h1 h2 =>
      rw [Layout.exposed, Layout.exposedEntries, value_avoids v h1 hp.1, entries_avoids es h2 hp.2]
termination_by sizeOf v

theorem items_avoids {d : Char} {fold : Bool} {n : Nat} (vs : List (Json F)) {ls : List (Layout F)} (h : ItemsLayout fold n vs ls)
    (hp : AllPrimsItems (Prim.Avoids d) vs) : Layout.exposedItems d ls = 0 := by
  match vs with
  | [] => cases h; rfl
  | v :: vs =>
    cases h with
    | cons h1 h2 => rw [Layout.exposedItems, item_avoids v h1 hp.1, items_avoids vs h2 hp.2]
termination_by sizeOf vs

end

mutual
theorem allPrims_mapPrims {P Q : Prim F → Prop} {f : Prim F → Prim F} (hf : ∀ p, P p → Q (f p)) (v : Json F) (h : AllPrims P v) :
    AllPrims Q (v.mapPrims f) := by
  match v with
  | .prim p => exact hf p h
  | .arr items => exact allPrimsItems_mapPrims hf items h
  | .obj es => exact allPrimsEntries_mapPrims hf es h
theorem allPrimsItems_mapPrims {P Q : Prim F → Prop} {f : Prim F → Prim F} (hf : ∀ p, P p → Q (f p)) (vs : List (Json F))
    (h : AllPrimsItems P vs) : AllPrimsItems Q (Json.mapPrimsItems f vs) := by
  match vs with
  | [] => exact h
  | v :: vs => exact ⟨allPrims_mapPrims hf v h.1, allPrimsItems_mapPrims hf vs h.2⟩
theorem allPrimsEntries_mapPrims {P Q : Prim F → Prop} {f : Prim F → Prim F} (hf : ∀ p, P p → Q (f p)) (es : List (Str × Json F))
    (h : AllPrimsEntries P es) : AllPrimsEntries Q (Json.mapPrimsEntries f es) := by
  match es with
  | [] => exact h
  | (k, v) :: es => exact ⟨allPrims_mapPrims hf v h.1, allPrimsEntries_mapPrims hf es h.2⟩
end

/-- The tab costs no quotes. -/
theorem Prim.exposed_tab (p : Prim F) : p.exposed '\t' = 0 := by
  match p with
  | .null => rfl
  | .bool _ => rfl
  | .num _ => rfl
  | .str s => exact if_neg (fun g => ((plainText_tab s '\t').mp g.1).2 g.2)

theorem exposeds_tab (ps : List (Prim F)) : (ps.map (Prim.exposed '\t')).sum = 0 := by
  induction ps with
  | nil => rfl
  | cons p ps ih => rw [List.map_cons, List.sum_cons, p.exposed_tab, ih]

mutual
theorem Layout.exposed_tab : ∀ l : Layout F, l.exposed '\t' = 0
  | .prim p => p.exposed_tab
  | .inline ps => exposeds_tab ps
  | .table _ rows => by
    rw [Layout.exposed]
    induction rows with
    | nil => rfl
    | cons r rs ih => rw [List.map_cons, List.sum_cons, exposeds_tab, ih]
  | .list items => Layout.exposedItems_tab items
  | .object es => Layout.exposedEntries_tab es
theorem Layout.exposedItems_tab : ∀ ls : List (Layout F), Layout.exposedItems '\t' ls = 0
  | [] => rfl
  | l :: ls => by rw [Layout.exposedItems, l.exposed_tab, Layout.exposedItems_tab ls]
theorem Layout.exposedEntries_tab : ∀ es : List (Str × Layout F), Layout.exposedEntries '\t' es = 0
  | [] => rfl
  | (_, l) :: es => by rw [Layout.exposedEntries, l.exposed_tab, Layout.exposedEntries_tab es]
end

end Toon
