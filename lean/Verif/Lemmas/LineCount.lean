import Verif.Spec.LineCount
import Verif.Model.LineEstimate
import Verif.Lemmas.Layout

/-! How many lines a layout has, and how many are reserved for it: lemmas for C98. -/

namespace Toon

section
variable {F : Type} [F64 F]

mutual
theorem entryRows_length (d : Char) (head : Str) (depth inner : Nat) : ∀ l : Layout F, (l.entryRows d head depth inner).length = l.lines
  | .prim _ => rfl
  | .inline _ => rfl
  | .table _ rows => by simp [Layout.entryRows, Layout.lines]; omega
  | .list items => by simp [Layout.entryRows, Layout.lines, itemsRows_length d inner items]; omega
  | .object es => by simp [Layout.entryRows, Layout.lines, entriesRows_length d inner es]; omega
theorem entriesRows_length (d : Char) (depth : Nat) : ∀ es : List (Str × Layout F),
    (Layout.entriesRows d depth es).length = Layout.entriesLines es
  | [] => rfl
  | (k, l) :: es => by
    simp [Layout.entriesRows, Layout.entriesLines, entryRows_length d (keyTextOf k) depth (depth + 1) l, entriesRows_length d depth es]
theorem itemRows_length (d : Char) (depth : Nat) : ∀ l : Layout F, (l.itemRows d depth).length = l.itemLines
  | .prim _ => by rw [Layout.itemRows, Layout.itemLines]; rfl
  | .inline _ => by rw [Layout.itemRows, Layout.itemLines]; rfl
  | .table _ rows => by simp [Layout.itemRows, Layout.itemLines]; omega
  | .list items => by simp [Layout.itemRows, Layout.itemLines, itemsRows_length d (depth + 1) items]; omega
  | .object [] => by simp [Layout.itemRows, Layout.itemLines]
  | .object ((k, l) :: es) => by
    simp [Layout.itemRows, Layout.itemLines, Layout.entriesLines, entryRows_length d ('-' :: ' ' :: keyTextOf k) depth (depth + 2) l,
      entriesRows_length d (depth + 1) es]
theorem itemsRows_length (d : Char) (depth : Nat) : ∀ ls : List (Layout F), (Layout.itemsRows d depth ls).length = Layout.itemsLines ls
  | [] => rfl
  | l :: ls => by simp [Layout.itemsRows, Layout.itemsLines, itemRows_length d depth l, itemsRows_length d depth ls]
end

theorem documentRows_length (d : Char) (l : Layout F) : (l.documentRows d).length = l.documentLines := by
  cases l with
  | prim p => rfl
  | object es => exact entriesRows_length d 0 es
  | inline ps => exact entryRows_length d [] 0 1 _
  | table cols rows => exact entryRows_length d [] 0 1 _
  | list items => exact entryRows_length d [] 0 1 _

omit [F64 F]

theorem lines_pos (l : Layout F) : 1 ≤ l.lines := by cases l <;> simp [Layout.lines]

theorem entriesLines_ge : ∀ es : List (Str × Layout F), es.length ≤ Layout.entriesLines es
  | [] => by simp
  | (_, l) :: es => by
    have := lines_pos l
    have := entriesLines_ge es
    simp only [List.length_cons, Layout.entriesLines]; omega

/-! ## The estimate -/

mutual
theorem estimateLine_pos : ∀ v : Json F, 1 ≤ estimateLineCount v
  | .prim _ => by simp [estimateLineCount]
  | .arr _ => by simp [estimateLineCount]
  | .obj _ => by simp only [estimateLineCount]; omega
theorem estimateLineItems_ge : ∀ vs : List (Json F), vs.length ≤ estimateLineItems vs
  | [] => by simp
  | v :: vs => by
    have := estimateLine_pos v
    have := estimateLineItems_ge vs
    simp only [List.length_cons, estimateLineItems]; omega
end

mutual
theorem estimateLine_nodes : ∀ v : Json F, estimateLineCount v ≤ nodes v
  | .prim _ => by simp [estimateLineCount, nodes]
  | .arr vs => by
    have := estimateLineItems_nodes vs
    simp only [estimateLineCount, nodes]; omega
  | .obj es => by
    have := estimateLineEntries_nodes es
    simp only [estimateLineCount, nodes]; omega
theorem estimateLineItems_nodes : ∀ vs : List (Json F), estimateLineItems vs ≤ nodesItems vs
  | [] => by simp [estimateLineItems]
  | v :: vs => by
    have := estimateLine_nodes v
    have := estimateLineItems_nodes vs
    simp only [estimateLineItems, nodesItems]; omega
theorem estimateLineEntries_nodes : ∀ es : List (Str × Json F), estimateLineEntries es ≤ nodesEntries es
  | [] => by simp [estimateLineEntries]
  | (_, v) :: es => by
    have := estimateLine_nodes v
    have := estimateLineEntries_nodes es
    simp only [estimateLineEntries, nodesEntries]; omega
end

theorem tableCells_length {cols : List Str} {items : List (Json F)} {rows : List (List (Prim F))} (h : TableCells cols items rows) :
    rows.length = items.length := by
  unfold TableCells at h
  induction h with
  | nil => rfl
  | cons _ _ ih => simp [ih]

/-- One, for an object. -/
abbrev keyedOne (v : Json F) : Nat := if v.isObject then 1 else 0

theorem nested_estimate : ∀ (ks : List Str) (leaf : Json F), estimateLineCount (nested ks leaf) = estimateLineCount leaf
  | [], _ => rfl
  | s :: ss, leaf => by
    have := estimateLine_pos leaf
    simp only [nested, estimateLineCount, estimateLineEntries, nested_estimate ss leaf]; omega

theorem nested_keyed : ∀ (ks : List Str) (leaf : Json F), keyedOne leaf + keyedObjects leaf ≤ keyedOne (nested ks leaf) + keyedObjects (nested ks leaf)
  | [], _ => Nat.le_refl _
  | s :: ss, leaf => by
    have := nested_keyed ss leaf
    simp only [nested, keyedObjects, keyedObjectsEntries, keyedOne] at this ⊢; omega

mutual
theorem value_linesLe {fold : Bool} {n : Nat} : ∀ {taken path : List Str} {fd : Nat} {v : Json F} {l : Layout F},
    ValueLayout fold n taken path fd v l → l.lines ≤ estimateLineCount v + (keyedOne v + keyedObjects v)
  | _, _, _, _, _, .prim p => by simp [Layout.lines, estimateLineCount]
  | _, _, _, _, _, .inline _ => by simp only [Layout.lines, estimateLineCount]; omega
  | _, _, _, _, _, .table (items := items) _ hc => by
    have := tableCells_length hc
    have := estimateLineItems_ge items
    simp only [Layout.lines, estimateLineCount]; omega
  | _, _, _, _, _, .list _ _ hi => by
    have := items_linesLe hi
    simp only [Layout.lines, estimateLineCount, keyedObjects]; omega
  | _, _, _, _, _, .object he => by
    have := entries_linesLe he
    simp only [Layout.lines, estimateLineCount, keyedObjects, keyedOne, Json.isObject, if_true]; omega
theorem entries_linesLe {fold : Bool} {n : Nat} : ∀ {siblings taken path : List Str} {fd : Nat}
    {es : List (Str × Json F)} {ls : List (Str × Layout F)}, EntriesLayout fold n siblings taken path fd es ls →
    Layout.entriesLines ls ≤ estimateLineEntries es + keyedObjectsEntries es
  | _, _, _, _, _, _, .nil => by simp [Layout.entriesLines]
  | _, _, _, _, _, _, .folded (ks := ks) (leaf := leaf) _ hf hl he => by
    have h1 := value_linesLe hl
    have h2 := entries_linesLe he
    have h3 := nested_estimate ks leaf
    have h4 := nested_keyed ks leaf
    rw [hf.1.1]
    simp only [Layout.entriesLines, estimateLineEntries, keyedObjectsEntries, keyedOne] at *; omega
  | _, _, _, _, _, _, .plain _ hl he => by
    have h1 := value_linesLe hl
    have h2 := entries_linesLe he
    simp only [Layout.entriesLines, estimateLineEntries, keyedObjectsEntries, keyedOne] at *; omega
theorem item_linesLe {fold : Bool} {n : Nat} : ∀ {v : Json F} {l : Layout F}, ItemLayout fold n v l →
    l.itemLines ≤ estimateLineCount v + keyedObjects v
  | _, _, .prim p => by simp [Layout.itemLines, estimateLineCount]
  | _, _, .inline _ => by simp only [Layout.itemLines, estimateLineCount]; omega
  | _, _, .list _ hi => by
    have := items_linesLe hi
    simp only [Layout.itemLines, estimateLineCount, keyedObjects]; omega
  | _, _, .empty => by simp only [Layout.itemLines, estimateLineCount, List.isEmpty_nil, if_true]; omega
  | _, _, .object hl he => by
    have h1 := value_linesLe hl
    have h2 := entries_linesLe he
    simp only [Layout.itemLines, Layout.entriesLines, List.isEmpty_cons, Bool.false_eq_true, if_false, estimateLineCount,
      estimateLineEntries, keyedObjects, keyedObjectsEntries, keyedOne] at *
    omega
theorem items_linesLe {fold : Bool} {n : Nat} : ∀ {vs : List (Json F)} {ls : List (Layout F)}, ItemsLayout fold n vs ls →
    Layout.itemsLines ls ≤ estimateLineItems vs + keyedObjectsItems vs
  | _, _, .nil => by simp [Layout.itemsLines]
  | _, _, .cons hl hr => by
    have h1 := item_linesLe hl
    have h2 := items_linesLe hr
    simp only [Layout.itemsLines, estimateLineItems, keyedObjectsItems]; omega
end

theorem document_linesLe {fold : Bool} {n : Nat} {v : Json F} {l : Layout F} (h : DocumentLayout fold n v l) :
    l.documentLines ≤ estimateLineCount v + keyedObjects v := by
  have hv := value_linesLe h
  cases h with
  | object he =>
    have := entries_linesLe he
    simp only [Layout.documentLines, estimateLineCount, keyedObjects]; omega
  | prim p => simpa [keyedOne, Json.isObject, Layout.documentLines] using hv
  | inline _ => simpa [keyedOne, Json.isObject, Layout.documentLines] using hv
  | table _ _ => simpa [keyedOne, Json.isObject, Layout.documentLines] using hv
  | list _ _ _ => simpa [keyedOne, Json.isObject, Layout.documentLines] using hv

/-! ## Folding -/

/-- The lines of a chain of objects that is not folded. -/
theorem nested_lines {n : Nat} : ∀ (ks : List Str) {leaf : Json F} {taken path : List Str} {fd : Nat} {l : Layout F},
    ValueLayout false n taken path fd (nested ks leaf) l →
    ∃ taken' path' fd' l', ValueLayout false n taken' path' fd' leaf l' ∧ l.lines = ks.length + l'.lines
  | [], _, _, _, _, _, h => ⟨_, _, _, _, h, by simp⟩
  | s :: ss, leaf, _, _, _, _, h => by
    rw [nested] at h
    cases h with
    | object he =>
      cases he with
      | folded hf => simp at hf
      | plain _ hl he =>
        cases he
        obtain ⟨a, b, c, l', h1, h2⟩ := nested_lines ss hl
        exact ⟨a, b, c, l', h1, by simp only [Layout.lines, Layout.entriesLines, List.length_cons]; omega⟩

mutual
theorem value_foldLines {fold : Bool} {n m : Nat} : ∀ {taken path : List Str} {fd : Nat} {v : Json F} {l : Layout F},
    ValueLayout fold n taken path fd v l → ∀ {taken' path' : List Str} {fd' : Nat} {l' : Layout F},
    ValueLayout false m taken' path' fd' v l' → l.lines ≤ l'.lines
  | _, _, _, _, _, .prim p, _, _, _, _, h => by cases h; exact Nat.le_refl _
  | _, _, _, _, _, .inline h1, _, _, _, l', h => lines_pos l'
  | _, _, _, _, _, .table (items := items) h1 h2, _, _, _, _, h => by
    cases h with
    | inline g1 => exact absurd ⟨_, g1⟩ (table_not_prims h1)
    | table _ g2 => simp [Layout.lines, tableCells_length h2, tableCells_length g2]
    | list _ g1 _ => exact absurd ⟨_, h1⟩ g1
  | _, _, _, _, _, .list h1 h2 hi, _, _, _, _, h => by
    cases h with
    | inline g1 => exact absurd ⟨_, g1⟩ h1
    | table g1 _ => exact absurd ⟨_, g1⟩ h2
    | list _ _ gi => have := items_foldLines hi gi; simp only [Layout.lines]; omega
  | _, _, _, _, _, .object he, _, _, _, _, h => by
    cases h with
    | object ge => have := entries_foldLines he ge; simp only [Layout.lines]; omega
theorem entries_foldLines {fold : Bool} {n m : Nat} : ∀ {siblings taken path : List Str} {fd : Nat}
    {es : List (Str × Json F)} {ls : List (Str × Layout F)}, EntriesLayout fold n siblings taken path fd es ls →
    ∀ {siblings' taken' path' : List Str} {fd' : Nat} {ls' : List (Str × Layout F)},
    EntriesLayout false m siblings' taken' path' fd' es ls' → Layout.entriesLines ls ≤ Layout.entriesLines ls'
  | _, _, _, _, _, _, .nil, _, _, _, _, _, _ => by simp [Layout.entriesLines]
  | _, _, _, _, _, _, .folded (ks := ks) (leaf := leaf) _ hf hl he, _, _, _, _, _, h => by
    cases h with
    | folded hf => simp at hf
    | plain _ gl ge =>
      rw [hf.1.1] at gl
      obtain ⟨_, _, _, l', h1, h2⟩ := nested_lines ks gl
      have h3 := value_foldLines hl h1
      have h4 := entries_foldLines he ge
      simp only [Layout.entriesLines]; omega
  | _, _, _, _, _, _, .plain _ hl he, _, _, _, _, _, h => by
    cases h with
    | folded hf => simp at hf
    | plain _ gl ge =>
      have h3 := value_foldLines hl gl
      have h4 := entries_foldLines he ge
      simp only [Layout.entriesLines]; omega
theorem item_foldLines {fold : Bool} {n m : Nat} : ∀ {v : Json F} {l l' : Layout F}, ItemLayout fold n v l → ItemLayout false m v l' →
    l.itemLines ≤ l'.itemLines
  | _, _, _, .prim p, h => by cases h; exact Nat.le_refl _
  | _, _, _, .inline h1, h => by
    cases h with
    | inline _ => simp [Layout.itemLines]
    | list g1 _ => exact absurd ⟨_, h1⟩ g1
  | _, _, _, .list h1 hi, h => by
    cases h with
    | inline g1 => exact absurd ⟨_, g1⟩ h1
    | list _ gi => have := items_foldLines hi gi; simp only [Layout.itemLines]; omega
  | _, _, _, .empty, h => by cases h; exact Nat.le_refl _
  | _, _, _, .object hl he, h => by
    cases h with
    | object gl ge =>
      have h3 := value_foldLines hl gl
      have h4 := entries_foldLines he ge
      simp only [Layout.itemLines, Layout.entriesLines, List.isEmpty_cons, Bool.false_eq_true, if_false]; omega
theorem items_foldLines {fold : Bool} {n m : Nat} : ∀ {vs : List (Json F)} {ls ls' : List (Layout F)}, ItemsLayout fold n vs ls →
    ItemsLayout false m vs ls' → Layout.itemsLines ls ≤ Layout.itemsLines ls'
  | _, _, _, .nil, h => by cases h; exact Nat.le_refl _
  | _, _, _, .cons hl hr, h => by
    cases h with
    | cons gl gr =>
      have h3 := item_foldLines hl gl
      have h4 := items_foldLines hr gr
      simp only [Layout.itemsLines]; omega
end

theorem document_foldLines {fold : Bool} {n m : Nat} {v : Json F} {l l' : Layout F} (h : DocumentLayout fold n v l)
    (h' : DocumentLayout false m v l') : l.documentLines ≤ l'.documentLines := by
  have hv := value_foldLines h h'
  cases h with
  | object he =>
    cases h' with
    | object ge => exact entries_foldLines he ge
  | prim p => cases h'; exact Nat.le_refl _
  | inline h1 => cases h' <;> simpa [Layout.documentLines] using hv
  | table h1 h2 => cases h' <;> simpa [Layout.documentLines] using hv
  | list h1 h2 h3 => cases h' <;> simpa [Layout.documentLines] using hv

end

end Toon
