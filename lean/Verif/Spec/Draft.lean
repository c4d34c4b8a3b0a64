import Verif.Spec.Layout
import Verif.Spec.Values

/-!
# Texts whose declared lengths may be wrong

A draft is a layout (`Spec/Layout.lean`) in which every array also has a declared length, which need not be
the number of its elements: a text from which elements have been lost or to which some have been added, or
one that somebody wrote by hand.
-/

namespace Toon

section
variable {F : Type} [F64 F]

/-- A layout with declared lengths. -/
inductive Draft (F : Type) where
  | prim (p : Prim F)
  | inline (n : Nat) (ps : List (Prim F))
  | table (n : Nat) (cols : List Str) (rows : List (List (Prim F)))
  | list (n : Nat) (items : List (Draft F))
  | object (entries : List (Str × Draft F))

/-- An array on one line, with the declared length. -/
noncomputable def declaredInline (d : Char) (n : Nat) (ps : List (Prim F)) : Str :=
  lengthMark d n ++ ':' :: (if ps.isEmpty then [] else ' ' :: cellsText d ps)

mutual
/-- The lines of a value under a key, as for layouts. -/
noncomputable def Draft.entryRows (d : Char) (head : Str) (depth inner : Nat) : Draft F → List Row
  | .prim p => [(depth, head ++ ':' :: ' ' :: tokenText d p)]
  | .inline n ps => [(depth, head ++ declaredInline d n ps)]
  | .table n cols rows => (depth, head ++ tableText d cols n) :: rows.map fun row => (inner, cellsText d row)
  | .list n items => (depth, head ++ lengthMark d n ++ [':']) :: Draft.itemsRows d inner items
  | .object es => (depth, head ++ [':']) :: Draft.entriesRows d inner es
noncomputable def Draft.entriesRows (d : Char) (depth : Nat) : List (Str × Draft F) → List Row
  | [] => []
  | (k, v) :: es => v.entryRows d (keyTextOf k) depth (depth + 1) ++ Draft.entriesRows d depth es
noncomputable def Draft.itemRows (d : Char) (depth : Nat) : Draft F → List Row
  | .prim p => [(depth, '-' :: ' ' :: tokenText d p)]
  | .inline n ps => [(depth, '-' :: ' ' :: declaredInline d n ps)]
  | .table n cols rows => (depth, '-' :: ' ' :: tableText d cols n) :: rows.map fun row => (depth + 1, cellsText d row)
  | .list n items => (depth, '-' :: ' ' :: (lengthMark d n ++ [':'])) :: Draft.itemsRows d (depth + 1) items
  | .object [] => [(depth, ['-'])]
  | .object ((k, v) :: es) =>
    v.entryRows d ('-' :: ' ' :: keyTextOf k) depth (depth + 2) ++ Draft.entriesRows d (depth + 1) es
noncomputable def Draft.itemsRows (d : Char) (depth : Nat) : List (Draft F) → List Row
  | [] => []
  | v :: vs => v.itemRows d depth ++ Draft.itemsRows d depth vs
end

/-- The lines of a whole document. -/
noncomputable def Draft.documentRows (d : Char) : Draft F → List Row
  | .prim p => [(0, tokenText d p)]
  | .object es => Draft.entriesRows d 0 es
  | v => v.entryRows d [] 0 1

/-- The text of a document: its lines, indented, separated by newlines. -/
noncomputable def Draft.written (indent : Nat) (d : Char) (v : Draft F) : Str :=
  separated '\n' ((v.documentRows d).map (rowText indent))

mutual
/-- What is declared is true: every array has as many elements as it declares, and every row of a table has
one cell for each column. -/
def Draft.Honest : Draft F → Prop
  | .prim _ => True
  | .inline n ps => ps.length = n
  | .table n cols rows => rows.length = n ∧ ∀ row ∈ rows, row.length = cols.length
  | .list n items => items.length = n ∧ Draft.HonestItems items
  | .object es => Draft.HonestEntries es
def Draft.HonestItems : List (Draft F) → Prop
  | [] => True
  | v :: vs => v.Honest ∧ Draft.HonestItems vs
def Draft.HonestEntries : List (Str × Draft F) → Prop
  | [] => True
  | (_, v) :: es => v.Honest ∧ Draft.HonestEntries es
end

/-- A row as an object. -/
def rowObject (cols : List Str) (row : List (Prim F)) : Json F := .obj ((cols.zip row).map fun c => (c.1, .prim c.2))

mutual
/-- The value. -/
def Draft.value : Draft F → Json F
  | .prim p => .prim p
  | .inline _ ps => .arr (ps.map .prim)
  | .table _ cols rows => .arr (rows.map (rowObject cols))
  | .list _ items => .arr (Draft.values items)
  | .object es => .obj (Draft.valueEntries es)
def Draft.values : List (Draft F) → List (Json F)
  | [] => []
  | v :: vs => v.value :: Draft.values vs
def Draft.valueEntries : List (Str × Draft F) → List (Str × Json F)
  | [] => []
  | (k, v) :: es => (k, v.value) :: Draft.valueEntries es
end

mutual
/-- As `Legible` below, without the condition on the first element beyond the declared length. -/
def Draft.Readable : Draft F → Prop
  | .prim p => PlainPrim p
  | .inline n ps => n ≤ 100000000 ∧ ∀ p ∈ ps, PlainPrim p
  | .table n cols rows => n ≤ 100000000 ∧ cols ≠ [] ∧ (∀ c ∈ cols, '}' ∉ c) ∧
      ∀ row ∈ rows, row ≠ [] ∧ ∀ p ∈ row, PlainPrim p
  | .list n items => n ≤ 100000000 ∧ Draft.ReadableItems items
  | .object es => Draft.ReadableEntries es
def Draft.ReadableItems : List (Draft F) → Prop
  | [] => True
  | v :: vs => v.Readable ∧ Draft.ReadableItems vs
def Draft.ReadableEntries : List (Str × Draft F) → Prop
  | [] => True
  | (k, v) :: es => (∀ s, v = .prim (.str s) → bareKey k = true → headerLike s = false) ∧ v.Readable ∧ Draft.ReadableEntries es
end

mutual
/-- Nothing stands in the way of reading the text, apart from wrong lengths: no declared length exceeds the
limit, column names have no closing brace, rows are not empty, a string that looks like the rest of an array
header has a quoted key, numbers are as JSON has them; and the first element beyond the declared length of a
list is not an empty object. -/
def Draft.Legible : Draft F → Prop
  | .prim p => PlainPrim p
  | .inline n ps => n ≤ 100000000 ∧ ∀ p ∈ ps, PlainPrim p
  | .table n cols rows => n ≤ 100000000 ∧ cols ≠ [] ∧ (∀ c ∈ cols, '}' ∉ c) ∧
      ∀ row ∈ rows, row ≠ [] ∧ ∀ p ∈ row, PlainPrim p
  | .list n items => n ≤ 100000000 ∧ items[n]? ≠ some (.object []) ∧ Draft.LegibleItems items
  | .object es => Draft.LegibleEntries es
def Draft.LegibleItems : List (Draft F) → Prop
  | [] => True
  | v :: vs => v.Legible ∧ Draft.LegibleItems vs
def Draft.LegibleEntries : List (Str × Draft F) → Prop
  | [] => True
  | (k, v) :: es => (∀ s, v = .prim (.str s) → bareKey k = true → headerLike s = false) ∧ v.Legible ∧ Draft.LegibleEntries es
end

mutual
/-- The draft of a layout: everything declared is true. -/
def Layout.draft : Layout F → Draft F
  | .prim p => .prim p
  | .inline ps => .inline ps.length ps
  | .table cols rows => .table rows.length cols rows
  | .list items => .list items.length (Layout.drafts items)
  | .object es => .object (Layout.draftEntries es)
def Layout.drafts : List (Layout F) → List (Draft F)
  | [] => []
  | v :: vs => v.draft :: Layout.drafts vs
def Layout.draftEntries : List (Str × Layout F) → List (Str × Draft F)
  | [] => []
  | (k, v) :: es => (k, v.draft) :: Layout.draftEntries es
end

/-- Some elements of one array are missing in the second draft; nothing else differs. -/
inductive Draft.Loses : Draft F → Draft F → Prop
  | inline {n : Nat} {ps qs : List (Prim F)} : qs.Sublist ps → qs ≠ ps → Loses (.inline n ps) (.inline n qs)
  | table {n : Nat} {cols : List Str} {rows rows' : List (List (Prim F))} : rows'.Sublist rows → rows' ≠ rows →
      Loses (.table n cols rows) (.table n cols rows')
  | list {n : Nat} {items items' : List (Draft F)} : items'.Sublist items → items' ≠ items →
      Loses (.list n items) (.list n items')
  | item {n : Nat} {pre post : List (Draft F)} {v w : Draft F} : Loses v w →
      Loses (.list n (pre ++ v :: post)) (.list n (pre ++ w :: post))
  | entry {pre post : List (Str × Draft F)} {k : Str} {v w : Draft F} : Loses v w →
      Loses (.object (pre ++ (k, v) :: post)) (.object (pre ++ (k, w) :: post))

end

end Toon
