import Verif.Spec.Layout

/-!
# What the length of the written text depends on

Specification for C62.
-/

namespace Toon

variable {F : Type}

mutual
/-- The number of elements of arrays written as lists, one behind each hyphen. -/
def Layout.listElements : Layout F → Nat
  | .prim _ => 0
  | .inline _ => 0
  | .table _ _ => 0
  | .list items => items.length + Layout.listElementsItems items
  | .object es => Layout.listElementsEntries es
def Layout.listElementsItems : List (Layout F) → Nat
  | [] => 0
  | l :: ls => l.listElements + Layout.listElementsItems ls
def Layout.listElementsEntries : List (Str × Layout F) → Nat
  | [] => 0
  | (_, l) :: es => l.listElements + Layout.listElementsEntries es
end

mutual
/-- The number of arrays, that is, of length marks. -/
def Layout.arrays : Layout F → Nat
  | .prim _ => 0
  | .inline _ => 1
  | .table _ _ => 1
  | .list items => 1 + Layout.arraysItems items
  | .object es => Layout.arraysEntries es
def Layout.arraysItems : List (Layout F) → Nat
  | [] => 0
  | l :: ls => l.arrays + Layout.arraysItems ls
def Layout.arraysEntries : List (Str × Layout F) → Nat
  | [] => 0
  | (_, l) :: es => l.arrays + Layout.arraysEntries es
end

mutual
/-- Every array under a key consists of primitives or is a table. -/
def Regular : Json F → Prop
  | .prim _ => True
  | .arr items => (∃ ps, ArePrims items ps) ∨ (∃ cols, IsTable items cols)
  | .obj es => RegularEntries es
def RegularEntries : List (Str × Json F) → Prop
  | [] => True
  | (_, v) :: es => Regular v ∧ RegularEntries es
end

/-- The sum of the lengths. -/
def totalLength (ws : List Str) : Nat := (ws.map List.length).sum

/-- An empty array inside `n` arrays. -/
def nestedArrays : Nat → Json F
  | 0 => .arr []
  | n + 1 => .arr [nestedArrays n]

end Toon
