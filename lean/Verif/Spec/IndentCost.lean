import Verif.Spec.Layout

/-!
# The levels of the lines, added up

Specification for C111.
-/

namespace Toon

variable {F : Type}

mutual
/-- The sum of the levels of the lines of an entry, whose first line is at level `depth` and whose other lines start at level `inner`. -/
def Layout.levelSum (depth inner : Nat) : Layout F → Nat
  | .prim _ => depth
  | .inline _ => depth
  | .table _ rows => depth + rows.length * inner
  | .list items => depth + Layout.levelSumItems inner items
  | .object es => depth + Layout.levelSumEntries inner es
def Layout.levelSumEntries (depth : Nat) : List (Str × Layout F) → Nat
  | [] => 0
  | (_, l) :: es => l.levelSum depth (depth + 1) + Layout.levelSumEntries depth es
/-- The same for an element of a list: the first entry of an object stands beside the hyphen. -/
def Layout.levelSumItem (depth : Nat) : Layout F → Nat
  | .prim _ => depth
  | .inline _ => depth
  | .table _ rows => depth + rows.length * (depth + 1)
  | .list items => depth + Layout.levelSumItems (depth + 1) items
  | .object [] => depth
  | .object ((_, l) :: es) => l.levelSum depth (depth + 2) + Layout.levelSumEntries (depth + 1) es
def Layout.levelSumItems (depth : Nat) : List (Layout F) → Nat
  | [] => 0
  | l :: ls => l.levelSumItem depth + Layout.levelSumItems depth ls
end

/-- The sum of the levels of the lines of a document. -/
def Layout.levelTotal : Layout F → Nat
  | .object es => Layout.levelSumEntries 0 es
  | l => l.levelSum 0 1

end Toon
