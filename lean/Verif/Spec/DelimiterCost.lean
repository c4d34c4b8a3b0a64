import Verif.Spec.Cells
import Verif.Spec.Layout
import Verif.Spec.Size

/-!
# Strings that need quotes because of the delimiter

Specification for C110.
-/

namespace Toon

variable {F : Type}

open Classical in
/-- One if the primitive is a string that would be written bare, were it not for the delimiter it contains.  (A tab is never part of a
bare string: with the tab as the delimiter the condition of being plain text is the weakest.) -/
noncomputable def Prim.exposed (d : Char) : Prim F → Nat
  | .str s => if PlainText s '\t' ∧ d ∈ s then 1 else 0
  | _ => 0

mutual
/-- The number of such strings in a layout. -/
noncomputable def Layout.exposed (d : Char) : Layout F → Nat
  | .prim p => p.exposed d
  | .inline ps => (ps.map (Prim.exposed d)).sum
  | .table _ rows => (rows.map fun row => (row.map (Prim.exposed d)).sum).sum
  | .list items => Layout.exposedItems d items
  | .object es => Layout.exposedEntries d es
noncomputable def Layout.exposedItems (d : Char) : List (Layout F) → Nat
  | [] => 0
  | l :: ls => l.exposed d + Layout.exposedItems d ls
noncomputable def Layout.exposedEntries (d : Char) : List (Str × Layout F) → Nat
  | [] => 0
  | (_, l) :: es => l.exposed d + Layout.exposedEntries d es
end

/-- What the delimiter `d` costs: two quotes for each such string, and one character in each length mark unless it is the comma. -/
noncomputable def Layout.delimiterCost (d : Char) (l : Layout F) : Nat :=
  2 * l.exposed d + if d = ',' then 0 else l.arrays

/-- The primitive is not a string with the character in it. -/
def Prim.Avoids (d : Char) : Prim F → Prop
  | .str s => d ∉ s
  | _ => True

end Toon
