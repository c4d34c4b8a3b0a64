import Verif.Spec.Draft

/-!
# Arrays inside arrays

For C109.
-/

namespace Toon

section
variable {F : Type}

mutual
/-- No element of an array is itself an array that could be written as a table. -/
def NoInnerTables : Json F → Prop
  | .prim _ => True
  | .arr items => NoInnerTablesItems items
  | .obj es => NoInnerTablesEntries es
def NoInnerTablesItems : List (Json F) → Prop
  | [] => True
  | v :: vs => (∀ xs, v = .arr xs → ¬ ∃ cols, IsTable xs cols) ∧ NoInnerTables v ∧ NoInnerTablesItems vs
def NoInnerTablesEntries : List (Str × Json F) → Prop
  | [] => True
  | (_, v) :: es => NoInnerTables v ∧ NoInnerTablesEntries es
end

end

end Toon
