import Verif.Spec.Resources

/-!
# How wide a value is, and two families of tables

Specification for C87.
-/

namespace Toon

variable {F : Type}

mutual
/-- The greatest number of entries of an object in a value. -/
def width : Json F → Nat
  | .prim _ => 0
  | .arr items => widthItems items
  | .obj es => max es.length (widthEntries es)
def widthItems : List (Json F) → Nat
  | [] => 0
  | v :: vs => max (width v) (widthItems vs)
def widthEntries : List (Str × Json F) → Nat
  | [] => 0
  | (_, v) :: es => max (width v) (widthEntries es)
end

/-- A row of a table with these columns: an object whose keys are the columns, in any order, and whose values are primitives. -/
def IsRow (columns : List Str) (row : Json F) : Prop :=
  ∃ es : List (Str × Json F), row = .obj es ∧ (es.map Prod.fst).Perm columns ∧ ∀ e ∈ es, ∃ p, e.2 = .prim p

/-- Rows with repeated keys: the first row has the key `k` throughout, the others have it only at their end. -/
def lateRows (w rows : Nat) : Json F :=
  .arr (.obj (List.replicate w (['k'], .prim .null)) ::
    List.replicate rows (.obj (List.replicate (w - 1) (['x'], .prim .null) ++ [(['k'], .prim .null)])))

end Toon
