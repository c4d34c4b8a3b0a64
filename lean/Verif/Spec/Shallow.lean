import Verif.Spec.Layout

/-!
# Values without indented lines, and values without indented arrays
-/

namespace Toon

variable {F : Type}

/-- A value that, under a key, takes a single line: a primitive, an array of primitives or the empty object. -/
def OneLine (v : Json F) : Prop := (∃ p, v = .prim p) ∨ (∃ ps : List (Prim F), v = .arr (ps.map .prim)) ∨ v = .obj []

/-- A value that has no nesting below the root: a primitive, an array of primitives, or an object of values that take a
single line each. -/
def Shallow : Json F → Prop
  | .prim _ => True
  | .arr items => ∃ ps, ArePrims items ps
  | .obj es => ∀ e ∈ es, OneLine e.2

mutual
/-- All arrays inside the value are arrays of primitives; objects may be nested. -/
def PrimArrays : Json F → Prop
  | .prim _ => True
  | .arr items => ∃ ps, ArePrims items ps
  | .obj es => PrimArraysEntries es
def PrimArraysEntries : List (Str × Json F) → Prop
  | [] => True
  | (_, v) :: es => PrimArrays v ∧ PrimArraysEntries es
end

end Toon
