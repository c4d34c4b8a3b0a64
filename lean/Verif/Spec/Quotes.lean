import Verif.Spec.Expansion

/-!
# Keys that are written the same way everywhere

Path expansion leaves a dotted key alone if it is in quotes anywhere in its object (`quotedIn`), also where it is
written without.  Here every dotted key that occurs several times in an object is quoted everywhere or nowhere.
-/

namespace Toon

variable {F : Type}

/-- Among the entries a dotted key is quoted everywhere or nowhere. -/
def SameQuotes (es : List (Str × Bool × ETree F)) : Prop :=
  ∀ e ∈ es, ∀ f ∈ es, e.1 = f.1 → DottedPath e.1 → e.2.1 = f.2.1

mutual
/-- So in every object of the tree. -/
def Unmixed : ETree F → Prop
  | .prim _ => True
  | .arr _ items => UnmixedItems items
  | .obj es => SameQuotes es ∧ UnmixedEntries es
def UnmixedItems : List (ETree F) → Prop
  | [] => True
  | t :: ts => Unmixed t ∧ UnmixedItems ts
def UnmixedEntries : List (Str × Bool × ETree F) → Prop
  | [] => True
  | (_, _, t) :: es => Unmixed t ∧ UnmixedEntries es
end

end Toon
