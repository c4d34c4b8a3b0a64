import Verif.Spec.Clashes

/-!
# Which entry decides what is at a place
-/

namespace Toon

variable {F : Type}

/-- The value has something that is not an object at the place or on the way to it. -/
def Blocks (v : Json F) (path : List Str) : Prop :=
  ∃ way x, way <+: path ∧ follow way v = some x ∧ ∀ es, x ≠ .obj es

/-- The value has anything at the place, or something that is not an object on the way to it. -/
def Settles (v : Json F) (path : List Str) : Prop :=
  Blocks v path ∨ ∃ x, follow path v = some x

/-- A value was put at a place: it is at the end of its path, on the way there are objects, and
everywhere else there is what was there before. -/
def IsSet (path : List Str) (x before after : Json F) : Prop :=
  follow path after = some x ∧
  (∀ p, p <+: path → p ≠ path → ∃ o, follow p after = some (.obj o)) ∧
  ∀ p, ¬ p <+: path → ¬ path <+: p → follow p after = follow p before

end Toon
