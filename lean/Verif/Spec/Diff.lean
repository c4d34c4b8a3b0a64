import Verif.Spec.Layout

/-!
# A value in its surroundings

Specification for C72.
-/

namespace Toon

variable {F : Type}

/-- The other entries of an object, those before and those after the entry with this key. -/
structure Surround (F : Type) where
  before : List (Str × Json F)
  key : Str
  after : List (Str × Json F)

/-- The object made of the surroundings and the value. -/
def Surround.around (s : Surround F) (v : Json F) : Json F := .obj (s.before ++ (s.key, v) :: s.after)

/-- The value inside objects, the outermost first. -/
def within : List (Surround F) → Json F → Json F
  | [], v => v
  | s :: ss, v => s.around (within ss v)

/-- There are other entries. -/
def Surround.Shared (s : Surround F) : Prop := s.before ≠ [] ∨ s.after ≠ []

/-- A line pushed to the right by some spaces. -/
def pushed (n : Nat) (line : Str) : Str := List.replicate n ' ' ++ line

/-- Neither one line nor a table, whatever else is in the array: there are a primitive and a container. -/
def Mixed (items : List (Json F)) : Prop :=
  (∃ p, .prim p ∈ items) ∧ ((∃ vs, .arr vs ∈ items) ∨ ∃ es, .obj es ∈ items)

end Toon
