import Verif.Spec.Values
import Verif.Spec.Resources

/-!
# What the nesting of the conversions and the cost of a replacer are measured by
-/

namespace Toon

variable {F : Type}

mutual
/-- The longest way down into a value, with `per` for each array or object on it and one for a primitive at its end. -/
def wayDown (per : Nat) : Json F → Nat
  | .prim _ => 1
  | .arr items => per + wayDownItems per items
  | .obj es => per + wayDownEntries per es
def wayDownItems (per : Nat) : List (Json F) → Nat
  | [] => 0
  | v :: vs => max (wayDown per v) (wayDownItems per vs)
def wayDownEntries (per : Nat) : List (Str × Json F) → Nat
  | [] => 0
  | (_, v) :: es => max (wayDown per v) (wayDownEntries per es)
end

mutual
/-- For every value in a value, how many arrays and objects it is in, when the value itself is in `d`. -/
def placesOf (d : Nat) : Json F → List Nat
  | .prim _ => [d]
  | .arr items => d :: placesItems (d + 1) items
  | .obj es => d :: placesEntries (d + 1) es
def placesItems (d : Nat) : List (Json F) → List Nat
  | [] => []
  | v :: vs => placesOf d v ++ placesItems d vs
def placesEntries (d : Nat) : List (Str × Json F) → List Nat
  | [] => []
  | (_, v) :: es => placesOf d v ++ placesEntries d es
end

end Toon
