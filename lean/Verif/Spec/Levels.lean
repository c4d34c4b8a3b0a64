import Verif.Spec.Expansion

/-!
# Levels of a value

Path expansion counts levels and gives up above 256 (`Spec/Hurdles.lean`).  How many levels a text needs depends on how its keys are
written; these are the numbers for the value that comes out.
-/

namespace Toon

variable {F : Type}

mutual
/-- The levels of a value all of whose keys are written as they are: an object takes two, an array one, a primitive one. -/
def plainLevels : Json F → Nat
  | .prim _ => 1
  | .arr items => 1 + plainLevelsItems items
  | .obj es => 2 + plainLevelsEntries es
def plainLevelsItems : List (Json F) → Nat
  | [] => 0
  | v :: vs => max (plainLevels v) (plainLevelsItems vs)
def plainLevelsEntries : List (Str × Json F) → Nat
  | [] => 0
  | (_, v) :: es => max (plainLevels v) (plainLevelsEntries es)
end

mutual
/-- The levels that no way of writing the keys can avoid: an object that is the value of an identifier (`joined`) may take none,
because the key of an entry can be joined with the keys around it. -/
def leastLevels (joined : Bool) : Json F → Nat
  | .prim _ => 1
  | .arr items => 1 + leastLevelsItems items
  | .obj es => (if joined then 0 else 2) + leastLevelsEntries es
def leastLevelsItems : List (Json F) → Nat
  | [] => 0
  | v :: vs => max (leastLevels false v) (leastLevelsItems vs)
def leastLevelsEntries : List (Str × Json F) → Nat
  | [] => 0
  | (k, v) :: es => max (leastLevels (identifier k) v) (leastLevelsEntries es)
end

end Toon
