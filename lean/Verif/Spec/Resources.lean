import Verif.Spec.Values

/-!
# How much a value takes

Specification for C59.
-/

namespace Toon

variable {F : Type}

mutual
/-- The number of values in a value, itself included. -/
def nodes : Json F → Nat
  | .prim _ => 1
  | .arr items => 1 + nodesItems items
  | .obj es => 1 + nodesEntries es
def nodesItems : List (Json F) → Nat
  | [] => 0
  | v :: vs => nodes v + nodesItems vs
def nodesEntries : List (Str × Json F) → Nat
  | [] => 0
  | (_, v) :: es => nodes v + nodesEntries es
end

mutual
/-- The number of values in a value, itself included, and of the characters of its keys and strings. -/
def volume : Json F → Nat
  | .prim (.str s) => 1 + s.length
  | .prim _ => 1
  | .arr items => 1 + volumeItems items
  | .obj es => 1 + volumeEntries es
def volumeItems : List (Json F) → Nat
  | [] => 0
  | v :: vs => volume v + volumeItems vs
def volumeEntries : List (Str × Json F) → Nat
  | [] => 0
  | (k, v) :: es => k.length + volume v + volumeEntries es
end

end Toon
