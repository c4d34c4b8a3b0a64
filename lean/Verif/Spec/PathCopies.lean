import Verif.Spec.Resources

/-!
# How long the paths in a value are

Specification for C94.
-/

namespace Toon

variable {F : Type}

mutual
/-- The greatest number of characters, of keys and of a dot after each, on the way from a value to a value in it. -/
def longestPath : Json F → Nat
  | .prim _ => 0
  | .arr items => longestPathItems items
  | .obj es => longestPathEntries es
def longestPathItems : List (Json F) → Nat
  | [] => 0
  | v :: vs => max (longestPath v) (longestPathItems vs)
def longestPathEntries : List (Str × Json F) → Nat
  | [] => 0
  | (k, v) :: es => max (k.length + 1 + longestPath v) (longestPathEntries es)
end

mutual
/-- The lengths of the dotted paths of all the entries in a value without arrays, that is found after `above` characters. -/
def pathLengths (above : Nat) : Json F → List Nat
  | .prim _ => []
  | .arr _ => []
  | .obj es => pathLengthsEntries above es
def pathLengthsEntries (above : Nat) : List (Str × Json F) → List Nat
  | [] => []
  | (k, v) :: es => (above + k.length) :: pathLengths (above + k.length + 1) v ++ pathLengthsEntries above es
end

mutual
/-- No arrays anywhere. -/
def arrayless : Json F → Bool
  | .prim _ => true
  | .arr _ => false
  | .obj es => arraylessEntries es
def arraylessEntries : List (Str × Json F) → Bool
  | [] => true
  | (_, v) :: es => arrayless v && arraylessEntries es
end

/-- An object with `n` entries under a key of `n * n` characters. -/
def longLabel (n : Nat) : Json F :=
  .obj [(List.replicate (n * n) 'k', .obj ((List.range n).map fun i => (List.replicate (i + 1) 'a', .prim .null)))]

end Toon
