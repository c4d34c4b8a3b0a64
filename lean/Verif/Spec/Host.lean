import Verif.Spec.Values

/-! # Duplicate keys: the last value at the first position -/

namespace Toon

/-- The keys in the order of their first occurrence, each once. -/
def firstKeys : List Str → List Str
  | [] => []
  | k :: ks => k :: (firstKeys ks).filter (· ≠ k)

/-- The last value stored under a key. -/
def lastValue {α : Type} (k : Str) : List (Str × α) → Option α
  | [] => none
  | (k', v) :: es =>
    match lastValue k es with
    | some w => some w
    | none => if k' = k then some v else none

/-- Every key once, at its first position, with its last value. -/
def lastEntries {α : Type} (es : List (Str × α)) : List (Str × α) :=
  (firstKeys (es.map Prod.fst)).filterMap fun k => (lastValue k es).map fun v => (k, v)

variable {F : Type}

mutual
/-- The value in which every object keeps, for each key, the last value at the first position. -/
def lastWins : Json F → Json F
  | .prim p => .prim p
  | .arr items => .arr (lastWinsItems items)
  | .obj es => .obj (lastEntries (lastWinsEntries es))
def lastWinsItems : List (Json F) → List (Json F)
  | [] => []
  | v :: vs => lastWins v :: lastWinsItems vs
def lastWinsEntries : List (Str × Json F) → List (Str × Json F)
  | [] => []
  | (k, v) :: es => (k, lastWins v) :: lastWinsEntries es
end

end Toon
