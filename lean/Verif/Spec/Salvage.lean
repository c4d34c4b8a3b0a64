import Verif.Spec.Draft

/-!
# What non-strict reading makes of wrong lengths

Elements that are missing are not missed.  At the first element beyond a declared length (of a table or a list)
reading stops, for good: what was read until then is the value.
-/

namespace Toon

section
variable {F : Type} [F64 F]

/-- The cells of a row by column: null where they run out; cells without a column are left out. -/
def paddedCells : List Str → List (Prim F) → List (Str × Json F)
  | [], _ => []
  | c :: cs, [] => (c, .prim .null) :: paddedCells cs []
  | c :: cs, p :: ps => (c, .prim p) :: paddedCells cs ps

mutual
/-- Reading stops within the value: a table or list that is read has more elements than declared. -/
def Draft.stops : Draft F → Bool
  | .prim _ => false
  | .inline _ _ => false
  | .table n _ rows => n < rows.length
  | .list n items => Draft.stopsItems n items
  | .object es => Draft.stopsEntries es
def Draft.stopsItems : Nat → List (Draft F) → Bool
  | _, [] => false
  | 0, _ :: _ => true
  | n + 1, v :: vs => v.stops || Draft.stopsItems n vs
def Draft.stopsEntries : List (Str × Draft F) → Bool
  | [] => false
  | (_, v) :: es => v.stops || Draft.stopsEntries es
end

mutual
/-- What has been read when reading stops or the text ends. -/
def Draft.salvaged : Draft F → Json F
  | .prim p => .prim p
  | .inline _ ps => .arr (ps.map .prim)
  | .table n cols rows => .arr ((rows.take n).map fun row => .obj (paddedCells cols row))
  | .list n items => .arr (Draft.salvagedItems n items)
  | .object es => .obj (Draft.salvagedEntries es)
def Draft.salvagedItems : Nat → List (Draft F) → List (Json F)
  | _, [] => []
  | 0, _ :: _ => []
  | n + 1, v :: vs => v.salvaged :: if v.stops then [] else Draft.salvagedItems n vs
def Draft.salvagedEntries : List (Str × Draft F) → List (Str × Json F)
  | [] => []
  | (k, v) :: es => (k, v.salvaged) :: if v.stops then [] else Draft.salvagedEntries es
end

mutual
/-- No table or list has more elements than it declares, and every row has one cell for each column. -/
def Draft.Modest : Draft F → Prop
  | .prim _ => True
  | .inline _ _ => True
  | .table n cols rows => rows.length ≤ n ∧ ∀ row ∈ rows, row.length = cols.length
  | .list n items => items.length ≤ n ∧ Draft.ModestItems items
  | .object es => Draft.ModestEntries es
def Draft.ModestItems : List (Draft F) → Prop
  | [] => True
  | v :: vs => v.Modest ∧ Draft.ModestItems vs
def Draft.ModestEntries : List (Str × Draft F) → Prop
  | [] => True
  | (_, v) :: es => v.Modest ∧ Draft.ModestEntries es
end

end

end Toon
