import Verif.Spec.Layout

/-!
# The value with joined keys

What a layout (`Spec/Layout.lean`) shows to a reader who takes every key as it is written.
-/

namespace Toon

section
variable {F : Type}

mutual
/-- The value a layout shows, with the keys as they are written: joined keys stay joined. -/
def Layout.joined : Layout F → Json F
  | .prim p => .prim p
  | .inline ps => .arr (ps.map .prim)
  | .table cols rows => .arr (rows.map fun row => .obj (cols.zip (row.map .prim)))
  | .list items => .arr (Layout.joinedItems items)
  | .object es => .obj (Layout.joinedEntries es)
def Layout.joinedItems : List (Layout F) → List (Json F)
  | [] => []
  | l :: ls => l.joined :: Layout.joinedItems ls
def Layout.joinedEntries : List (Str × Layout F) → List (Str × Json F)
  | [] => []
  | (k, l) :: es => (k, l.joined) :: Layout.joinedEntries es
end

mutual
/-- No array that is written as a list has become a table by joining keys.  (A list that stands directly in a list is never written as
a table.) -/
def Layout.ListsStay : Layout F → Prop
  | .list items => (¬ ∃ cols, IsTable (Layout.joinedItems items) cols) ∧ Layout.ListsStayItems items
  | .object es => Layout.ListsStayEntries es
  | _ => True
def Layout.ListsStayEntries : List (Str × Layout F) → Prop
  | [] => True
  | (_, l) :: es => l.ListsStay ∧ Layout.ListsStayEntries es
def Layout.ListsStayItem : Layout F → Prop
  | .list items => Layout.ListsStayItems items
  | .object es => Layout.ListsStayEntries es
  | _ => True
def Layout.ListsStayItems : List (Layout F) → Prop
  | [] => True
  | l :: ls => l.ListsStayItem ∧ Layout.ListsStayItems ls
end

end

end Toon
