import Verif.Spec.Layout
import Verif.Spec.Resources
import Verif.Spec.Shallow

/-!
# How many lines a layout has

And what is counted of a value to compare with it.
-/

namespace Toon

section
variable {F : Type}

mutual
/-- The lines of a value under a key: one for a primitive and for an array of primitives, a line for the key and one for each row of
a table, or the lines of the elements or entries. -/
def Layout.lines : Layout F → Nat
  | .prim _ => 1
  | .inline _ => 1
  | .table _ rows => 1 + rows.length
  | .list items => 1 + Layout.itemsLines items
  | .object es => 1 + Layout.entriesLines es
def Layout.entriesLines : List (Str × Layout F) → Nat
  | [] => 0
  | (_, l) :: es => l.lines + Layout.entriesLines es
/-- An element of a list: the first entry of an object stands on the line of the hyphen. -/
def Layout.itemLines : Layout F → Nat
  | .prim _ => 1
  | .inline _ => 1
  | .table _ rows => 1 + rows.length
  | .list items => 1 + Layout.itemsLines items
  | .object es => if es.isEmpty then 1 else Layout.entriesLines es
def Layout.itemsLines : List (Layout F) → Nat
  | [] => 0
  | l :: ls => l.itemLines + Layout.itemsLines ls
end

/-- A whole document: an object has no line of its own. -/
def Layout.documentLines : Layout F → Nat
  | .object es => Layout.entriesLines es
  | l => l.lines

def Json.isObject : Json F → Bool
  | .obj _ => true
  | _ => false

mutual
/-- How many objects inside the value stand under a key. -/
def keyedObjects : Json F → Nat
  | .prim _ => 0
  | .arr items => keyedObjectsItems items
  | .obj es => keyedObjectsEntries es
def keyedObjectsItems : List (Json F) → Nat
  | [] => 0
  | v :: vs => keyedObjects v + keyedObjectsItems vs
def keyedObjectsEntries : List (Str × Json F) → Nat
  | [] => 0
  | (_, v) :: es => (if v.isObject then 1 else 0) + keyedObjects v + keyedObjectsEntries es
end

end

end Toon
