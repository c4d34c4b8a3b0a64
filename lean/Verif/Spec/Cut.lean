import Verif.Spec.Events

/-!
# What may be missing from a text that was cut off

`Cut whole part`: the part is the whole, or the whole with something missing at the very end, and only from objects:
every array has all its elements, and nothing is changed or added.
-/

namespace Toon

/-- Trees of events.  An object may end early; the last entry that is left, and the last element of an array, may
themselves be cut. -/
inductive Cut {F : Type} : ETree F → ETree F → Prop
  | whole (t : ETree F) : Cut t t
  | entries (es more : List (Str × Bool × ETree F)) : Cut (.obj (es ++ more)) (.obj es)
  | entry (es more : List (Str × Bool × ETree F)) (k : Str) (q : Bool) {t' t : ETree F} : Cut t' t →
      Cut (.obj (es ++ (k, q, t') :: more)) (.obj (es ++ [(k, q, t)]))
  | element (n : Nat) (ts : List (ETree F)) {t' t : ETree F} : Cut t' t → Cut (.arr n (ts ++ [t'])) (.arr n (ts ++ [t]))

/-- The same for values. -/
inductive ValueCut {F : Type} : Json F → Json F → Prop
  | whole (v : Json F) : ValueCut v v
  | entries (es more : List (Str × Json F)) : ValueCut (.obj (es ++ more)) (.obj es)
  | entry (es more : List (Str × Json F)) (k : Str) {v' v : Json F} : ValueCut v' v →
      ValueCut (.obj (es ++ (k, v') :: more)) (.obj (es ++ [(k, v)]))
  | element (vs : List (Json F)) {v' v : Json F} : ValueCut v' v → ValueCut (.arr (vs ++ [v'])) (.arr (vs ++ [v]))

/-- Nothing can be missing at the end: a primitive, or an array that is empty or whose last element is of this kind. -/
inductive Closed {F : Type} : Json F → Prop
  | prim (p : Prim F) : Closed (.prim p)
  | nil : Closed (.arr [])
  | last (vs : List (Json F)) {v : Json F} : Closed v → Closed (.arr (vs ++ [v]))

end Toon
