import Verif.Spec.Events

/-!
# The same entries in another order
-/

namespace Toon

/-- Trees of events that differ only in the order of the entries of objects, at any depth. -/
inductive Reordered {F : Type} : ETree F → ETree F → Prop
  | refl (t : ETree F) : Reordered t t
  | trans {a b c : ETree F} : Reordered a b → Reordered b c → Reordered a c
  /-- an element of an array -/
  | element (n : Nat) (pre post : List (ETree F)) {a b : ETree F} : Reordered a b →
      Reordered (.arr n (pre ++ a :: post)) (.arr n (pre ++ b :: post))
  /-- the value of an entry -/
  | entry (pre post : List (Str × Bool × ETree F)) (k : Str) (q : Bool) {a b : ETree F} : Reordered a b →
      Reordered (.obj (pre ++ (k, q, a) :: post)) (.obj (pre ++ (k, q, b) :: post))
  /-- the order of the entries -/
  | entries {es es' : List (Str × Bool × ETree F)} : es.Perm es' → Reordered (.obj es) (.obj es')

end Toon
