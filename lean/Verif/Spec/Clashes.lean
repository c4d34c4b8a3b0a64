import Verif.Spec.Expansion

/-!
# When two entries cannot be merged
-/

namespace Toon

variable {F : Type}

/-- The value at the end of a path of keys. -/
def follow : List Str → Json F → Option (Json F)
  | [], v => some v
  | k :: ks, .obj es => (lookupKey k es).bind (follow ks)
  | _ :: _, _ => none

/-- Two values have something at the same place that is not an object in both. -/
def Collide (a b : Json F) : Prop :=
  ∃ path x y, follow path a = some x ∧ follow path b = some y ∧ ¬ ((∃ es, x = .obj es) ∧ ∃ es, y = .obj es)

/-- The nested objects that an entry of an object stands for; `es` are all the entries of the object. -/
def standsFor (es : List (Str × Bool × ETree F)) (e : Str × Bool × ETree F) : Json F :=
  nested (keyPath (quotedIn es e.1) e.1) (expanded e.2.2)

/-- Two entries of an object, one before the other, cannot both be had. -/
def Quarrel (es : List (Str × Bool × ETree F)) : Prop :=
  ∃ e f, [e, f].Sublist es ∧ Collide (standsFor es e) (standsFor es f)

/-- The entries are those of an object somewhere in the tree. -/
inductive ObjectIn (es : List (Str × Bool × ETree F)) : ETree F → Prop
  | here : ObjectIn es (.obj es)
  | entry {fs : List (Str × Bool × ETree F)} {e : Str × Bool × ETree F} : e ∈ fs → ObjectIn es e.2.2 → ObjectIn es (.obj fs)
  | item {n : Nat} {ts : List (ETree F)} {t : ETree F} : t ∈ ts → ObjectIn es t → ObjectIn es (.arr n ts)

end Toon
