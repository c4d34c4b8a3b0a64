import Verif.Spec.Readings

/-!
# The primitives of a value in order

Specification for C116.
-/

namespace Toon

variable {F : Type}

mutual
/-- The primitives of the value, from left to right. -/
def inside : Json F → List (Prim F)
  | .prim p => [p]
  | .arr items => insideItems items
  | .obj es => insideEntries es
def insideItems : List (Json F) → List (Prim F)
  | [] => []
  | v :: vs => inside v ++ insideItems vs
def insideEntries : List (Str × Json F) → List (Prim F)
  | [] => []
  | (_, v) :: es => inside v ++ insideEntries es
end

/-- The words stand in the text one after the other, without overlapping. -/
inductive WordsOf : List Str → Str → Prop
  | none (text : Str) : WordsOf [] text
  | word {a w b : Str} {ws : List Str} : (∀ c, a.getLast? = some c → isWs c = true ∨ c ∈ [':', ',', '|', '\t']) →
      (∀ c, b.head? = some c → isWs c = true ∨ c ∈ [',', '|', '\t']) → WordsOf ws b → WordsOf (w :: ws) (a ++ w ++ b)

/-- The words stand in the lines one after the other. -/
inductive WordsIn : List Str → List Str → Prop
  | nil : WordsIn [] []
  | line {ws ws' : List Str} {raw : Str} {source : List Str} : WordsOf ws raw → WordsIn ws' source → WordsIn (ws ++ ws') (raw :: source)

/-- The primitives are what the words stand for, except that words may be left out and nulls put in. -/
inductive Loosely [F64 F] : List Str → List (Prim F) → Prop
  | nil : Loosely [] []
  | take {w : Str} {p : Prim F} {ws : List Str} {ps : List (Prim F)} : TokenMeans w p → Loosely ws ps → Loosely (w :: ws) (p :: ps)
  | unused {w : Str} {ws : List Str} {ps : List (Prim F)} : Loosely ws ps → Loosely (w :: ws) ps
  | supplied {ws : List Str} {ps : List (Prim F)} : Loosely ws ps → Loosely ws (.null :: ps)

/-- The first list is made of elements of the second, each used at most as often as it occurs there. -/
def Among {α : Type} (a b : List α) : Prop := ∃ rest, (a ++ rest).Perm b

/-- The primitives of an event list, in order. -/
def eventPrims : List (Ev F) → List (Prim F)
  | [] => []
  | .prim p :: evs => p :: eventPrims evs
  | _ :: evs => eventPrims evs

/-- The characters of the strings among the primitives, counted together. -/
def stringChars : List (Prim F) → Nat
  | [] => 0
  | .str s :: ps => s.length + stringChars ps
  | _ :: ps => stringChars ps

end Toon
