import Verif.Model.Basic

/-!
# Event lists of trees

A well-formed event list is the event list of one tree.  The tree keeps what the events say
beyond the JSON value: the declared length of each array and the quoted flag of each key.
-/

namespace Toon

/-- A JSON tree with declared array lengths and quoted flags of keys. -/
inductive ETree (F : Type) where
  | prim (p : Prim F)
  | arr (declared : Nat) (items : List (ETree F))
  | obj (entries : List (Str × Bool × ETree F))

variable {F : Type}

mutual
/-- The events of a tree. -/
def ETree.events : ETree F → List (Ev F)
  | .prim p => [.prim p]
  | .arr n items => .startArr n :: ETree.eventsItems items ++ [.endArr]
  | .obj entries => .startObj :: ETree.eventsEntries entries ++ [.endObj]
def ETree.eventsItems : List (ETree F) → List (Ev F)
  | [] => []
  | t :: ts => t.events ++ ETree.eventsItems ts
def ETree.eventsEntries : List (Str × Bool × ETree F) → List (Ev F)
  | [] => []
  | (k, q, t) :: es => .key k q :: t.events ++ ETree.eventsEntries es
end

mutual
/-- The JSON value of a tree. -/
def ETree.json : ETree F → Json F
  | .prim p => .prim p
  | .arr _ items => .arr (ETree.jsonItems items)
  | .obj entries => .obj (ETree.jsonEntries entries)
def ETree.jsonItems : List (ETree F) → List (Json F)
  | [] => []
  | t :: ts => t.json :: ETree.jsonItems ts
def ETree.jsonEntries : List (Str × Bool × ETree F) → List (Str × Json F)
  | [] => []
  | (k, _, t) :: es => (k, t.json) :: ETree.jsonEntries es
end

mutual
/-- Every array of the tree satisfies `R declared actual`. -/
def ETree.AllArrays (R : Nat → Nat → Prop) : ETree F → Prop
  | .prim _ => True
  | .arr n items => R n items.length ∧ ETree.AllArraysItems R items
  | .obj entries => ETree.AllArraysEntries R entries
def ETree.AllArraysItems (R : Nat → Nat → Prop) : List (ETree F) → Prop
  | [] => True
  | t :: ts => t.AllArrays R ∧ ETree.AllArraysItems R ts
def ETree.AllArraysEntries (R : Nat → Nat → Prop) : List (Str × Bool × ETree F) → Prop
  | [] => True
  | (_, _, t) :: es => t.AllArrays R ∧ ETree.AllArraysEntries R es
end

mutual
/-- Every primitive of the tree satisfies `P`. -/
def ETree.AllPrims (P : Prim F → Prop) : ETree F → Prop
  | .prim p => P p
  | .arr _ items => ETree.AllPrimsItems P items
  | .obj entries => ETree.AllPrimsEntries P entries
def ETree.AllPrimsItems (P : Prim F → Prop) : List (ETree F) → Prop
  | [] => True
  | t :: ts => t.AllPrims P ∧ ETree.AllPrimsItems P ts
def ETree.AllPrimsEntries (P : Prim F → Prop) : List (Str × Bool × ETree F) → Prop
  | [] => True
  | (_, _, t) :: es => t.AllPrims P ∧ ETree.AllPrimsEntries P es
end

end Toon
