import Verif.Spec.Values
import Verif.Spec.Events

/-!
# Dotted keys, and the leaves of a value

Stated on JSON values and event trees alone.
-/

namespace Toon

variable {F : Type}

/-- `[A-Za-z_][A-Za-z0-9_]*` -/
def identifier (s : Str) : Bool :=
  match s with
  | [] => false
  | c :: rest => (c.isAlpha || c == '_') && rest.all fun ch => ch.isAlphanum || ch == '_'

/-- The segments joined by dots. -/
def dotted : List Str → Str
  | [] => []
  | [s] => s
  | s :: ss => s ++ '.' :: dotted ss

/-- A key that consists of two or more identifiers joined by dots. -/
def DottedPath (k : Str) : Prop := ∃ segs : List Str, 2 ≤ segs.length ∧ (∀ s ∈ segs, identifier s = true) ∧ k = dotted segs

mutual
/-- Every key inside the value satisfies `P`. -/
def AllKeys (P : Str → Prop) : Json F → Prop
  | .prim _ => True
  | .arr items => AllKeysItems P items
  | .obj es => AllKeysEntries P es
def AllKeysItems (P : Str → Prop) : List (Json F) → Prop
  | [] => True
  | v :: vs => AllKeys P v ∧ AllKeysItems P vs
def AllKeysEntries (P : Str → Prop) : List (Str × Json F) → Prop
  | [] => True
  | (k, v) :: es => P k ∧ AllKeys P v ∧ AllKeysEntries P es
end

mutual
/-- All keys inside the value. -/
def keysOf : Json F → List Str
  | .prim _ => []
  | .arr items => keysOfItems items
  | .obj es => keysOfEntries es
def keysOfItems : List (Json F) → List Str
  | [] => []
  | v :: vs => keysOf v ++ keysOfItems vs
def keysOfEntries : List (Str × Json F) → List Str
  | [] => []
  | (k, v) :: es => k :: (keysOf v ++ keysOfEntries es)
end

/-- No key inside the value is a dotted path. -/
def NoDottedKeys (v : Json F) : Prop := AllKeys (fun k => ¬ DottedPath k) v

mutual
/-- Every key of the tree satisfies `P key quoted`. -/
def ETree.AllKeys (P : Str → Bool → Prop) : ETree F → Prop
  | .prim _ => True
  | .arr _ items => ETree.AllKeysItems P items
  | .obj es => ETree.AllKeysEntries P es
def ETree.AllKeysItems (P : Str → Bool → Prop) : List (ETree F) → Prop
  | [] => True
  | t :: ts => t.AllKeys P ∧ ETree.AllKeysItems P ts
def ETree.AllKeysEntries (P : Str → Bool → Prop) : List (Str × Bool × ETree F) → Prop
  | [] => True
  | (k, q, t) :: es => P k q ∧ t.AllKeys P ∧ ETree.AllKeysEntries P es
end

/-! ## Folded keys -/

/-- A key, or 2 to `n` identifiers joined by dots, all of them satisfying `K`. -/
def FoldedFrom (K : Str → Prop) (n : Nat) (k : Str) : Prop :=
  K k ∨ ∃ segs : List Str, 2 ≤ segs.length ∧ segs.length ≤ n ∧ (∀ s ∈ segs, identifier s = true ∧ K s) ∧ k = dotted segs

/-- The first key of the object, if there is one, satisfies `P`. -/
def FirstKey (P : Str → Prop) : Json F → Prop
  | .obj ((k, _) :: _) => P k
  | _ => True

mutual
/-- In every object that is an element of an array, the first key satisfies `P`. -/
def ItemFirstKeys (P : Str → Prop) : Json F → Prop
  | .prim _ => True
  | .arr items => ItemFirstKeysItems P items
  | .obj es => ItemFirstKeysEntries P es
def ItemFirstKeysItems (P : Str → Prop) : List (Json F) → Prop
  | [] => True
  | v :: vs => FirstKey P v ∧ ItemFirstKeys P v ∧ ItemFirstKeysItems P vs
def ItemFirstKeysEntries (P : Str → Prop) : List (Str × Json F) → Prop
  | [] => True
  | (_, v) :: es => ItemFirstKeys P v ∧ ItemFirstKeysEntries P es
end

/-- A value inside objects of one entry each. -/
def nested : List Str → Json F → Json F
  | [], v => v
  | s :: ss, v => .obj [(s, nested ss v)]

/-! ## Leaves -/

/-- What sits at the end of a path: a primitive or an empty container. -/
inductive Leaf (F : Type) where
  | prim (p : Prim F)
  | emptyArr
  | emptyObj

/-- One step of a path. -/
inductive Step where
  | key (k : Str)
  | index (i : Nat)
deriving DecidableEq

mutual
/-- The leaves of a value with their paths, in document order. -/
def leaves : Json F → List (List Step × Leaf F)
  | .prim p => [([], .prim p)]
  | .arr [] => [([], .emptyArr)]
  | .arr (v :: vs) => leavesItems 0 (v :: vs)
  | .obj [] => [([], .emptyObj)]
  | .obj (e :: es) => leavesEntries (e :: es)
def leavesItems (i : Nat) : List (Json F) → List (List Step × Leaf F)
  | [] => []
  | v :: vs => (leaves v).map (fun l => (.index i :: l.1, l.2)) ++ leavesItems (i + 1) vs
def leavesEntries : List (Str × Json F) → List (List Step × Leaf F)
  | [] => []
  | (k, v) :: es => (leaves v).map (fun l => (.key k :: l.1, l.2)) ++ leavesEntries es
end

/-- A step written after a path: `.key` (`key` at the start) or `[index]`. -/
def renderStep (start : Bool) : Step → Str
  | .key k => if start then k else '.' :: k
  | .index i => '[' :: (toString i).toList ++ [']']

/-- A path written with dots. -/
def renderPath : Bool → List Step → Str
  | _, [] => []
  | start, s :: ss => renderStep start s ++ renderPath false ss

/-- The leaves of a value addressed by dot-joined paths. -/
def dotLeaves (v : Json F) : List (Str × Leaf F) :=
  (leaves v).map fun l => (renderPath true l.1, l.2)

end Toon
