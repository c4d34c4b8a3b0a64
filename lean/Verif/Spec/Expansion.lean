import Verif.Spec.Paths

/-!
# What path expansion means

Expanding an object merges, entry by entry and from left to right, the object `{s1: {s2: … value}}` for
an entry with key `s1.s2.…` into the result.  The merge is the usual deep merge of JSON values: objects
are merged key by key, otherwise the later value wins.
-/

namespace Toon

variable {F : Type}

/-- Replace the value of the first entry with the key. -/
def replaceKey (k : Str) (v : Json F) : List (Str × Json F) → List (Str × Json F)
  | [] => []
  | (k', v') :: es => if k' = k then (k', v) :: es else (k', v') :: replaceKey k v es

mutual
/-- Deep merge: `b` into `a`. -/
def deepMerge (a : Json F) : Json F → Json F
  | .obj b => match a with
    | .obj a => .obj (mergeObj a b)
    | _ => .obj b
  | .prim p => .prim p
  | .arr items => .arr items
/-- The entries of the second object merged, in their order, into the first. -/
def mergeObj (a : List (Str × Json F)) : List (Str × Json F) → List (Str × Json F)
  | [] => a
  | (k, v) :: b =>
    mergeObj (match lookupKey k a with
      | none => a ++ [(k, v)]
      | some c => replaceKey k (deepMerge c v) a) b
end

mutual
/-- Merging `b` into `a` replaces something: at some place the two have a value each, and not both are
objects. -/
def clash (a : Json F) : Json F → Bool
  | .obj b => match a with
    | .obj a => clashEntries a b
    | _ => true
  | .prim _ => true
  | .arr _ => true
def clashEntries (a : List (Str × Json F)) : List (Str × Json F) → Bool
  | [] => false
  | (k, v) :: b =>
    (match lookupKey k a with
      | none => false
      | some c => clash c v) || clashEntries a b
end

/-- The parts of a string between dots. -/
def splitDots : Str → List Str
  | [] => [[]]
  | c :: cs =>
    if c = '.' then [] :: splitDots cs
    else
      match splitDots cs with
      | [] => [[c]]
      | w :: ws => (c :: w) :: ws

/-- The path that a key stands for: the key itself when it is quoted or not a dotted path, otherwise the
identifiers between the dots. -/
def keyPath (quoted : Bool) (k : Str) : List Str :=
  if quoted = false ∧ 2 ≤ (splitDots k).length ∧ (splitDots k).all identifier then splitDots k else [k]

/-- Some entry of the object has this key in quotes. -/
def quotedIn (es : List (Str × Bool × ETree F)) (k : Str) : Bool := es.any fun e => e.1 == k && e.2.1

/-- The entries of the object with the value at the end of the path. -/
def atPath : List Str → Json F → List (Str × Json F)
  | [], _ => []
  | s :: ss, v => [(s, nested ss v)]

mutual
/-- The expanded value of a tree. -/
def expanded : ETree F → Json F
  | .prim p => .prim p
  | .arr _ items => .arr (expandedItems items)
  | .obj es => .obj (expandedEntries (quotedIn es) es [])
def expandedItems : List (ETree F) → List (Json F)
  | [] => []
  | t :: ts => expanded t :: expandedItems ts
/-- The entries merged, one after the other, into `acc`. -/
def expandedEntries (quoted : Str → Bool) : List (Str × Bool × ETree F) → List (Str × Json F) → List (Str × Json F)
  | [], acc => acc
  | (k, _, t) :: es, acc => expandedEntries quoted es (mergeObj acc (atPath (keyPath (quoted k) k) (expanded t)))
end

mutual
/-- Some entry of some object in the tree replaces something when it is merged. -/
def conflicting : ETree F → Bool
  | .prim _ => false
  | .arr _ items => conflictingItems items
  | .obj es => conflictingEntries (quotedIn es) es []
def conflictingItems : List (ETree F) → Bool
  | [] => false
  | t :: ts => conflicting t || conflictingItems ts
def conflictingEntries (quoted : Str → Bool) : List (Str × Bool × ETree F) → List (Str × Json F) → Bool
  | [], _ => false
  | (k, _, t) :: es, acc =>
    conflicting t || clashEntries acc (atPath (keyPath (quoted k) k) (expanded t)) ||
      conflictingEntries quoted es (mergeObj acc (atPath (keyPath (quoted k) k) (expanded t)))
end

mutual
/-- The leaves of a tree; every key stands for its path. -/
def pathLeaves : ETree F → List (List Step × Leaf F)
  | .prim p => [([], .prim p)]
  | .arr _ [] => [([], .emptyArr)]
  | .arr _ (t :: ts) => pathLeavesItems 0 (t :: ts)
  | .obj [] => [([], .emptyObj)]
  | .obj (e :: es) => pathLeavesEntries (quotedIn (e :: es)) (e :: es)
def pathLeavesItems (i : Nat) : List (ETree F) → List (List Step × Leaf F)
  | [] => []
  | t :: ts => (pathLeaves t).map (fun l => (.index i :: l.1, l.2)) ++ pathLeavesItems (i + 1) ts
def pathLeavesEntries (quoted : Str → Bool) : List (Str × Bool × ETree F) → List (List Step × Leaf F)
  | [] => []
  | (k, _, t) :: es =>
    (pathLeaves t).map (fun l => ((keyPath (quoted k) k).map .key ++ l.1, l.2)) ++ pathLeavesEntries quoted es
end

/-- Not an empty object (which disappears when something is merged into it). -/
def Leaf.solid : Leaf F → Bool
  | .emptyObj => false
  | _ => true

/-- The primitives and empty arrays among leaves. -/
def solid (ls : List (List Step × Leaf F)) : List (List Step × Leaf F) := ls.filter fun l => l.2.solid

mutual
/-- The nesting of the tree when every key counts with the length of its path. -/
def pathHeight : ETree F → Nat
  | .prim _ => 0
  | .arr _ items => pathHeightItems items + 1
  | .obj es => max 1 (pathHeightEntries (quotedIn es) es)
def pathHeightItems : List (ETree F) → Nat
  | [] => 0
  | t :: ts => max (pathHeight t) (pathHeightItems ts)
def pathHeightEntries (quoted : Str → Bool) : List (Str × Bool × ETree F) → Nat
  | [] => 0
  | (k, _, t) :: es => max ((keyPath (quoted k) k).length + pathHeight t) (pathHeightEntries quoted es)
end

mutual
/-- The depth that expansion needs at least: 2 for every object, 1 for every array, 1 for a primitive, and
2 for an object with a key of several segments plus one for each segment and one more. -/
def depthNeeded : ETree F → Nat
  | .prim _ => 1
  | .arr _ items => max 1 (1 + depthNeededItems items)
  | .obj es => max 2 (2 + depthNeededEntries (quotedIn es) es)
def depthNeededItems : List (ETree F) → Nat
  | [] => 0
  | t :: ts => max (depthNeeded t) (depthNeededItems ts)
def depthNeededEntries (quoted : Str → Bool) : List (Str × Bool × ETree F) → Nat
  | [] => 0
  | (k, _, t) :: es =>
    max (max (depthNeeded t) (if 2 ≤ (keyPath (quoted k) k).length then (keyPath (quoted k) k).length + 1 else 1))
      (depthNeededEntries quoted es)
end

end Toon
