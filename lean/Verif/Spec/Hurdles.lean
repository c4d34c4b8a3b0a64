import Verif.Spec.Conflicts

/-!
# What path expansion has to get past

Expansion walks the tree once, from left to right and the value of an entry before the entry itself.  On the way it
passes levels, which are numbered from 1 and capped, and places where two values meet that cannot be merged.  The
list of all these hurdles in the order of the walk decides the outcome: the first one that cannot be passed is the
error.  Here the walk goes on after a conflict, as it does in lax mode, with the later value in the place of the
earlier one.

How levels are counted: a primitive and an array take one level, an object takes two, the values in an object are
above both.  An entry with an ordinary key is inserted on the level of its value.  A key of several segments takes one
level per segment and one more.  Merging takes, on top of the place where the two objects meet, one level per pair of
objects.
-/

namespace Toon

variable {F : Type}

/-- Something that expansion may not get past. -/
inductive Hurdle where
  | level (n : Nat)
  | conflict (c : Conflict)
  deriving DecidableEq, Repr

mutual
/-- Merging `b`, at the key `k`, into `a`, where a pair of objects is on level `n`. -/
def mergeHurdles (n : Nat) (k : Str) (a : Json F) : Json F → List Hurdle
  | .obj b => match a with
    | .obj a => .level n :: meetHurdles n a b
    | a => [.conflict (.merge k (kindOf a) .object)]
  | .prim _ => [.conflict (.merge k (kindOf a) .primitive)]
  | .arr _ => [.conflict (.merge k (kindOf a) .array)]
/-- Merging the entries of the second object into the first. -/
def meetHurdles (n : Nat) (a : List (Str × Json F)) : List (Str × Json F) → List Hurdle
  | [] => []
  | (k, v) :: b =>
    (match lookupKey k a with
      | none => []
      | some c => mergeHurdles (n + 1) k c v) ++ meetHurdles n a b
end

/-- Inserting an entry under the key as it is. -/
def literalHurdles (n : Nat) (a : List (Str × Json F)) (k : Str) (v : Json F) : List Hurdle :=
  .level n :: match lookupKey k a with
    | none => []
    | some c => mergeHurdles (n + 1) k c v

/-- Inserting a value at the end of a path. -/
def pathHurdles (n : Nat) (a : List (Str × Json F)) : List Str → Json F → List Hurdle
  | [], _ => []
  | [s], v => .level n :: literalHurdles (n + 1) a s v
  | s :: ss, v => .level n :: match lookupKey s a with
    | none => pathHurdles (n + 1) [] ss v
    | some (.obj b) => pathHurdles (n + 1) b ss v
    | some c => .conflict (.segment s (kindOf c)) :: pathHurdles (n + 1) [] ss v

/-- Inserting an entry whose key stands for the path. -/
def insertHurdles (n : Nat) (a : List (Str × Json F)) (path : List Str) (v : Json F) : List Hurdle :=
  match path with
  | [k] => literalHurdles n a k v
  | path => pathHurdles n a path v

mutual
/-- The hurdles of a tree on level `n`. -/
def hurdles (n : Nat) : ETree F → List Hurdle
  | .prim _ => [.level n]
  | .arr _ items => .level n :: hurdlesItems (n + 1) items
  | .obj es => .level n :: .level (n + 1) :: hurdlesEntries (n + 2) (quotedIn es) es []
def hurdlesItems (n : Nat) : List (ETree F) → List Hurdle
  | [] => []
  | t :: ts => hurdles n t ++ hurdlesItems n ts
/-- The hurdles of the entries; `acc` is what the entries before have been merged to. -/
def hurdlesEntries (n : Nat) (quoted : Str → Bool) : List (Str × Bool × ETree F) → List (Str × Json F) → List Hurdle
  | [], _ => []
  | (k, _, t) :: es, acc =>
    hurdles n t ++ insertHurdles n acc (keyPath (quoted k) k) (expanded t) ++
      hurdlesEntries n quoted es (mergeObj acc (atPath (keyPath (quoted k) k) (expanded t)))
end

/-- The error of a hurdle that cannot be passed: a level above 256, or in strict mode a conflict. -/
def Hurdle.fails (strict : Bool) : Hurdle → Option Err
  | .level n => if 256 < n then some .expandDepth else none
  | .conflict c => if strict then some (.pathConflict c) else none

/-- The conflict of a hurdle. -/
def conflictOf : Hurdle → Option Conflict
  | .level _ => none
  | .conflict c => some c

/-- The level of a hurdle. -/
def levelOf : Hurdle → Nat
  | .level n => n
  | .conflict _ => 0

/-- The error of the first hurdle that cannot be passed. -/
def firstFailure (strict : Bool) (hs : List Hurdle) : Option Err := hs.findSome? (Hurdle.fails strict)

end Toon
