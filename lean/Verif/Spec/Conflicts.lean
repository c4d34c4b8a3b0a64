import Verif.Spec.Expansion

/-!
# The first conflict of path expansion

The same traversal as in `conflicting` (`Spec/Expansion.lean`); the answer names the place and what meets there.
-/

namespace Toon

variable {F : Type}

/-- The kind of a value. -/
def kindOf : Json F → NodeKind
  | .prim _ => .primitive
  | .arr _ => .array
  | .obj _ => .object

mutual
/-- The first conflict when `b`, at the key `k`, is merged into `a`. -/
def mergeConflict (k : Str) (a : Json F) : Json F → Option Conflict
  | .obj b => match a with
    | .obj a => entriesConflict a b
    | a => some (.merge k (kindOf a) .object)
  | .prim _ => some (.merge k (kindOf a) .primitive)
  | .arr _ => some (.merge k (kindOf a) .array)
/-- The first conflict when the entries of the second object are merged into the first. -/
def entriesConflict (a : List (Str × Json F)) : List (Str × Json F) → Option Conflict
  | [] => none
  | (k, v) :: b =>
    (match lookupKey k a with
      | none => none
      | some c => mergeConflict k c v).or (entriesConflict a b)
end

/-- The conflict when a value is put at the end of the path. -/
def pathConflict (a : List (Str × Json F)) : List Str → Json F → Option Conflict
  | [], _ => none
  | [s], v => match lookupKey s a with
    | none => none
    | some c => mergeConflict s c v
  | s :: ss, v => match lookupKey s a with
    | none => none
    | some (.obj b) => pathConflict b ss v
    | some c => some (.segment s (kindOf c))

mutual
/-- The first conflict of the tree: those inside a value come before those of its own entry. -/
def firstConflict : ETree F → Option Conflict
  | .prim _ => none
  | .arr _ items => firstConflictItems items
  | .obj es => firstConflictEntries (quotedIn es) es []
def firstConflictItems : List (ETree F) → Option Conflict
  | [] => none
  | t :: ts => (firstConflict t).or (firstConflictItems ts)
def firstConflictEntries (quoted : Str → Bool) : List (Str × Bool × ETree F) → List (Str × Json F) → Option Conflict
  | [], _ => none
  | (k, _, t) :: es, acc =>
    ((firstConflict t).or (pathConflict acc (keyPath (quoted k) k) (expanded t))).or
      (firstConflictEntries quoted es (mergeObj acc (atPath (keyPath (quoted k) k) (expanded t))))
end

end Toon
