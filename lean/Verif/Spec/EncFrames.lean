import Verif.Spec.Resources
import Verif.Spec.Paths

/-!
# Values that are deep

Witnesses for C77 and C78.
-/

namespace Toon

variable {F : Type}

/-- `[{"a":null,"b":[{"a":null,"b":…},null]},null]`: `k` arrays, each in an object in the one before. -/
def deepLists : Nat → Json F
  | 0 => .prim .null
  | k + 1 => .arr [.obj [(['a'], .prim .null), (['b'], deepLists k)], .prim .null]

/-- `{"a":{"a":…{"a":null}}}` with `n + 1` objects. -/
def keyChain (n : Nat) : Json F := nested (List.replicate (n + 1) ['a']) (.prim .null)

/-- The same with one object more, the innermost, whose key is `-`, which cannot be a segment of a path. -/
def blockedChain (n : Nat) : Json F := nested (List.replicate (n + 1) ['a'] ++ [['-']]) (.prim .null)

end Toon
