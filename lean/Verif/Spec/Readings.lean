import Verif.Spec.Grammar
import Verif.Spec.Complaints

/-!
# The primitives of a value

Specification for C114.
-/

namespace Toon

variable {F : Type}

mutual
/-- The primitive is the value or occurs in a part of it. -/
def Contains (p : Prim F) : Json F → Prop
  | .prim q => q = p
  | .arr items => ContainsItems p items
  | .obj es => ContainsEntries p es
def ContainsItems (p : Prim F) : List (Json F) → Prop
  | [] => False
  | v :: vs => Contains p v ∨ ContainsItems p vs
def ContainsEntries (p : Prim F) : List (Str × Json F) → Prop
  | [] => False
  | (_, v) :: es => Contains p v ∨ ContainsEntries p es
end

/-- The text contains `w` as a word: before it there is nothing, whitespace, a colon or a delimiter, and after it nothing, whitespace or a
delimiter. -/
def WordOf (w text : Str) : Prop :=
  ∃ a b, text = a ++ w ++ b ∧ (∀ c, a.getLast? = some c → isWs c = true ∨ c ∈ [':', ',', '|', '\t']) ∧
    (∀ c, b.head? = some c → isWs c = true ∨ c ∈ [',', '|', '\t'])

/-- A line of the source contains `w` as a word. -/
def WordIn (source : List Str) (w : Str) : Prop := ∃ raw ∈ source, WordOf w raw

end Toon
