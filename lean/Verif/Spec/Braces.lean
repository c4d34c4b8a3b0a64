import Verif.Spec.Values

/-!
# Tables with a closing brace in a column name
-/

namespace Toon

variable {F : Type}

mutual
/-- Some array that is written as a table has a column whose name contains `}`.  `tbl` says whether an
array at this place may be written as a table. -/
def HasBraceTable (tbl : Bool) : Json F → Prop
  | .prim _ => False
  | .arr items =>
      (tbl = true ∧ ∃ cols, IsTable items cols ∧ ∃ c ∈ cols, '}' ∈ c) ∨
      (¬(tbl = true ∧ ∃ cols, IsTable items cols) ∧ HasBraceTableItems items)
  | .obj es => HasBraceTableEntries es
def HasBraceTableItems : List (Json F) → Prop
  | [] => False
  | v :: vs => HasBraceTable false v ∨ HasBraceTableItems vs
def HasBraceTableEntries : List (Str × Json F) → Prop
  | [] => False
  | (_, v) :: es => HasBraceTable true v ∨ HasBraceTableEntries es
end

mutual
/-- The value avoids the other two cases in which written text is not read back: an array of more than
100 000 000 elements, and a header-like string directly under an unquoted key (the cells of
a table are exempt). -/
def WritableButBraces (tbl : Bool) : Json F → Prop
  | .prim _ => True
  | .arr items => items.length ≤ 100000000 ∧
      ((tbl = true ∧ ∃ cols, IsTable items cols) ∨ WritableButBracesItems items)
  | .obj es => WritableButBracesEntries es
def WritableButBracesItems : List (Json F) → Prop
  | [] => True
  | v :: vs => WritableButBraces false v ∧ WritableButBracesItems vs
def WritableButBracesEntries : List (Str × Json F) → Prop
  | [] => True
  | (k, v) :: es =>
    (∀ s, v = .prim (.str s) → bareKey k = true → headerLike s = false) ∧
    WritableButBraces true v ∧ WritableButBracesEntries es
end

end Toon
