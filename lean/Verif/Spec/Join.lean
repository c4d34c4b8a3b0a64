import Verif.Spec.Lines

/-! # Lines that can be put after other lines -/

namespace Toon

/-- The first line that is not blank does not begin with a space. -/
def StartsAtMargin (lines : List Str) : Prop :=
  ∀ a line b, lines = a ++ line :: b → (∀ x ∈ a, BlankLine x) → ¬ BlankLine line → line.head? ≠ some ' '

/-- Every line that is not blank begins with a whole number of units of spaces, then neither a space nor a tab. -/
def WellIndented (indent : Nat) (lines : List Str) : Prop :=
  ∀ line ∈ lines, ¬ BlankLine line →
    ∃ k rest, line = List.replicate (k * indent) ' ' ++ rest ∧ rest.head? ≠ some ' ' ∧ rest.head? ≠ some '\t'

end Toon
