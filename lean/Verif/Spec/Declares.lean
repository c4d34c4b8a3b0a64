import Verif.Spec.HeaderLike

/-!
# Declared array lengths in a text line
-/

namespace Toon

/-- The line contains a bracket `[n]`, `[n|]` or `[n<tab>]` with the decimal number `n` (leading zeros
and a plus sign allowed). -/
def Declares (line : Str) (n : Nat) : Prop :=
  ∃ before plus digits mark after : Str,
    line = before ++ '[' :: (plus ++ digits ++ mark) ++ ']' :: after ∧
    (plus = [] ∨ plus = ['+']) ∧ (mark = [] ∨ mark = ['|'] ∨ mark = ['\t']) ∧
    digits ≠ [] ∧ (∀ c ∈ digits, '0' ≤ c ∧ c ≤ '9') ∧ decimalValue digits 0 = n

end Toon
