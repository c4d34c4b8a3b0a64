import Verif.Model.Basic

/-!
# Assumptions on floating-point numbers

The theorems hold for every type of numbers with these laws.  They are what Rust's standard
library documents for `f64` (`Display` prints the shortest decimal that parses back to the same
value, without exponent).  `Verif/Lemmas/Float64.lean` proves them for the concrete model of
IEEE binary64 in `Verif/Model/Float64.lean`.
-/

namespace Toon

/-- Plain decimal notation `-?(0|[1-9][0-9]*)(\.[0-9]+)?`. -/
def PlainDecimal (s : Str) : Prop :=
  ∃ sign intPart frac : Str,
    s = sign ++ intPart ++ frac ∧
    (sign = [] ∨ sign = ['-']) ∧
    intPart ≠ [] ∧ (∀ c ∈ intPart, c.isDigit = true) ∧
    (intPart = ['0'] ∨ intPart.head? ≠ some '0') ∧
    (frac = [] ∨ ∃ ds : Str, frac = '.' :: ds ∧ ds ≠ [] ∧ ∀ c ∈ ds, c.isDigit = true)

/-- The laws of `f64` used by the proofs. -/
class LawfulF64 (F : Type) [F64 F] : Prop where
  zero_isFinite : F64.isFinite (F64.zero : F) = true
  zero_isZero : F64.isZero (F64.zero : F) = true
  zero_isNeg : F64.isNeg (F64.zero : F) = false
  isZero_isFinite : ∀ x : F, F64.isZero x = true → F64.isFinite x = true
  /-- `0.0` and `-0.0` are the only zeros. -/
  zero_unique : ∀ x : F, F64.isZero x = true → F64.isNeg x = false → x = F64.zero
  parse_zero : F64.parse ['0'] = some (F64.zero : F)
  /-- `Display` of a finite non-zero number parses back to the same number. -/
  parse_display : ∀ x : F, F64.isFinite x = true → F64.isZero x = false →
    F64.parse (F64.display x) = some x
  /-- `Display` of a finite non-zero number is plain decimal notation. -/
  display_plain : ∀ x : F, F64.isFinite x = true → F64.isZero x = false →
    PlainDecimal (F64.display x)

end Toon
