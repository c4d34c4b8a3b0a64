import Verif.Model.Float64
import Verif.Spec.Tokens

/-!
# Reading and writing numbers

A binary64 number is a sign and a whole number of units of `2^-1074` (`B64.units`); a decimal text is a sign, a whole
number and a power of ten.  Quotients `n / d` of whole numbers stand for the magnitudes in units.
-/

namespace Toon

/-- How far two whole numbers are apart. -/
def apart (a b : Nat) : Nat := (a - b) + (b - a)

/-- The middle between the largest finite number, `(2^53 - 1) * 2^2045` units, and the next power of two. -/
@[irreducible] def overflowUnits : Nat := (2 ^ 54 - 1) * 2 ^ 2044

/-- `x` is the number nearest to `n / d` units with the given sign: no finite number is nearer, and another one that is
equally near only if the significand of `x` is even.  From `overflowUnits` on it is infinite. -/
def Rounded (neg : Bool) (n d : Nat) (x : B64) : Prop :=
  x.neg = neg ∧
  ((overflowUnits * d ≤ n ∧ x = B64.infB neg) ∨
   (n < overflowUnits * d ∧ x.isFin = true ∧
    ∀ y : B64, y.isFin = true → apart (x.units * d) n ≤ apart (y.units * d) n ∧
      (apart (x.units * d) n = apart (y.units * d) n → y.units ≠ x.units → x.mant.val % 2 = 0)))

/-- `D * 10^p`, rounded. -/
def RoundedDecimal (neg : Bool) (D : Nat) (p : Int) (x : B64) : Prop :=
  Rounded neg (D * 10 ^ p.toNat * 2 ^ 1074) (10 ^ (-p).toNat) x

/-- The number `-?(0|[1-9][0-9]*)(\.[0-9]+)?([eE][+-]?[0-9]+)?` is `D * 10^p` with the given sign: `D` is written by the
digits before and after the point, and `p` is the exponent less the number of digits after the point. -/
def DecimalText (s : Str) (neg : Bool) (D : Nat) (p : Int) : Prop :=
  ∃ int frac exp fs : Str, ∃ e : Int, s = (if neg then ['-'] else []) ++ (int ++ (frac ++ exp)) ∧
    Digits int ∧ (int = ['0'] ∨ int.head? ≠ some '0') ∧
    ((frac = [] ∧ fs = []) ∨ (frac = '.' :: fs ∧ Digits fs)) ∧
    ((exp = [] ∧ e = 0) ∨
      ∃ c sg ds, exp = c :: (sg ++ ds) ∧ (c = 'e' ∨ c = 'E') ∧ Digits ds ∧
        (((sg = [] ∨ sg = ['+']) ∧ e = digitsVal ds) ∨ (sg = ['-'] ∧ e = -digitsVal ds))) ∧
    D = digitsVal (int ++ fs) ∧ p = e - fs.length

/-- How far `D * 10^p` is from the magnitude of `x`, in units of `2^-1074 / 10^k`, where `k` is the number of digits after
the point (none if `p` is not negative). -/
def gap (x : B64) (D : Nat) (p : Int) : Nat := apart (D * 10 ^ p.toNat * 2 ^ 1074) (x.units * 10 ^ (-p).toNat)

/-- `D * 10^p` is the shortest decimal that is rounded to `x`: none has fewer digits, and of those with equally many
digits none is nearer to `x`. -/
def ShortestDecimal (x : B64) (D : Nat) (p : Int) : Prop :=
  RoundedDecimal x.neg D p x ∧
  ∀ (D' : Nat) (p' : Int), RoundedDecimal x.neg D' p' x →
    (∀ m, D' < 10 ^ m → D < 10 ^ m) ∧
    ((∀ m, D < 10 ^ m → D' < 10 ^ m) → gap x D p * 10 ^ (-p').toNat ≤ gap x D' p' * 10 ^ (-p).toNat)

end Toon
