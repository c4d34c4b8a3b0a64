import Verif.Model.Float64
import Verif.Model.Basic

/-!
# Casts between integers and `f64`
-/

namespace Toon
namespace B64

/-- `z as f64` (Rust reference, type cast expressions: the nearest number, ties to even). -/
def ofInt (z : Int) : B64 := ofUnits (z < 0) (z.natAbs * 2 ^ 1074) 1

/-- `x as usize` where `usize` has `width` bits (Rust reference, type cast expressions: NaN becomes 0, the fraction is
dropped, values out of range saturate).  `/repo/src/wasm.rs:181`, `:200`, `:231`. -/
def toUsize (width : Nat) (x : B64) : Nat :=
  if x.neg then 0
  else if x.isFin then min (x.units / 2 ^ 1074) (2 ^ width - 1)
  else if x.mant.val = 0 then 2 ^ width - 1
  else 0

end B64

/-- `/repo/src/lib.rs:119-124` `From<i64> for JsonValue` (here for every integer). -/
def fromInt (z : Int) : Json B64 := .prim (.num (B64.ofInt z))

end Toon
