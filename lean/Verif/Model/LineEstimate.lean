import Verif.Model.Encoder

/-!
# What `/repo/src/encode/encoders.rs` reserves

How many lines `encode_json_value` reserves room for.  (Reservations of characters are not modelled here: those of single lines are
exactly the sums of the parts that are put together.)
-/

namespace Toon

section
variable {F : Type}

mutual
/-- `/repo/src/encode/encoders.rs:622-639` `estimate_line_count`.  Sums are of natural numbers. -/
def estimateLineCount : Json F → Nat
  | .prim _ => 1
  | .arr items => 1 + estimateLineItems items
  | .obj es => max (estimateLineEntries es) 1
/-- The sum at line 627. -/
def estimateLineItems : List (Json F) → Nat
  | [] => 0
  | v :: vs => estimateLineCount v + estimateLineItems vs
/-- The sum at lines 631-634. -/
def estimateLineEntries : List (Str × Json F) → Nat
  | [] => 0
  | (_, v) :: es => estimateLineCount v + estimateLineEntries es
end

/-- `/repo/src/encode/encoders.rs:17-18`, called with the normalized value (`/repo/src/encode/mod.rs`, `encode_lines`): how many
lines there is room for before the vector of lines has to grow. -/
def reservedLines [F64 F] (v : Json F) : Nat := estimateLineCount (normalize v)

end

end Toon
