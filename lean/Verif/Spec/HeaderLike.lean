import Verif.Model.Basic

/-!
# Texts that look like an array header

The characterisation of the strings that are not read back when they are written as the value of
an unquoted key.  Stated without any function of the model.
-/

namespace Toon

/-- The text before and after the first occurrence of a character. -/
def cut (c : Char) : Str → Option (Str × Str)
  | [] => none
  | x :: xs => if x = c then some ([], xs) else (cut c xs).map fun (a, b) => (x :: a, b)

/-- The number written by a digit string, most significant digit first. -/
def decimalValue : Str → Nat → Nat
  | [], acc => acc
  | c :: cs, acc => decimalValue cs (acc * 10 + (c.toNat - '0'.toNat))

/-- At least one decimal digit and nothing else, with a value that fits in 64 bits. -/
def isNumber64 (s : Str) : Bool := !s.isEmpty && s.all Char.isDigit && decide (decimalValue s 0 < 2 ^ 64)

/-- A bracket content that declares an array length: an optional `+`, digits (a 64-bit number), an
optional final `|`. -/
def isLengthText (seg : Str) : Bool :=
  let body := if seg.getLast? = some '|' then seg.dropLast else seg
  match body with
  | '+' :: ds => isNumber64 ds
  | ds => isNumber64 ds

/-- The text after the bracket reaches a colon, outside a brace group if one opens first. -/
def reachesColon (b : Str) : Bool :=
  match cut '{' b with
  | none => b.contains ':'
  | some (p, q) =>
    if p.contains ':' then true
    else
      match cut '}' q with
      | none => q.contains ':'
      | some (_, r) => r.contains ':'

/-- The text contains `[`*length*`]` (at its first `[` and the first `]` after it), followed by
something that reaches a colon: `"[3]: x"`, `"see [12] of: y"`, `"[1|]{a}:"`. -/
def headerLike (s : Str) : Bool :=
  match cut '[' s with
  | none => false
  | some (_, a) =>
    match cut ']' a with
    | none => false
    | some (seg, b) => isLengthText seg && reachesColon b

end Toon
