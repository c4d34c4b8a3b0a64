import Verif.Spec.Lines

/-!
# The byte order mark

Some editors begin a file with the character U+FEFF.
-/

namespace Toon

/-- U+FEFF. -/
def byteOrderMark : Char := Char.ofNat 0xFEFF

/-- The lines after the first are blank or begin with one unit of indentation. -/
def RestIndented (indent : Nat) (source : List Str) : Prop :=
  ∀ raw ∈ source.tail, BlankLine raw ∨ ∃ s, raw = List.replicate indent ' ' ++ s

end Toon
