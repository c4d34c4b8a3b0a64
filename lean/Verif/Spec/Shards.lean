import Verif.Spec.Clashes
import Verif.Model.Api

/-!
# Texts of several objects
-/

namespace Toon

variable {F : Type} [F64 F]

/-- Objects, each with the options for writing it. -/
abbrev Parts (F : Type) := List (EncOpts × List (Str × Json F))

/-- Their texts, one after the other. -/
def partsText (parts : Parts F) : Str := joinWith '\n' (parts.map fun p => encode p.1 (.obj p.2))

/-- They are written with the same indentation and with delimiters of the format, and none is empty. -/
def GoodParts (indent : Nat) (parts : Parts F) : Prop :=
  parts ≠ [] ∧ ∀ p ∈ parts, p.1.indent = indent ∧ GoodDelim p.1.delim ∧ Sized (.obj p.2) ∧ p.2 ≠ []

end Toon
