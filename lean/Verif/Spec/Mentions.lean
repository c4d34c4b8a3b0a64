import Verif.Spec.Layout

/-!
# The strings of a value

Specification for C112.
-/

namespace Toon

variable {F : Type}

mutual
/-- The string is the value's, one of its keys, or occurs so in a part of it. -/
def Mentions (s : Str) : Json F → Prop
  | .prim p => p = .str s
  | .arr items => MentionsItems s items
  | .obj es => MentionsEntries s es
def MentionsItems (s : Str) : List (Json F) → Prop
  | [] => False
  | v :: vs => Mentions s v ∨ MentionsItems s vs
def MentionsEntries (s : Str) : List (Str × Json F) → Prop
  | [] => False
  | (k, v) :: es => k = s ∨ Mentions s v ∨ MentionsEntries s es
end

/-- The text with `\\`, `\"`, `\n`, `\r` and `\t` for the five characters that are escaped between quotes; a text without them is itself. -/
def asWritten (w : Str) : Str := w.flatMap escapedChar

end Toon
