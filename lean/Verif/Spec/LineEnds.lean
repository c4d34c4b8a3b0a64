import Verif.Spec.Lines
import Verif.Spec.Values

/-! # White space at the end of lines -/

namespace Toon

/-- White space (Unicode `White_Space`) without tabs. -/
def TrailingSpace (w : Str) : Prop := ∀ c ∈ w, isWs c = true ∧ c ≠ '\t'

instance (w : Str) : Decidable (TrailingSpace w) := by unfold TrailingSpace; exact inferInstance

/-- The line is a hyphen after any number of spaces. -/
def BareHyphen (line : Str) : Prop := ∃ n, line = List.replicate n ' ' ++ ['-']

/-- The text with a carriage return before every newline. -/
def crlf (text : Str) : Str := text.flatMap fun c => if c = '\n' then ['\r', '\n'] else [c]

variable {F : Type}

mutual
/-- No array inside the value has an empty object as an element. -/
def NoEmptyElements : Json F → Prop
  | .prim _ => True
  | .arr items => NoEmptyElementsItems items
  | .obj es => NoEmptyElementsEntries es
def NoEmptyElementsItems : List (Json F) → Prop
  | [] => True
  | v :: vs => v ≠ .obj [] ∧ NoEmptyElements v ∧ NoEmptyElementsItems vs
def NoEmptyElementsEntries : List (Str × Json F) → Prop
  | [] => True
  | (_, v) :: es => NoEmptyElements v ∧ NoEmptyElementsEntries es
end

end Toon
