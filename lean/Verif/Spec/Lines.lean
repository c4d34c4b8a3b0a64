import Verif.Model.Str

/-! # Blank lines -/

namespace Toon

/-- The line is blank: only whitespace. -/
def BlankLine (line : Str) : Prop := ∀ c ∈ line, isWs c = true

instance (line : Str) : Decidable (BlankLine line) := by unfold BlankLine; exact inferInstance

/-- The lines that are not blank. -/
def deleteBlank (lines : List Str) : List Str := lines.filter fun line => !decide (BlankLine line)

/-- A line that strict decoding accepts: `depth` times `indent` spaces, then something that does not
start with whitespace. -/
def IndentedLine (indent depth : Nat) (line : Str) : Prop :=
  ∃ c rest, isWs c = false ∧ line = List.replicate (indent * depth) ' ' ++ c :: rest

end Toon
