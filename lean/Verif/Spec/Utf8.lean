import Verif.Model.Basic

/-! # UTF-8 text and character boundaries, with Lean's own strings -/

namespace Toon

/-- The bytes of a text: those of Lean's string type, whose values are UTF-8 byte arrays. -/
noncomputable def utf8Bytes (s : Str) : List UInt8 := (String.ofList s).toByteArray.data.toList

/-- `str::is_char_boundary` (Rust std): the text can be cut there without cutting a character. -/
def CharBoundary (s : Str) (i : Nat) : Prop := ∃ a b : Str, s = a ++ b ∧ (utf8Bytes a).length = i

end Toon
