import Verif.Model.JsonText
import Verif.Spec.JsonText

/-!
# Assumption on the number printer of `serde_json`

What the crate documents for printing a finite `f64`: a JSON number that reads back to the same
`f64` (with a correctly rounding reader).  `Verif/Lemmas/JsonFloat64.lean` gives an instance for
the concrete model of IEEE binary64.
-/

namespace Toon

/-- Printing a finite number gives a JSON number that reads back to it. -/
class LawfulJsonNum (F : Type) [F64 F] [JsonNum F] : Prop where
  text_grammar : ∀ x : F, F64.isFinite x = true → NumGrammar (JsonNum.text x)
  parse_text : ∀ x : F, F64.isFinite x = true → F64.parse (JsonNum.text x) = some x

end Toon
