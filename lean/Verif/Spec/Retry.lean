import Verif.Model.Basic

/-!
# Errors that only strict mode reports
-/

namespace Toon

/-- Tabs and odd indentation, wrong counts, surplus elements, blank lines inside arrays, and conflicts of path expansion. -/
def strictOnly : Err → Bool
  | .tabsInIndent _ => true
  | .badIndent _ _ _ => true
  | .countMismatch _ _ _ => true
  | .extraItems _ => true
  | .extraRows _ => true
  | .blankLine _ _ => true
  | .pathConflict _ => true
  | _ => false

end Toon
