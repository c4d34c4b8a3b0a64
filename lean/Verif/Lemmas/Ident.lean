import Verif.Spec.Paths
import Verif.Model.Encoder

/-! Identifiers and joined keys, in the specification and in the model. -/

namespace Toon

theorem identifier_eq (s : Str) : identifier s = isIdentifierSegment s := by
  cases s <;> rfl

theorem dotted_eq (segs : List Str) : dotted segs = joinWith '.' segs := by
  induction segs with
  | nil => rfl
  | cons s ss ih =>
    cases ss with
    | nil => rfl
    | cons t ts => simp only [dotted, joinWith] at ih ⊢; rw [ih]

end Toon
