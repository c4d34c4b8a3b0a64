import Verif.Model.Basic

/-! Decidable equality, used by the concrete examples. -/

namespace Toon

instance {ε α : Type} [DecidableEq ε] [DecidableEq α] : DecidableEq (Except ε α)
  | .error a, .error b => if h : a = b then isTrue (by rw [h]) else isFalse (by simpa using h)
  | .ok a, .ok b => if h : a = b then isTrue (by rw [h]) else isFalse (by simpa using h)
  | .error _, .ok _ => isFalse (by simp)
  | .ok _, .error _ => isFalse (by simp)

section
variable {F : Type} [DecidableEq F]

mutual
def Json.beq : Json F → Json F → Bool
  | .prim p, .prim q => decide (p = q)
  | .arr a, .arr b => Json.beqItems a b
  | .obj a, .obj b => Json.beqEntries a b
  | _, _ => false
def Json.beqItems : List (Json F) → List (Json F) → Bool
  | [], [] => true
  | a :: as, b :: bs => Json.beq a b && Json.beqItems as bs
  | _, _ => false
def Json.beqEntries : List (Str × Json F) → List (Str × Json F) → Bool
  | [], [] => true
  | (k, a) :: as, (l, b) :: bs => decide (k = l) && (Json.beq a b && Json.beqEntries as bs)
  | _, _ => false
end

mutual
theorem Json.beq_iff (a b : Json F) : Json.beq a b = true ↔ a = b := by
  match a, b with
  | .prim p, .prim q => simp [Json.beq]
  | .arr a, .arr b => simp [Json.beq, Json.beqItems_iff a b]
  | .obj a, .obj b => simp [Json.beq, Json.beqEntries_iff a b]
  | .prim _, .arr _ => simp [Json.beq]
  | .prim _, .obj _ => simp [Json.beq]
  | .arr _, .prim _ => simp [Json.beq]
  | .arr _, .obj _ => simp [Json.beq]
  | .obj _, .prim _ => simp [Json.beq]
  | .obj _, .arr _ => simp [Json.beq]
theorem Json.beqItems_iff (a b : List (Json F)) : Json.beqItems a b = true ↔ a = b := by
  match a, b with
  | [], [] => simp [Json.beqItems]
  | a :: as, b :: bs => simp [Json.beqItems, Json.beq_iff a b, Json.beqItems_iff as bs]
  | [], _ :: _ => simp [Json.beqItems]
  | _ :: _, [] => simp [Json.beqItems]
theorem Json.beqEntries_iff (a b : List (Str × Json F)) : Json.beqEntries a b = true ↔ a = b := by
  match a, b with
  | [], [] => simp [Json.beqEntries]
  | (k, a) :: as, (l, b) :: bs =>
    simp [Json.beqEntries, Json.beq_iff a b, Json.beqEntries_iff as bs, and_assoc]
  | [], _ :: _ => simp [Json.beqEntries]
  | _ :: _, [] => simp [Json.beqEntries]
end

instance : DecidableEq (Json F) := fun a b => decidable_of_iff _ (Json.beq_iff a b)

end

end Toon
