import Verif.Props.Host
import Verif.Lemmas.ExpandDepth

/-!
# Keeping the last of the entries with equal keys does not make a value deeper
-/

namespace Toon

section
variable {F : Type}

theorem lastEntries_values {es : List (Str × Json F)} {e : Str × Json F} (h : e ∈ lastEntries es) : height e.2 ≤ heightEntries es := by
  have hl : ∀ (k : Str) (es : List (Str × Json F)) (v : Json F), lastValue k es = some v → height v ≤ heightEntries es := by
    intro k es
    induction es with
    | nil => intro v h; simp [lastValue] at h
    | cons e es ih =>
      obtain ⟨k', v'⟩ := e
      intro v h
      simp only [lastValue] at h
      simp only [heightEntries]
      cases he : lastValue k es with
      | some w =>
        rw [he] at h
        simp only [Option.some.injEq] at h
        subst h
        have := ih w he
        omega
      | none =>
        rw [he] at h
        simp only at h
        split at h
        · simp only [Option.some.injEq] at h
          subst h
          omega
        · contradiction
  simp only [lastEntries, List.mem_filterMap, Option.map_eq_some_iff] at h
  obtain ⟨k, _, v, hv, rfl⟩ := h
  exact hl k es v hv

mutual
theorem height_lastWins (v : Json F) : height (lastWins v) ≤ height v := by
  match v with
  | .prim p => simp [lastWins]
  | .arr items => simp only [lastWins, height]; have := heightItems_lastWins items; omega
  | .obj es =>
    simp only [lastWins, height]
    have h1 := heightEntries_lastWins es
    have h2 : heightEntries (lastEntries (lastWinsEntries es)) ≤ heightEntries (lastWinsEntries es) :=
      heightEntries_le.mpr fun e he => lastEntries_values he
    omega
theorem heightItems_lastWins (vs : List (Json F)) : heightItems (lastWinsItems vs) ≤ heightItems vs := by
  match vs with
  | [] => simp [lastWinsItems]
  | v :: vs =>
    simp only [lastWinsItems, heightItems]
    have h1 := height_lastWins v
    have h2 := heightItems_lastWins vs
    omega
theorem heightEntries_lastWins (es : List (Str × Json F)) : heightEntries (lastWinsEntries es) ≤ heightEntries es := by
  match es with
  | [] => simp [lastWinsEntries]
  | (k, v) :: es =>
    simp only [lastWinsEntries, heightEntries]
    have h1 := height_lastWins v
    have h2 := heightEntries_lastWins es
    omega
end

end

end Toon
