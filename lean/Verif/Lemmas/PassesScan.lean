import Verif.Lemmas.PassesCharge
import Verif.Spec.LineCopies

/-!
What scanning goes over.
-/

namespace Toon

theorem lookScan_steps (indent : Nat) (strict : Bool) : ∀ (source : List Str) (num : Nat),
    (lookScan indent strict source num).steps ≤ 6 * charCount source ∧
    ∀ out, (lookScan indent strict source num).result = .ok out →
      2 * charCount source ≤ (lookScan indent strict source num).steps ∧ (out.1.map fun l => l.content.length).sum ≤ charCount source := by
  intro source
  induction source with
  | nil =>
    intro num
    refine ⟨Nat.zero_le _, fun out h => ?_⟩
    rw [lookScan, Run.result_pure] at h
    cases h
    exact ⟨Nat.zero_le _, Nat.zero_le _⟩
  | cons raw rest ih =>
    intro num
    obtain ⟨ih1, ih2⟩ := ih (num + 1)
    have hc : charCount (raw :: rest) = raw.length + charCount rest := rfl
    have h1 := linePasses_le raw strict
    have h2 : 2 * raw.length ≤ linePasses raw strict := by rw [linePasses]; omega
    rw [lookScan]
    cases hp : parseLine raw (num + 1) indent strict with
    | error e =>
      refine ⟨?_, fun out h => by simp [Run.spend, liftErr] at h⟩
      rw [Run.steps_bind]
      simp only [Run.spend, liftErr]
      omega
    | ok sc =>
      rw [Run.steps_bind, Run.result_bind]
      simp only [Run.spend, liftErr]
      rw [Run.steps_bind, Run.result_bind]
      cases hr : (lookScan indent strict rest (num + 1)).result with
      | error e => exact ⟨by simp only; omega, fun out h => by simp at h⟩
      | ok lb =>
        obtain ⟨ls, bs⟩ := lb
        obtain ⟨ih3, ih4⟩ := ih2 _ hr
        simp only at ih4 ⊢
        cases sc with
        | blank =>
          refine ⟨by simp only [Run.steps_pure]; omega, fun out h => ?_⟩
          simp only [Run.result_pure, Except.ok.injEq] at h
          subst h
          simp only [Run.steps_pure]
          exact ⟨by omega, by omega⟩
        | line l =>
          refine ⟨by simp only [Run.steps_pure]; omega, fun out h => ?_⟩
          simp only [Run.result_pure, Except.ok.injEq] at h
          subst h
          simp only [Run.steps_pure, List.map_cons, List.sum_cons]
          have hl : l.content.length ≤ raw.length := by
            rw [parseLine] at hp
            simp only at hp
            have key : ∀ {d : Nat}, Scanned.line l = .line ⟨d, raw.drop (raw.takeWhile (· == ' ')).length, num + 1⟩ → l.content.length ≤ raw.length := by
              intro d he
              cases he
              simp only [List.length_drop]; omega
            split at hp
            · simp at hp
            · split at hp
              · split at hp
                · simp at hp
                · split at hp
                  · split at hp
                    · simp at hp
                    · exact key (Except.ok.inj hp).symm
                  · split at hp
                    · simp at hp
                    · exact key (Except.ok.inj hp).symm
              · exact key (Except.ok.inj hp).symm
          exact ⟨by omega, by omega⟩

theorem charCount_splitOn (c : Char) : ∀ text : Str, charCount (splitOn c text) ≤ text.length := by
  intro text
  induction text with
  | nil => exact Nat.le_refl _
  | cons x xs ih =>
    rw [splitOn]
    split
    · have : charCount ([] :: splitOn c xs) = charCount (splitOn c xs) := Nat.zero_add _
      rw [this, List.length_cons]; omega
    · cases h : splitOn c xs with
      | nil => rw [h] at ih; simp [charCount]
      | cons p ps =>
        rw [h] at ih
        simp only [charCount, List.map_cons, List.sum_cons, List.length_cons] at ih ⊢
        omega

end Toon
