import Verif.Lemmas.Ident
import Verif.Lemmas.Canon
import Verif.Lemmas.ExpandBasic

/-! Dotted keys: joining and splitting. -/

namespace Toon

section
variable {F : Type}

theorem identifier_nodot {s : Str} (h : isIdentifierSegment s = true) : '.' ∉ s := by
  cases s with
  | nil => simp
  | cons c r =>
    simp only [isIdentifierSegment, Bool.and_eq_true, List.all_eq_true, isIdStart] at h
    intro hm
    rcases List.mem_cons.mp hm with hm | hm
    · subst hm; exact absurd h.1 (by decide)
    · exact absurd (h.2 _ hm) (by decide)

theorem identifier_ne {s : Str} (h : isIdentifierSegment s = true) : s ≠ [] := by
  intro he; subst he; simp [isIdentifierSegment] at h

theorem all_nodot {segs : List Str} (h : ∀ s ∈ segs, isIdentifierSegment s = true) : ∀ s ∈ segs, '.' ∉ s :=
  fun s hs => identifier_nodot (h s hs)

theorem sep_mem_joinWith {c : Char} {a b : Str} {ws : List Str} : c ∈ joinWith c (a :: b :: ws) := by
  rw [joinWith_cons_ne]; simp

/-- Joined identifiers form an unquoted key. -/
theorem joined_valid {segs : List Str} (hne : segs ≠ []) (h : ∀ s ∈ segs, isIdentifierSegment s = true) :
    isValidUnquotedKey (joinWith '.' segs) = true := by
  induction segs with
  | nil => exact absurd rfl hne
  | cons s ss ih =>
    have hs := h s (by simp)
    cases ss with
    | nil => exact identifier_valid hs
    | cons t ts =>
      have := ih (by simp) (fun x hx => h x (by simp [hx]))
      rw [joinWith_cons_ne]
      generalize joinWith '.' (t :: ts) = rest at *
      cases s with
      | nil => simp [isIdentifierSegment] at hs
      | cons c r =>
        simp only [isIdentifierSegment, Bool.and_eq_true, List.all_eq_true] at hs
        cases rest with
        | nil => simp [isValidUnquotedKey] at this
        | cons d rest =>
          simp only [isValidUnquotedKey, Bool.and_eq_true, List.all_eq_true] at this
          simp only [List.cons_append, isValidUnquotedKey, Bool.and_eq_true, List.all_eq_true, List.mem_append,
            List.mem_cons]
          refine ⟨hs.1, ?_⟩
          rintro ch (hc | rfl | rfl | hc)
          · have := hs.2 ch hc; simp only [Bool.or_eq_true] at this ⊢; exact Or.inl this
          · decide
          · have := this.1
            simp only [isIdStart, Bool.or_eq_true, beq_iff_eq] at this ⊢
            rcases this with this | this
            · exact Or.inl (Or.inl (by simp [Char.isAlphanum, this]))
            · exact Or.inl (Or.inr this)
          · exact this.2 ch hc

theorem expandSegments_some {k : Str} {quoted segs : List Str} (h : expandSegments k quoted = some segs) :
    2 ≤ segs.length ∧ (∀ s ∈ segs, isIdentifierSegment s = true) ∧ k = joinWith '.' segs ∧ k ∉ quoted := by
  unfold expandSegments at h
  split at h
  · rename_i hc
    simp only at h
    split at h
    · rename_i ha
      simp only [Option.some.injEq] at h
      subst h
      have hc : '.' ∈ k ∧ k ∉ quoted := by simpa using hc
      have hj := joinWith_splitOn '.' k
      refine ⟨?_, by simpa using ha, hj.symm, hc.2⟩
      rcases hs : splitOn '.' k with _ | ⟨a, _ | ⟨b, r⟩⟩
      · rw [hs] at hj; simp [joinWith] at hj; subst hj; simp at hc
      · rw [hs] at hj ha
        simp [joinWith] at hj
        subst hj
        simp at ha
        exact absurd hc.1 (identifier_nodot ha)
      · simp
    · simp at h
  · simp at h

theorem expandSegments_joined {segs quoted : List Str} (hl : 2 ≤ segs.length)
    (h : ∀ s ∈ segs, isIdentifierSegment s = true) (hq : joinWith '.' segs ∉ quoted) :
    expandSegments (joinWith '.' segs) quoted = some segs := by
  unfold expandSegments
  have hc : '.' ∈ joinWith '.' segs := by
    match segs, hl with
    | a :: b :: r, _ => exact sep_mem_joinWith
  rw [if_pos (by simpa using ⟨hc, hq⟩)]
  have hne : segs ≠ [] := by intro he; subst he; simp at hl
  simp only [splitOn_joinWith hne (all_nodot h)]
  rw [if_pos (by simpa using h)]

theorem expandSegments_iff {k : Str} {quoted : List Str} :
    expandSegments k quoted = none ↔ ¬ DottedPath k ∨ k ∈ quoted := by
  constructor
  · intro h
    by_cases hq : k ∈ quoted
    · exact Or.inr hq
    · left
      rintro ⟨segs, h1, h2, h3⟩
      subst h3
      rw [dotted_eq] at h hq
      rw [expandSegments_joined h1 (fun s hs => by rw [← identifier_eq]; exact h2 s hs) hq] at h
      simp at h
  · intro h
    cases hs : expandSegments k quoted with
    | none => rfl
    | some segs =>
      obtain ⟨h1, h2, h3, h4⟩ := expandSegments_some hs
      rcases h with h | h
      · exact absurd ⟨segs, h1, fun s hs => by rw [identifier_eq]; exact h2 s hs, by rw [dotted_eq]; exact h3⟩ h
      · exact absurd h h4

instance (k : Str) : Decidable (DottedPath k) :=
  decidable_of_iff (expandSegments k [] ≠ none) (by
    rw [Ne, expandSegments_iff]
    simp)

end

end Toon
