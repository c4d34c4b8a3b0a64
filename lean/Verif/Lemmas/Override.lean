import Verif.Lemmas.Origin

/-! Merging a single path into a value. -/

namespace Toon

section
variable {F : Type}

theorem follow_nestedEnd (v : Json F) (ss : List Str) : follow ss (nested ss v) = some v := by
  induction ss with
  | nil => rfl
  | cons s ss ih => simp [follow, nested, lookupKey, ih]

theorem follow_nestedApart (v : Json F) (ss : List Str) : ∀ p : List Str, ¬ p <+: ss → ¬ ss <+: p → follow p (nested ss v) = none := by
  induction ss with
  | nil => intro p _ h; exact absurd List.nil_prefix h
  | cons s ss ih =>
    intro p h1 h2
    cases p with
    | nil => exact absurd List.nil_prefix h1
    | cons k p =>
      rw [List.cons_prefix_cons] at h1 h2
      by_cases hk : s = k
      · subst hk
        simp [follow, nested, lookupKey, ih p (fun h => h1 ⟨rfl, h⟩) (fun h => h2 ⟨rfl, h⟩)]
      · simp [follow, nested, lookupKey, hk]

/-- At the end of the path there is what was merged. -/
theorem follow_set {x : Json F} (hx : NoObject x) (ss : List Str) : ∀ a : Json F, follow ss (deepMerge a (nested ss x)) = some x := by
  induction ss with
  | nil => intro a; rw [nested, merge_noObject (.inr hx)]; rfl
  | cons s ss ih =>
    intro a
    rcases object_or a with ⟨as, rfl⟩ | ha
    · have hl : lookupKey s [(s, nested ss x)] = some (nested ss x) := by simp [lookupKey]
      simp only [nested, deepMerge, follow]
      rw [lookup_merged (by simp) hl]
      cases lookupKey s as with
      | none => simp [follow_nestedEnd]
      | some d => simp [ih]
    · rw [merge_noObject (.inl ha)]; exact follow_nestedEnd x (s :: ss)

/-- Elsewhere there is what was there before. -/
theorem follow_apart (x : Json F) (ss : List Str) : ∀ (p : List Str) (a : Json F), ¬ p <+: ss → ¬ ss <+: p →
    follow p (deepMerge a (nested ss x)) = follow p a := by
  induction ss with
  | nil => intro p a _ h; exact absurd List.nil_prefix h
  | cons s ss ih =>
    intro p a h1 h2
    cases p with
    | nil => exact absurd List.nil_prefix h1
    | cons k p =>
      rcases object_or a with ⟨as, rfl⟩ | ha
      · simp only [nested, deepMerge, follow]
        by_cases hk : s = k
        · subst hk
          rw [List.cons_prefix_cons] at h1 h2
          have h1' : ¬ p <+: ss := fun h => h1 ⟨rfl, h⟩
          have h2' : ¬ ss <+: p := fun h => h2 ⟨rfl, h⟩
          have hl : lookupKey s [(s, nested ss x)] = some (nested ss x) := by simp [lookupKey]
          rw [lookup_merged (by simp) hl]
          cases lookupKey s as with
          | none => simp [follow_nestedApart x ss p h1' h2']
          | some d => simp [ih p d h1' h2']
        · rw [lookup_mergeNone (by simp [lookupKey, hk])]
      · rw [merge_noObject (.inl ha), follow_noObject ha, follow_nestedApart x (s :: ss) _ h1 h2]

/-- On the way to the end of the path there are objects. -/
theorem follow_way (x : Json F) (ss : List Str) : ∀ (p : List Str) (a : Json F), p <+: ss → p ≠ ss →
    ∃ o, follow p (deepMerge a (nested ss x)) = some (.obj o) := by
  induction ss with
  | nil => intro p a h hn; exact absurd (List.prefix_nil.mp h) hn
  | cons s ss ih =>
    intro p a h hn
    have hb : ∀ (ts p : List Str), p <+: ts → p ≠ ts → ∃ o, follow p (nested ts x) = some (.obj o) := by
      intro ts
      induction ts with
      | nil => intro p h hn; exact absurd (List.prefix_nil.mp h) hn
      | cons t ts ih =>
        intro p h hn
        cases p with
        | nil => exact ⟨_, rfl⟩
        | cons k p =>
          rw [List.cons_prefix_cons] at h
          obtain ⟨rfl, h⟩ := h
          obtain ⟨o, ho⟩ := ih p h (fun e => hn (by rw [e]))
          exact ⟨o, by simp [follow, nested, lookupKey, ho]⟩
    rcases object_or a with ⟨as, rfl⟩ | ha
    · cases p with
      | nil => exact ⟨_, rfl⟩
      | cons k p =>
        rw [List.cons_prefix_cons] at h
        obtain ⟨rfl, h⟩ := h
        have hn' : p ≠ ss := fun e => hn (by rw [e])
        have hl : lookupKey k [(k, nested ss x)] = some (nested ss x) := by simp [lookupKey]
        simp only [nested, deepMerge, follow]
        rw [lookup_merged (by simp) hl]
        cases lookupKey k as with
        | none => simpa using hb ss p h hn'
        | some d => simpa using ih p d h hn'
    · rw [merge_noObject (.inl ha)]; exact hb (s :: ss) p h hn

theorem follow_beyond {x y : Json F} (hx : NoObject x) (ss : List Str) : ∀ p : List Str, follow p (nested ss x) = some y → p <+: ss := by
  induction ss with
  | nil =>
    intro p h
    cases p with
    | nil => exact List.nil_prefix
    | cons k p => rw [nested, follow_noObject hx] at h; simp at h
  | cons s ss ih =>
    intro p h
    cases p with
    | nil => exact List.nil_prefix
    | cons k p =>
      by_cases hk : s = k
      · subst hk
        simp only [follow, nested, lookupKey, if_true, Option.bind_some] at h
        rw [List.cons_prefix_cons]
        exact ⟨rfl, ih p h⟩
      · simp [follow, nested, lookupKey, hk] at h

/-- A single path collides with a value exactly if the value has anything there, or something that is no object on the way. -/
theorem collide_path {x : Json F} (hx : NoObject x) (a : Json F) (ss : List Str) : Collide a (nested ss x) ↔ Settles a ss := by
  constructor
  · rintro ⟨p, y, z, h1, h2, h3⟩
    have hp := follow_beyond hx ss p h2
    by_cases he : p = ss
    · subst he; exact .inr ⟨y, h1⟩
    · refine .inl ⟨p, y, hp, h1, fun es hy => h3 ⟨⟨es, hy⟩, ?_⟩⟩
      have key : ∀ (ts p : List Str), p <+: ts → p ≠ ts → follow p (nested ts x) = some z → ∃ o, z = .obj o := by
        intro ts
        induction ts with
        | nil => intro p h hn; exact absurd (List.prefix_nil.mp h) hn
        | cons t ts ih =>
          intro p h hn hz
          cases p with
          | nil => simp only [follow, nested, Option.some.injEq] at hz; exact ⟨_, hz.symm⟩
          | cons k p =>
            rw [List.cons_prefix_cons] at h
            obtain ⟨rfl, h⟩ := h
            simp only [follow, nested, lookupKey, if_true, Option.bind_some] at hz
            exact ih p h (fun e => hn (by rw [e])) hz
      exact key ss p hp he h2
  · intro h
    obtain ⟨p, y, z, h1, h2, h3⟩ := collide_settles (follow_nestedEnd x ss) hx h
    exact ⟨p, z, y, h2, h1, fun ⟨h4, h5⟩ => h3 ⟨h5, h4⟩⟩

end

end Toon
