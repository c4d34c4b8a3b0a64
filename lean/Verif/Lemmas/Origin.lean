import Verif.Lemmas.Clashes
import Verif.Spec.Origin

/-! What is at a place of a merged value. -/

namespace Toon

section
variable {F : Type}

theorem blocks_cons {k : Str} {p : List Str} {es : List (Str × Json F)} :
    Blocks (.obj es) (k :: p) ↔ ∃ v, lookupKey k es = some v ∧ Blocks v p := by
  constructor
  · rintro ⟨way, x, h1, h2, h3⟩
    cases way with
    | nil => simp only [follow, Option.some.injEq] at h2; exact absurd h2.symm (h3 es)
    | cons s way =>
      rw [List.cons_prefix_cons] at h1
      obtain ⟨rfl, h1⟩ := h1
      simp only [follow] at h2
      cases hv : lookupKey s es with
      | none => rw [hv] at h2; simp at h2
      | some v => rw [hv] at h2; exact ⟨v, rfl, way, x, h1, h2, h3⟩
  · rintro ⟨v, hv, way, x, h1, h2, h3⟩
    exact ⟨k :: way, x, by simpa using h1, by simp only [follow, hv, Option.bind_some]; exact h2, h3⟩

theorem settles_cons {k : Str} {p : List Str} {es : List (Str × Json F)} :
    Settles (.obj es) (k :: p) ↔ ∃ v, lookupKey k es = some v ∧ Settles v p := by
  unfold Settles
  rw [blocks_cons]
  simp only [follow]
  cases lookupKey k es <;> simp

theorem blocks_noObject {v : Json F} (h : NoObject v) (p : List Str) : Blocks v p :=
  ⟨[], v, List.nil_prefix, rfl, h⟩

theorem follow_noObject {v : Json F} (h : NoObject v) (k : Str) (p : List Str) : follow (k :: p) v = none := by
  match v with
  | .prim _ => rfl
  | .arr _ => rfl
  | .obj es => exact absurd rfl (h es)

theorem object_or (v : Json F) : (∃ es, v = .obj es) ∨ NoObject v := by
  match v with
  | .prim p => exact .inr (noObject_prim p)
  | .arr xs => exact .inr (noObject_arr xs)
  | .obj es => exact .inl ⟨es, rfl⟩

theorem merge_noObject {a b : Json F} (h : NoObject a ∨ NoObject b) : deepMerge a b = b := by
  match a, b with
  | .obj as, .obj bs => exact h.elim (fun h => absurd rfl (h as)) fun h => absurd rfl (h bs)
  | .prim _, b => cases b <;> simp [deepMerge]
  | .arr _, b => cases b <;> simp [deepMerge]
  | .obj _, .prim _ => simp [deepMerge]
  | .obj _, .arr _ => simp [deepMerge]

/-- What is no object in a merged value is the second's, or the first's where the second says nothing. -/
theorem follow_merge (p : List Str) : ∀ (a b x : Json F), DistinctKeys b → NoObject x →
    (follow p (deepMerge a b) = some x ↔ follow p b = some x ∨ (follow p a = some x ∧ ¬ Settles b p)) := by
  induction p with
  | nil =>
    intro a b x _ hx
    have hs : Settles b [] := .inr ⟨b, rfl⟩
    simp only [follow, Option.some.injEq, hs, not_true, and_false, or_false]
    rcases object_or a with ⟨as, rfl⟩ | ha
    · rcases object_or b with ⟨bs, rfl⟩ | hb
      · simp only [deepMerge]
        exact ⟨fun h => absurd h.symm (hx _), fun h => absurd h.symm (hx _)⟩
      · rw [merge_noObject (.inr hb)]
    · rw [merge_noObject (.inl ha)]
  | cons k p ih =>
    intro a b x hd hx
    rcases object_or b with ⟨bs, rfl⟩ | hb
    · rcases object_or a with ⟨as, rfl⟩ | ha
      · simp only [DistinctKeys] at hd
        rw [settles_cons]
        simp only [deepMerge, follow]
        cases hl : lookupKey k bs with
        | none => rw [lookup_mergeNone hl]; simp
        | some e =>
          rw [lookup_merged hd.1 hl]
          cases hl' : lookupKey k as with
          | none => simp
          | some d =>
            simp only [Option.bind_some, Option.some.injEq, exists_eq_left']
            exact ih d e x (distinctEntries_iff.mp hd.2 _ (lookup_mem hl)) hx
      · rw [merge_noObject (.inl ha), follow_noObject ha]; simp
    · have hs : Settles b (k :: p) := .inl (blocks_noObject hb _)
      rw [merge_noObject (.inr hb)]
      simp [hs]

/-- Where there is an object in a merged value. -/
theorem follow_mergeObject (p : List Str) : ∀ (a b : Json F), DistinctKeys b →
    ((∃ es, follow p (deepMerge a b) = some (.obj es)) ↔
      (∃ es, follow p b = some (.obj es)) ∨ ((∃ es, follow p a = some (.obj es)) ∧ ¬ Blocks b p)) := by
  induction p with
  | nil =>
    intro a b _
    simp only [follow, Option.some.injEq]
    rcases object_or b with ⟨bs, rfl⟩ | hb
    · rcases object_or a with ⟨as, rfl⟩ | ha
      · simp [deepMerge]
      · rw [merge_noObject (.inl ha)]; simp
    · have hs : Blocks b [] := blocks_noObject hb _
      rw [merge_noObject (.inr hb)]
      simp [hs]
  | cons k p ih =>
    intro a b hd
    rcases object_or b with ⟨bs, rfl⟩ | hb
    · rcases object_or a with ⟨as, rfl⟩ | ha
      · simp only [DistinctKeys] at hd
        rw [blocks_cons]
        simp only [deepMerge, follow]
        cases hl : lookupKey k bs with
        | none => rw [lookup_mergeNone hl]; simp
        | some e =>
          rw [lookup_merged hd.1 hl]
          cases hl' : lookupKey k as with
          | none => simp
          | some d =>
            simp only [Option.bind_some, Option.some.injEq, exists_eq_left']
            exact ih d e (distinctEntries_iff.mp hd.2 _ (lookup_mem hl))
      · rw [merge_noObject (.inl ha), follow_noObject ha]; simp
    · have hs : Blocks b (k :: p) := blocks_noObject hb _
      rw [merge_noObject (.inr hb)]
      simp [hs]

/-- Some element of the list has the first property, and no later one the second. -/
theorem last_cons {α : Type} (P Q : α → Prop) (e : α) (es : List α) :
    (∃ pre a post, e :: es = pre ++ a :: post ∧ P a ∧ ∀ f ∈ post, ¬ Q f) ↔
    (∃ pre a post, es = pre ++ a :: post ∧ P a ∧ ∀ f ∈ post, ¬ Q f) ∨ (P e ∧ ∀ f ∈ es, ¬ Q f) := by
  constructor
  · rintro ⟨pre, a, post, h1, h2, h3⟩
    cases pre with
    | nil =>
      simp only [List.nil_append, List.cons.injEq] at h1
      obtain ⟨rfl, rfl⟩ := h1
      exact .inr ⟨h2, h3⟩
    | cons c pre =>
      simp only [List.cons_append, List.cons.injEq] at h1
      exact .inl ⟨pre, a, post, h1.2, h2, h3⟩
  · rintro (⟨pre, a, post, rfl, h2, h3⟩ | ⟨h2, h3⟩)
    · exact ⟨e :: pre, a, post, rfl, h2, h3⟩
    · exact ⟨[], e, es, rfl, h2, h3⟩

theorem expandedEntries_follow (q : Str → Bool) (p : List Str) (x : Json F) (hx : NoObject x)
    (es : List (Str × Bool × ETree F)) : ∀ acc : List (Str × Json F),
    (follow p (.obj (expandedEntries q es acc)) = some x ↔
      (∃ pre e post, es = pre ++ e :: post ∧ follow p (.obj (entryPath q e)) = some x ∧
        ∀ f ∈ post, ¬ Settles (.obj (entryPath q f)) p) ∨
      (follow p (.obj acc) = some x ∧ ∀ f ∈ es, ¬ Settles (.obj (entryPath q f)) p)) := by
  induction es with
  | nil => intro acc; simp [expandedEntries]
  | cons e es ih =>
    obtain ⟨k, b, t⟩ := e
    intro acc
    have hm := follow_merge p (.obj acc) (.obj (entryPath q (k, b, t))) x
      (by simp only [DistinctKeys]; exact tidy_atPath _ t) hx
    simp only [deepMerge] at hm
    rw [expandedEntries, ih, last_cons, or_assoc]
    apply or_congr_right
    simp only [List.mem_cons, forall_eq_or_imp]
    unfold entryPath at hm ⊢
    rw [hm]
    constructor
    · rintro ⟨h1 | ⟨h1, h2⟩, h3⟩
      · exact .inl ⟨h1, h3⟩
      · exact .inr ⟨h1, h2, h3⟩
    · rintro (⟨h1, h3⟩ | ⟨h1, h2, h3⟩)
      · exact ⟨.inl h1, h3⟩
      · exact ⟨.inr ⟨h1, h2⟩, h3⟩

theorem expandedEntries_followObject (q : Str → Bool) (p : List Str)
    (es : List (Str × Bool × ETree F)) : ∀ acc : List (Str × Json F),
    ((∃ o, follow p (.obj (expandedEntries q es acc)) = some (.obj o)) ↔
      (∃ pre e post, es = pre ++ e :: post ∧ (∃ o, follow p (.obj (entryPath q e)) = some (.obj o)) ∧
        ∀ f ∈ post, ¬ Blocks (.obj (entryPath q f)) p) ∨
      ((∃ o, follow p (.obj acc) = some (.obj o)) ∧ ∀ f ∈ es, ¬ Blocks (.obj (entryPath q f)) p)) := by
  induction es with
  | nil => intro acc; simp [expandedEntries]
  | cons e es ih =>
    obtain ⟨k, b, t⟩ := e
    intro acc
    have hm := follow_mergeObject p (.obj acc) (.obj (entryPath q (k, b, t)))
      (by simp only [DistinctKeys]; exact tidy_atPath _ t)
    simp only [deepMerge] at hm
    rw [expandedEntries, ih, last_cons (fun e => ∃ o, follow p (.obj (entryPath q e)) = some (.obj o)), or_assoc]
    apply or_congr_right
    simp only [List.mem_cons, forall_eq_or_imp]
    unfold entryPath at hm ⊢
    rw [hm]
    constructor
    · rintro ⟨h1 | ⟨h1, h2⟩, h3⟩
      · exact .inl ⟨h1, h3⟩
      · exact .inr ⟨h1, h2, h3⟩
    · rintro (⟨h1, h3⟩ | ⟨h1, h2, h3⟩)
      · exact ⟨.inl h1, h3⟩
      · exact ⟨.inr ⟨h1, h2⟩, h3⟩

/-- If one value has something that is no object at a place that the other settles, the two collide. -/
theorem collide_settles {a b x : Json F} {p : List Str} (h : follow p a = some x) (hx : NoObject x) (hs : Settles b p) : Collide a b := by
  rcases hs with ⟨way, y, ⟨rest, rfl⟩, h2, h3⟩ | ⟨y, hy⟩
  · have : ∃ z, follow way a = some z := by
      clear h2
      induction way generalizing a with
      | nil => exact ⟨a, rfl⟩
      | cons k way ih =>
        match a with
        | .prim _ => simp [follow] at h
        | .arr _ => simp [follow] at h
        | .obj es =>
          simp only [List.cons_append, follow] at h ⊢
          cases hv : lookupKey k es with
          | none => rw [hv] at h; simp at h
          | some v => rw [hv] at h; exact ih h
    obtain ⟨z, hz⟩ := this
    exact ⟨way, z, y, hz, h2, fun ⟨_, es, h4⟩ => h3 es h4⟩
  · exact ⟨p, x, y, h, hy, fun ⟨⟨es, h4⟩, _⟩ => hx es h4⟩

end

end Toon
