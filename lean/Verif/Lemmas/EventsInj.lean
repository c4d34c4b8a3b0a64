import Verif.Spec.Events

/-! A stream of events is the stream of at most one tree. -/

namespace Toon

section
variable {F : Type}

theorem events_head (t : ETree F) : ∃ e es, t.events = e :: es ∧ e ≠ .endObj ∧ e ≠ .endArr := by
  cases t with
  | prim p => exact ⟨_, _, rfl, by simp, by simp⟩
  | arr n items => exact ⟨_, _, rfl, by simp, by simp⟩
  | obj es => exact ⟨_, _, rfl, by simp, by simp⟩

mutual
theorem events_prefix (t t' : ETree F) (r r' : List (Ev F)) (h : t.events ++ r = t'.events ++ r') : t = t' ∧ r = r' := by
  match t with
  | .prim p =>
    cases t' with
    | prim p' => simp only [ETree.events, List.cons_append, List.nil_append, List.cons.injEq, Ev.prim.injEq] at h; simp [h]
    | arr n items => simp [ETree.events] at h
    | obj es => simp [ETree.events] at h
  | .arr n items =>
    cases t' with
    | prim p' => simp [ETree.events] at h
    | obj es => simp [ETree.events] at h
    | arr n' items' =>
      simp only [ETree.events, List.cons_append, List.append_assoc, List.cons.injEq, Ev.startArr.injEq] at h
      obtain ⟨rfl, h⟩ := h
      obtain ⟨rfl, h2⟩ := eventsItems_prefix items items' r r' h
      exact ⟨rfl, h2⟩
  | .obj es =>
    cases t' with
    | prim p' => simp [ETree.events] at h
    | arr n items => simp [ETree.events] at h
    | obj es' =>
      simp only [ETree.events, List.cons_append, List.append_assoc, List.cons.injEq, true_and] at h
      obtain ⟨rfl, h3⟩ := eventsEntries_prefix es es' r r' h
      exact ⟨rfl, h3⟩
theorem eventsItems_prefix (ts ts' : List (ETree F)) (r r' : List (Ev F))
    (h : ETree.eventsItems ts ++ ([.endArr] ++ r) = ETree.eventsItems ts' ++ ([.endArr] ++ r')) : ts = ts' ∧ r = r' := by
  match ts with
  | [] =>
    cases ts' with
    | nil => simp only [ETree.eventsItems, List.nil_append, List.cons_append, List.cons.injEq, true_and] at h; exact ⟨rfl, h⟩
    | cons t' ts' =>
      obtain ⟨e, es, h1, h2, h3⟩ := events_head t'
      simp only [ETree.eventsItems, h1, List.nil_append, List.cons_append, List.cons.injEq] at h
      exact absurd h.1.symm h3
  | t :: ts =>
    cases ts' with
    | nil =>
      obtain ⟨e, es, h1, h2, h3⟩ := events_head t
      simp only [ETree.eventsItems, h1, List.nil_append, List.cons_append, List.cons.injEq] at h
      exact absurd h.1 h3
    | cons t' ts' =>
      simp only [ETree.eventsItems, List.append_assoc] at h
      obtain ⟨rfl, h2⟩ := events_prefix t t' _ _ h
      obtain ⟨rfl, h3⟩ := eventsItems_prefix ts ts' r r' h2
      exact ⟨rfl, h3⟩
theorem eventsEntries_prefix (es es' : List (Str × Bool × ETree F)) (r r' : List (Ev F))
    (h : ETree.eventsEntries es ++ ([.endObj] ++ r) = ETree.eventsEntries es' ++ ([.endObj] ++ r')) : es = es' ∧ r = r' := by
  match es with
  | [] =>
    cases es' with
    | nil => simp only [ETree.eventsEntries, List.nil_append, List.cons_append, List.cons.injEq, true_and] at h; exact ⟨rfl, h⟩
    | cons e' es' => obtain ⟨k, q, t⟩ := e'; simp [ETree.eventsEntries] at h
  | (k, q, t) :: es =>
    cases es' with
    | nil => simp [ETree.eventsEntries] at h
    | cons e' es' =>
      obtain ⟨k', q', t'⟩ := e'
      simp only [ETree.eventsEntries, List.append_assoc, List.cons_append, List.cons.injEq, Ev.key.injEq] at h
      obtain ⟨⟨rfl, rfl⟩, h⟩ := h
      obtain ⟨rfl, h2⟩ := events_prefix t t' _ _ h
      obtain ⟨rfl, h3⟩ := eventsEntries_prefix es es' r r' h2
      exact ⟨rfl, h3⟩
end

theorem events_inj {t t' : ETree F} (h : t.events = t'.events) : t = t' :=
  (events_prefix t t' [] [] (by simpa using h)).1

end

end Toon
