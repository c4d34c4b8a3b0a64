import Verif.Spec.Quotes
import Verif.Spec.Cut
import Verif.Lemmas.MergeLevels
import Verif.Lemmas.Hurdles

/-! Entries of a part of an object. -/

namespace Toon

section
variable {F : Type}

theorem quotedIn_of {es : List (Str × Bool × ETree F)} (h : SameQuotes es) {e : Str × Bool × ETree F} (he : e ∈ es)
    (hd : DottedPath e.1) : quotedIn es e.1 = e.2.1 := by
  cases hq : e.2.1 with
  | true =>
    unfold quotedIn
    rw [List.any_eq_true]
    exact ⟨e, he, by simp [hq]⟩
  | false =>
    unfold quotedIn
    rw [List.any_eq_false]
    intro f hf hc
    simp only [Bool.and_eq_true, beq_iff_eq] at hc
    have := h e he f hf hc.1.symm hd
    rw [hq, hc.2] at this
    simp at this

theorem sameQuotes_sub {es es' : List (Str × Bool × ETree F)} (h : SameQuotes es') (hs : ∀ e ∈ es, e ∈ es') : SameQuotes es :=
  fun e he f hf => h e (hs e he) f (hs f hf)

theorem keyPath_part {es es' : List (Str × Bool × ETree F)} (h : SameQuotes es') (hs : ∀ e ∈ es, e ∈ es') :
    ∀ e ∈ es, keyPath (quotedIn es' e.1) e.1 = keyPath (quotedIn es e.1) e.1 := by
  intro e he
  by_cases hd : DottedPath e.1
  · rw [quotedIn_of h (hs e he) hd, quotedIn_of (sameQuotes_sub h hs) he hd]
  · rw [keyPath_single (.inr hd), keyPath_single (.inr hd)]

/-- Two objects that replace nothing of each other, one after the other. -/
theorem expanded_joined {es es' : List (Str × Bool × ETree F)} (h : SameQuotes (es ++ es')) {a b : List (Str × Json F)}
    (ha : expanded (.obj es) = .obj a) (hb : expanded (.obj es') = .obj b) (ca : conflicting (.obj es) = false)
    (cb : conflicting (.obj es') = false) :
    expanded (.obj (es ++ es')) = .obj (mergeObj a b) ∧ conflicting (.obj (es ++ es')) = clashEntries a b := by
  simp only [expanded, Json.obj.injEq, conflicting] at ha hb ca cb ⊢
  have h1 := expandedEntries_paths es (keyPath_part h (es := es) (by intro e he; simp [he])) []
  have h2 := expandedEntries_paths es' (keyPath_part h (es := es') (by intro e he; simp [he]))
  have hd := expandedEntries_distinct (quotedIn es) es [] (by simp) trivial
  rw [expandedEntries_append, conflictingEntries_append, h1.1, h1.2, ca, ha, Bool.false_or, (h2 a).1, (h2 a).2]
  have h3 := expandedEntries_merge (quotedIn es') es' a [] (by simp) trivial cb
  rw [hb, mergeObj] at h3
  refine ⟨h3.1, ?_⟩
  rw [h3.2, clashEntries, Bool.false_or]

/-- The two parts of an object without conflicts. -/
theorem conflicting_parts {es es' : List (Str × Bool × ETree F)} (h : SameQuotes (es ++ es'))
    (hc : conflicting (.obj (es ++ es')) = false) : conflicting (.obj es) = false ∧ conflicting (.obj es') = false := by
  simp only [conflicting] at hc ⊢
  have h1 := expandedEntries_paths es (keyPath_part h (es := es) (by intro e he; simp [he])) []
  have h2 := expandedEntries_paths es' (keyPath_part h (es := es') (by intro e he; simp [he]))
  rw [conflictingEntries_append, Bool.or_eq_false_iff, h1.2, h1.1, (h2 _).2] at hc
  exact ⟨hc.1, conflictingEntries_second _ es' _ [] (by simp) trivial (by rw [mergeObj]; exact hc.2)⟩

theorem pathHeight_joined {es es' : List (Str × Bool × ETree F)} (h : SameQuotes (es ++ es')) :
    pathHeight (.obj (es ++ es')) = max (pathHeight (.obj es)) (pathHeight (.obj es')) := by
  simp only [pathHeight]
  have key : ∀ (q q' : Str → Bool) (xs : List (Str × Bool × ETree F)),
      (∀ e ∈ xs, keyPath (q e.1) e.1 = keyPath (q' e.1) e.1) → pathHeightEntries q xs = pathHeightEntries q' xs := by
    intro q q' xs
    induction xs with
    | nil => intro _; rfl
    | cons e xs ih =>
      obtain ⟨k, c, t⟩ := e
      intro h
      have h1 := h (k, c, t) (by simp)
      simp only at h1
      simp only [pathHeightEntries, h1, ih (fun e he => h e (by simp [he]))]
  have join : ∀ (q : Str → Bool) (xs ys : List (Str × Bool × ETree F)),
      pathHeightEntries q (xs ++ ys) = max (pathHeightEntries q xs) (pathHeightEntries q ys) := by
    intro q xs ys
    induction xs with
    | nil => simp [pathHeightEntries]
    | cons e xs ih => obtain ⟨k, c, t⟩ := e; simp only [List.cons_append, pathHeightEntries, ih]; omega
  rw [join, key _ _ es (keyPath_part h (es := es) (by intro e he; simp [he])),
    key _ _ es' (keyPath_part h (es := es') (by intro e he; simp [he]))]
  omega

/-! ## Leaves -/

theorem solid_mono {a b : List (List Step × Leaf F)} (h : solid a ⊆ solid b) (p : List Step) :
    solid (a.map fun l => (p ++ l.1, l.2)) ⊆ solid (b.map fun l => (p ++ l.1, l.2)) := by
  intro l hl
  simp only [solid, List.mem_filter, List.mem_map] at hl ⊢
  obtain ⟨⟨x, hx, rfl⟩, hs⟩ := hl
  have := h (List.mem_filter.mpr ⟨hx, hs⟩)
  simp only [solid, List.mem_filter] at this
  exact ⟨⟨x, this.1, rfl⟩, hs⟩

theorem solid_pathLeaves_obj (es : List (Str × Bool × ETree F)) :
    solid (pathLeaves (.obj es)) = solid (pathLeavesEntries (quotedIn es) es) := by
  cases es with
  | nil => rfl
  | cons e es => rw [pathLeaves]

theorem pathLeavesEntries_join (q : Str → Bool) (es es' : List (Str × Bool × ETree F)) :
    pathLeavesEntries q (es ++ es') = pathLeavesEntries q es ++ pathLeavesEntries q es' := by
  induction es with
  | nil => rfl
  | cons e es ih => obtain ⟨k, b, t⟩ := e; simp only [List.cons_append, pathLeavesEntries, ih, List.append_assoc]

theorem pathLeavesItems_join (ts ts' : List (ETree F)) : ∀ i : Nat,
    pathLeavesItems i (ts ++ ts') = pathLeavesItems i ts ++ pathLeavesItems (i + ts.length) ts' := by
  induction ts with
  | nil => intro i; rfl
  | cons t ts ih =>
    intro i
    simp only [List.cons_append, pathLeavesItems, ih, List.append_assoc, List.length_cons]
    rw [show i + 1 + ts.length = i + (ts.length + 1) by omega]

theorem pathLeavesEntries_paths {q q' : Str → Bool} (es : List (Str × Bool × ETree F))
    (h : ∀ e ∈ es, keyPath (q e.1) e.1 = keyPath (q' e.1) e.1) : pathLeavesEntries q es = pathLeavesEntries q' es := by
  induction es with
  | nil => rfl
  | cons e es ih =>
    obtain ⟨k, b, t⟩ := e
    have h1 := h (k, b, t) (by simp)
    simp only at h1
    simp only [pathLeavesEntries, h1, ih (fun e he => h e (by simp [he]))]

theorem unmixedEntries_iff {es : List (Str × Bool × ETree F)} : UnmixedEntries es ↔ ∀ e ∈ es, Unmixed e.2.2 := by
  induction es with
  | nil => simp [UnmixedEntries]
  | cons e es ih => obtain ⟨k, q, t⟩ := e; simp [UnmixedEntries, ih]

theorem unmixedItems_iff {ts : List (ETree F)} : UnmixedItems ts ↔ ∀ t ∈ ts, Unmixed t := by
  induction ts with
  | nil => simp [UnmixedItems]
  | cons t ts ih => simp [UnmixedItems, ih]

theorem pathLeavesArr (n : Nat) (ts : List (ETree F)) (t : ETree F) :
    pathLeaves (.arr n (ts ++ [t])) = pathLeavesItems 0 (ts ++ [t]) := by
  cases ts <;> simp [pathLeaves]

/-- What is left of a text that was cut off has only leaves of the whole. -/
theorem cut_leaves {whole part : ETree F} (h : Cut whole part) : Unmixed whole →
    solid (pathLeaves part) ⊆ solid (pathLeaves whole) := by
  induction h with
  | whole t => intro _; exact fun _ h => h
  | entries es more =>
    intro hu
    simp only [Unmixed] at hu
    rw [solid_pathLeaves_obj, solid_pathLeaves_obj, pathLeavesEntries_join, solid_append,
      pathLeavesEntries_paths es (keyPath_part hu.1 (es := es) (by intro e he; simp [he]))]
    exact List.subset_append_left _ _
  | entry es more k q hc ih =>
    rename_i t' t
    intro hu
    simp only [Unmixed] at hu
    have ht := ih (unmixedEntries_iff.mp hu.2 (k, q, t') (by simp))
    have hp : ∀ e ∈ es, keyPath (quotedIn (es ++ (k, q, t') :: more) e.1) e.1 = keyPath (quotedIn (es ++ [(k, q, t')]) e.1) e.1 :=
      fun e he => keyPath_part hu.1 (es := es ++ [(k, q, t')]) (by intro e he; simp at he ⊢; rcases he with h | h <;> simp [h]) e (by simp [he])
    have hk := keyPath_part hu.1 (es := es ++ [(k, q, t')]) (by intro e he; simp at he ⊢; rcases he with h | h <;> simp [h]) (k, q, t') (by simp)
    have hq : quotedIn (es ++ [(k, q, t)]) = quotedIn (es ++ [(k, q, t')]) := by
      funext x; simp [quotedIn]
    rw [solid_pathLeaves_obj, solid_pathLeaves_obj, pathLeavesEntries_join, pathLeavesEntries_join, hq,
      pathLeavesEntries_paths es hp, solid_append, solid_append]
    simp only [pathLeavesEntries, List.append_nil, solid_append] at hk ⊢
    rw [hk]
    intro l hl
    rcases List.mem_append.mp hl with h | h
    · exact List.mem_append_left _ h
    · exact List.mem_append_right _ (List.mem_append_left _ (solid_mono ht _ h))
  | element n ts hc ih =>
    rename_i t' t
    intro hu
    simp only [Unmixed] at hu
    have ht := ih (unmixedItems_iff.mp hu t' (by simp))
    rw [pathLeavesArr, pathLeavesArr, pathLeavesItems_join, pathLeavesItems_join, solid_append, solid_append]
    simp only [pathLeavesItems, List.append_nil]
    intro l hl
    rcases List.mem_append.mp hl with h | h
    · exact List.mem_append_left _ h
    · exact List.mem_append_right _ (solid_mono ht [.index (0 + ts.length)] h)

end

end Toon
