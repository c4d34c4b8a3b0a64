import Verif.Lemmas.MergeAssoc
import Verif.Lemmas.ExpandDepth
import Verif.Lemmas.Hurdles

/-! How high the levels of expansion are, by the nesting of the result. -/

namespace Toon

section
variable {F : Type}

/-! ## Merging without conflict gives the larger height -/

theorem replaceKey_height {k : Str} {c v : Json F} {a : List (Str × Json F)} (h : lookupKey k a = some c)
    (hv : height c ≤ height v) : heightEntries (replaceKey k v a) = max (heightEntries a) (height v) := by
  induction a with
  | nil => simp [lookupKey] at h
  | cons e a ih =>
    obtain ⟨k1, v1⟩ := e
    by_cases h1 : k1 = k
    · subst h1
      simp only [lookupKey, if_true, Option.some.injEq] at h
      subst h
      simp only [replaceKey, if_true, heightEntries]
      omega
    · simp only [lookupKey, if_neg h1] at h
      simp only [replaceKey, if_neg h1, heightEntries, ih h]
      omega

theorem heightEntries_join (a b : List (Str × Json F)) : heightEntries (a ++ b) = max (heightEntries a) (heightEntries b) := by
  induction a with
  | nil => simp [heightEntries]
  | cons e a ih => obtain ⟨k, v⟩ := e; simp only [List.cons_append, heightEntries, ih]; omega

mutual
theorem deepMerge_heights (a b : Json F) (hd : DistinctKeys b) (h : clash a b = false) :
    height (deepMerge a b) = max (height a) (height b) := by
  match b with
  | .prim p => simp [clash] at h
  | .arr items => simp [clash] at h
  | .obj b =>
    match a with
    | .prim p => simp [clash] at h
    | .arr items => simp [clash] at h
    | .obj a =>
      simp only [clash] at h
      simp only [DistinctKeys] at hd
      simp only [deepMerge, height, mergeObj_heights a b hd.1 hd.2 h]
      omega
theorem mergeObj_heights (a b : List (Str × Json F)) (hn : (b.map Prod.fst).Nodup) (hd : DistinctKeysEntries b)
    (h : clashEntries a b = false) : heightEntries (mergeObj a b) = max (heightEntries a) (heightEntries b) := by
  match b with
  | [] => rw [mergeObj]; simp [heightEntries]
  | (k, v) :: b =>
    simp only [List.map_cons, List.nodup_cons] at hn
    simp only [DistinctKeysEntries] at hd
    simp only [clashEntries, Bool.or_eq_false_iff] at h
    rw [mergeObj_cons, mergeObj_heights (putMerge a k v) b hn.2 hd.2 (by rw [clashEntries_put hn.1]; exact h.2)]
    have : heightEntries (putMerge a k v) = max (heightEntries a) (height v) := by
      rw [putMerge]
      cases hl : lookupKey k a with
      | none => simp only [heightEntries_join, heightEntries]; omega
      | some c =>
        rw [hl] at h
        have h1 := deepMerge_heights c v hd.1 h.1
        have h2 := heightEntries_mem (lookup_mem hl)
        simp only at h2 ⊢
        rw [replaceKey_height hl (by omega), h1]
        omega
    rw [this]
    simp only [heightEntries]
    omega
end

mutual
/-- Without conflict the result is as deep as the tree. -/
theorem expanded_heights (t : ETree F) (h : conflicting t = false) : height (expanded t) = pathHeight t := by
  match t with
  | .prim p => simp [expanded, height, pathHeight]
  | .arr n items =>
    simp only [conflicting] at h
    simp only [expanded, height, pathHeight, expandedItems_heights items h]
  | .obj es =>
    simp only [conflicting] at h
    simp only [expanded, height, pathHeight]
    have := expandedEntries_heights (quotedIn es) es [] h
    simp only [heightEntries] at this
    omega
theorem expandedItems_heights (ts : List (ETree F)) (h : conflictingItems ts = false) :
    heightItems (expandedItems ts) = pathHeightItems ts := by
  match ts with
  | [] => simp [expandedItems, heightItems, pathHeightItems]
  | t :: ts =>
    simp only [conflictingItems, Bool.or_eq_false_iff] at h
    simp only [expandedItems, heightItems, pathHeightItems, expanded_heights t h.1, expandedItems_heights ts h.2]
theorem expandedEntries_heights (quoted : Str → Bool) (es : List (Str × Bool × ETree F)) (acc : List (Str × Json F))
    (h : conflictingEntries quoted es acc = false) :
    heightEntries (expandedEntries quoted es acc) + 1 = max (heightEntries acc + 1) (pathHeightEntries quoted es) := by
  match es with
  | [] => simp only [expandedEntries, pathHeightEntries]; omega
  | (k, q, t) :: es =>
    simp only [conflictingEntries, Bool.or_eq_false_iff] at h
    rw [expandedEntries, pathHeightEntries]
    have h1 := expandedEntries_heights quoted es (mergeObj acc (atPath (keyPath (quoted k) k) (expanded t))) h.2
    have h2 := mergeObj_heights acc (atPath (keyPath (quoted k) k) (expanded t)) (atPath_nodup _ _)
      (atPath_distinct _ _ (expanded_distinct t)) h.1.2
    have h3 := atPath_height (keyPath_ne (quoted k) k) (expanded t)
    have h4 := expanded_heights t h.1.1
    omega
end

/-! ## Levels -/

mutual
theorem mergeHurdles_levels (n : Nat) (k : Str) (a b : Json F) : ∀ x ∈ mergeHurdles n k a b, levelOf x + 1 ≤ n + max 1 (height b) := by
  match b with
  | .prim p => intro x hx; simp only [mergeHurdles, List.mem_singleton] at hx; subst hx; simp only [levelOf]; omega
  | .arr items => intro x hx; simp only [mergeHurdles, List.mem_singleton] at hx; subst hx; simp only [levelOf]; omega
  | .obj b =>
    match a with
    | .prim p => intro x hx; simp only [mergeHurdles, List.mem_singleton] at hx; subst hx; simp only [levelOf]; omega
    | .arr items => intro x hx; simp only [mergeHurdles, List.mem_singleton] at hx; subst hx; simp only [levelOf]; omega
    | .obj a =>
      intro x hx
      simp only [mergeHurdles, List.mem_cons] at hx
      simp only [height]
      rcases hx with rfl | hx
      · simp only [levelOf]; omega
      · have := meetHurdles_levels n a b x hx; omega
theorem meetHurdles_levels (n : Nat) (a b : List (Str × Json F)) : ∀ x ∈ meetHurdles n a b, levelOf x ≤ n + heightEntries b := by
  match b with
  | [] => intro x hx; simp [meetHurdles] at hx
  | (k, v) :: b =>
    intro x hx
    simp only [meetHurdles, List.mem_append] at hx
    simp only [heightEntries]
    rcases hx with hx | hx
    · cases hl : lookupKey k a with
      | none => rw [hl] at hx; simp at hx
      | some c =>
        rw [hl] at hx
        simp only at hx
        match v with
        | .prim p => simp only [mergeHurdles, List.mem_singleton] at hx; subst hx; simp only [levelOf]; omega
        | .arr items => simp only [mergeHurdles, List.mem_singleton] at hx; subst hx; simp only [levelOf]; omega
        | .obj w =>
          have h1 := mergeHurdles_levels (n + 1) k c (.obj w) x hx
          simp only [height] at h1 ⊢
          omega
    · have := meetHurdles_levels n a b x hx; omega
end

theorem mergeHurdles_least (n : Nat) (k : Str) (a b : Json F) : ∀ x ∈ mergeHurdles (n + 1) k a b, levelOf x ≤ n + height b := by
  intro x hx
  match b with
  | .prim p => simp only [mergeHurdles, List.mem_singleton] at hx; subst hx; simp only [levelOf]; omega
  | .arr items => simp only [mergeHurdles, List.mem_singleton] at hx; subst hx; simp only [levelOf]; omega
  | .obj w =>
    have h1 := mergeHurdles_levels (n + 1) k a (.obj w) x hx
    simp only [height] at h1 ⊢
    omega

theorem literalHurdles_levels (n : Nat) (a : List (Str × Json F)) (k : Str) (v : Json F) :
    ∀ x ∈ literalHurdles n a k v, levelOf x ≤ n + height v := by
  intro x hx
  simp only [literalHurdles, List.mem_cons] at hx
  rcases hx with rfl | hx
  · simp only [levelOf]; omega
  · cases hl : lookupKey k a with
    | none => rw [hl] at hx; simp at hx
    | some c => rw [hl] at hx; exact mergeHurdles_least n k c v x hx

theorem pathHurdles_levels (v : Json F) : ∀ (segs : List Str) (n : Nat) (a : List (Str × Json F)),
    ∀ x ∈ pathHurdles n a segs v, levelOf x ≤ n + segs.length + height v
  | [], n, a => by intro x hx; simp [pathHurdles] at hx
  | [s], n, a => by
    intro x hx
    simp only [pathHurdles, List.mem_cons] at hx
    rcases hx with rfl | hx
    · simp only [levelOf, List.length_singleton]; omega
    · have := literalHurdles_levels (n + 1) a s v x hx; simpa using this
  | s :: s' :: ss, n, a => by
    intro x hx
    simp only [pathHurdles, List.mem_cons] at hx
    rcases hx with rfl | hx
    · simp only [levelOf]; omega
    · have ih : ∀ b : List (Str × Json F), x ∈ pathHurdles (n + 1) b (s' :: ss) v → levelOf x ≤ n + (s :: s' :: ss).length + height v := by
        intro b hb
        have := pathHurdles_levels v (s' :: ss) (n + 1) b x hb
        simp only [List.length_cons] at this ⊢
        omega
      cases hl : lookupKey s a with
      | none => rw [hl] at hx; exact ih _ hx
      | some c =>
        rw [hl] at hx
        cases c with
        | obj b => exact ih _ hx
        | prim p =>
          simp only [List.mem_cons] at hx
          rcases hx with rfl | hx
          · simp only [levelOf]; omega
          · exact ih _ hx
        | arr items =>
          simp only [List.mem_cons] at hx
          rcases hx with rfl | hx
          · simp only [levelOf]; omega
          · exact ih _ hx

theorem insertHurdles_levels (n : Nat) (a : List (Str × Json F)) (segs : List Str) (v : Json F) :
    ∀ x ∈ insertHurdles n a segs v, levelOf x ≤ n + segs.length + height v := by
  intro x hx
  unfold insertHurdles at hx
  split at hx
  · have := literalHurdles_levels _ _ _ _ x hx; simp only [List.length_singleton]; omega
  · exact pathHurdles_levels v _ _ _ x hx

mutual
/-- Two levels per unit of nesting are enough. -/
theorem hurdles_levels (t : ETree F) (n : Nat) : ∀ x ∈ hurdles n t, levelOf x ≤ n + 2 * pathHeight t + 1 := by
  match t with
  | .prim p => intro x hx; simp only [hurdles, List.mem_singleton] at hx; subst hx; simp only [levelOf]; omega
  | .arr m items =>
    intro x hx
    simp only [hurdles, List.mem_cons] at hx
    simp only [pathHeight]
    rcases hx with rfl | hx
    · simp only [levelOf]; omega
    · have := hurdlesItems_levels items (n + 1) x hx; omega
  | .obj es =>
    intro x hx
    simp only [hurdles, List.mem_cons] at hx
    simp only [pathHeight]
    rcases hx with rfl | rfl | hx
    · simp only [levelOf]; omega
    · simp only [levelOf]; omega
    · have := hurdlesEntries_levels (quotedIn es) es n [] x hx; omega
theorem hurdlesItems_levels (ts : List (ETree F)) (n : Nat) : ∀ x ∈ hurdlesItems n ts, levelOf x ≤ n + 2 * pathHeightItems ts + 1 := by
  match ts with
  | [] => intro x hx; simp [hurdlesItems] at hx
  | t :: ts =>
    intro x hx
    simp only [hurdlesItems, List.mem_append] at hx
    simp only [pathHeightItems]
    rcases hx with hx | hx
    · have := hurdles_levels t n x hx; omega
    · have := hurdlesItems_levels ts n x hx; omega
theorem hurdlesEntries_levels (quoted : Str → Bool) (es : List (Str × Bool × ETree F)) (n : Nat) (acc : List (Str × Json F)) :
    ∀ x ∈ hurdlesEntries (n + 2) quoted es acc, levelOf x ≤ n + 2 * pathHeightEntries quoted es + 1 := by
  match es with
  | [] => intro x hx; simp [hurdlesEntries] at hx
  | (k, q, t) :: es =>
    intro x hx
    simp only [hurdlesEntries, List.mem_append] at hx
    simp only [pathHeightEntries]
    have h0 := keyPath_pos (quoted k) k
    rcases hx with (hx | hx) | hx
    · have := hurdles_levels t (n + 2) x hx; omega
    · have h1 := insertHurdles_levels (n + 2) acc (keyPath (quoted k) k) (expanded t) x hx
      have h2 := expanded_height t
      omega
    · have := hurdlesEntries_levels quoted es n _ x hx; omega
end

end

end Toon
