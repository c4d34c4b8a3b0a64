import Verif.Lemmas.Accord
import Verif.Lemmas.MergeLevels
import Verif.Spec.Reordered

/-! Path expansion and the order of entries. -/

namespace Toon

section
variable {F : Type}

theorem Reordered.symm {a b : ETree F} (h : Reordered a b) : Reordered b a := by
  induction h with
  | refl t => exact .refl t
  | trans _ _ ih1 ih2 => exact .trans ih2 ih1
  | element n pre post _ ih => exact .element n pre post ih
  | entry pre post k q _ ih => exact .entry pre post k q ih
  | entries h => exact .entries h.symm

theorem accord_nested {v v' : Json F} (h : Accord v v') : ∀ ss : List Str, Accord (nested ss v) (nested ss v')
  | [] => h
  | s :: ss => by
    refine .obj (fun k => ?_) fun k x y hx hy => ?_
    · simp only [lookupKey]; by_cases hk : s = k <;> simp [hk]
    · simp only [lookupKey] at hx hy
      by_cases hk : s = k
      · rw [if_pos hk] at hx hy
        cases hx; cases hy
        exact accord_nested h ss
      · rw [if_neg hk] at hx; simp at hx

theorem accord_atPath {v v' : Json F} (h : Accord v v') (ss : List Str) : Accord (.obj (atPath ss v)) (.obj (atPath ss v')) := by
  cases ss with
  | nil => exact accord_refl _
  | cons s ss => exact accord_nested h (s :: ss)

/-- Entries with distinct keys, in all objects. -/
def Tidy (a : List (Str × Json F)) : Prop := (a.map Prod.fst).Nodup ∧ DistinctKeysEntries a

theorem tidy_merge {a b : List (Str × Json F)} (ha : Tidy a) (hb : Tidy b) : Tidy (mergeObj a b) :=
  mergeObj_distinct a b ha.1 ha.2 hb.2

theorem tidy_atPath (ss : List Str) (t : ETree F) : Tidy (atPath ss (expanded t)) :=
  ⟨atPath_nodup ss (expanded t), atPath_distinct ss _ (expanded_distinct t)⟩

theorem mergeObj_accord {a a' b b' : List (Str × Json F)} (ha : Accord (.obj a) (.obj a')) (hb : Accord (.obj b) (.obj b'))
    (tb : Tidy b) (tb' : Tidy b') : Accord (.obj (mergeObj a b)) (.obj (mergeObj a' b')) ∧
      (clashEntries a b = false → clashEntries a' b' = false) := by
  have := deepMerge_accord hb ha (by simp only [DistinctKeys]; exact tb) (by simp only [DistinctKeys]; exact tb')
  simpa only [deepMerge, clash] using this

theorem entries_accord (q : Str → Bool) (es : List (Str × Bool × ETree F)) : ∀ acc acc' : List (Str × Json F),
    Accord (.obj acc) (.obj acc') → conflictingEntries q es acc = false →
    conflictingEntries q es acc' = false ∧ Accord (.obj (expandedEntries q es acc)) (.obj (expandedEntries q es acc')) := by
  induction es with
  | nil => intro acc acc' h _; simp only [conflictingEntries, expandedEntries]; exact ⟨trivial, h⟩
  | cons e es ih =>
    obtain ⟨k, b, t⟩ := e
    intro acc acc' h hc
    simp only [conflictingEntries, Bool.or_eq_false_iff, expandedEntries] at hc ⊢
    have tp := tidy_atPath (keyPath (q k) k) t
    obtain ⟨h1, h2⟩ := mergeObj_accord h (accord_refl _) tp tp
    obtain ⟨h3, h4⟩ := ih _ _ h1 hc.2
    exact ⟨⟨⟨hc.1.1, h2 hc.1.2⟩, h3⟩, h4⟩

theorem entries_perm (q : Str → Bool) {es es' : List (Str × Bool × ETree F)} (h : es.Perm es') : ∀ acc : List (Str × Json F),
    Tidy acc → conflictingEntries q es acc = false →
    conflictingEntries q es' acc = false ∧ Accord (.obj (expandedEntries q es acc)) (.obj (expandedEntries q es' acc)) := by
  induction h with
  | nil => intro acc _ hc; exact ⟨hc, accord_refl _⟩
  | cons e _ ih =>
    obtain ⟨k, b, t⟩ := e
    intro acc ht hc
    simp only [conflictingEntries, Bool.or_eq_false_iff, expandedEntries] at hc ⊢
    obtain ⟨h1, h2⟩ := ih _ (tidy_merge ht (tidy_atPath (keyPath (q k) k) t)) hc.2
    exact ⟨⟨hc.1, h1⟩, h2⟩
  | swap e f l =>
    obtain ⟨k₁, b₁, t₁⟩ := e
    obtain ⟨k₂, b₂, t₂⟩ := f
    intro acc ht hc
    simp only [conflictingEntries, Bool.or_eq_false_iff, expandedEntries] at hc ⊢
    have p₁ := tidy_atPath (keyPath (q k₁) k₁) t₁
    have p₂ := tidy_atPath (keyPath (q k₂) k₂) t₂
    generalize ex : atPath (keyPath (q k₁) k₁) (expanded t₁) = x at *
    generalize ey : atPath (keyPath (q k₂) k₂) (expanded t₂) = y at *
    obtain ⟨⟨c2, cy⟩, ⟨c1, cx⟩, cl⟩ := hc
    have hyx := clashEntries_second acc y x p₂.1 p₂.2 cx
    obtain ⟨hcomm, hxy⟩ := deepMerge_comm (.obj y) (.obj x) (by simp only [DistinctKeys]; exact p₂)
      (by simp only [DistinctKeys]; exact p₁) (by simpa only [clash] using hyx)
    simp only [deepMerge] at hcomm
    simp only [clash] at hxy
    have h1 := clashEntries_merge acc y x p₂.1 p₂.2 p₁.1 p₁.2 hyx
    rw [cy, cx, Bool.false_or] at h1
    obtain ⟨h2, h3⟩ := mergeObj_accord (accord_refl (.obj acc)) hcomm (tidy_merge p₂ p₁) (tidy_merge p₁ p₂)
    have h4 := h3 h1
    rw [clashEntries_merge acc x y p₁.1 p₁.2 p₂.1 p₂.2 hxy, Bool.or_eq_false_iff] at h4
    rw [← mergeObj_assoc acc y x p₂.1 p₂.2 p₁.1 p₁.2 hyx, ← mergeObj_assoc acc x y p₁.1 p₁.2 p₂.1 p₂.2 hxy] at h2
    obtain ⟨h5, h6⟩ := entries_accord q l _ _ h2 cl
    exact ⟨⟨⟨c1, h4.1⟩, ⟨c2, h4.2⟩, h5⟩, h6⟩
  | trans h1 _ ih1 ih2 =>
    intro acc ht hc
    obtain ⟨h3, h4⟩ := ih1 acc ht hc
    obtain ⟨h5, h6⟩ := ih2 acc ht h3
    exact ⟨h5, accord_trans h4 h6⟩

theorem expandedItems_middle (pre post : List (ETree F)) (a : ETree F) :
    expandedItems (pre ++ a :: post) = expandedItems pre ++ expanded a :: expandedItems post := by
  induction pre with
  | nil => rfl
  | cons t pre ih => simp only [List.cons_append, expandedItems, ih]

theorem conflictingItems_middle (pre post : List (ETree F)) (a : ETree F) :
    conflictingItems (pre ++ a :: post) = (conflictingItems pre || (conflicting a || conflictingItems post)) := by
  induction pre with
  | nil => simp [conflictingItems]
  | cons t pre ih => simp only [List.cons_append, conflictingItems, ih, Bool.or_assoc]

theorem quotedIn_perm {es es' : List (Str × Bool × ETree F)} (h : es.Perm es') : quotedIn es = quotedIn es' := by
  funext k
  unfold quotedIn
  rw [Bool.eq_iff_iff, List.any_eq_true, List.any_eq_true]
  exact ⟨fun ⟨e, he, hk⟩ => ⟨e, h.mem_iff.mp he, hk⟩, fun ⟨e, he, hk⟩ => ⟨e, h.mem_iff.mpr he, hk⟩⟩

theorem tidy_expanded (q : Str → Bool) (es : List (Str × Bool × ETree F)) : Tidy (expandedEntries q es []) :=
  expandedEntries_distinct q es [] (by simp) trivial

/-- The order of entries decides neither whether there is a conflict nor, up to the order of keys, the value. -/
theorem reordered_expanded {t t' : ETree F} (h : Reordered t t') : conflicting t = false →
    conflicting t' = false ∧ Accord (expanded t) (expanded t') := by
  induction h with
  | refl t => intro h; exact ⟨h, accord_refl _⟩
  | trans _ _ ih1 ih2 =>
    intro h
    obtain ⟨h1, h2⟩ := ih1 h
    obtain ⟨h3, h4⟩ := ih2 h1
    exact ⟨h3, accord_trans h2 h4⟩
  | element n pre post _ ih =>
    rename_i a b _
    intro h
    simp only [conflicting, conflictingItems_middle, Bool.or_eq_false_iff, expanded, expandedItems_middle] at h ⊢
    obtain ⟨h1, h2⟩ := ih h.2.1
    exact ⟨⟨h.1, h1, h.2.2⟩, .leaf (noObject_arr _) (noObject_arr _)
      (.arr _ _ (accord_equiv h2 (expanded_distinct a) (expanded_distinct b)))⟩
  | entry pre post k q _ ih =>
    rename_i a b _
    intro h
    have hq : quotedIn (pre ++ (k, q, b) :: post) = quotedIn (pre ++ (k, q, a) :: post) := by
      funext x; simp [quotedIn]
    simp only [conflicting, expanded, hq] at h ⊢
    generalize quotedIn (pre ++ (k, q, a) :: post) = qu at h ⊢
    rw [conflictingEntries_append, expandedEntries_append] at *
    rw [expandedEntries_append]
    simp only [conflictingEntries, expandedEntries, Bool.or_eq_false_iff] at h ⊢
    obtain ⟨h1, h2⟩ := ih h.2.1.1
    obtain ⟨h3, h4⟩ := mergeObj_accord (accord_refl (.obj (expandedEntries qu pre []))) (accord_atPath h2 (keyPath (qu k) k))
      (tidy_atPath _ a) (tidy_atPath _ b)
    obtain ⟨h5, h6⟩ := entries_accord qu post _ _ h3 h.2.2
    exact ⟨⟨h.1, ⟨h1, h4 h.2.1.2⟩, h5⟩, h6⟩
  | entries hp =>
    intro h
    simp only [conflicting, expanded, ← quotedIn_perm hp] at h ⊢
    exact entries_perm _ hp [] ⟨by simp, trivial⟩ h

theorem pathHeightEntries_middle (q : Str → Bool) (pre post : List (Str × Bool × ETree F)) (k : Str) (b : Bool) (t : ETree F) :
    pathHeightEntries q (pre ++ (k, b, t) :: post) =
      max (pathHeightEntries q pre) (max ((keyPath (q k) k).length + pathHeight t) (pathHeightEntries q post)) := by
  induction pre with
  | nil => simp [pathHeightEntries]
  | cons e pre ih => obtain ⟨k', b', t'⟩ := e; simp only [List.cons_append, pathHeightEntries, ih]; omega

theorem pathHeightItems_middle (pre post : List (ETree F)) (t : ETree F) :
    pathHeightItems (pre ++ t :: post) = max (pathHeightItems pre) (max (pathHeight t) (pathHeightItems post)) := by
  induction pre with
  | nil => simp [pathHeightItems]
  | cons t' pre ih => simp only [List.cons_append, pathHeightItems, ih]; omega

theorem reordered_height {t t' : ETree F} (h : Reordered t t') : pathHeight t = pathHeight t' := by
  induction h with
  | refl t => rfl
  | trans _ _ ih1 ih2 => rw [ih1, ih2]
  | element n pre post _ ih => simp only [pathHeight, pathHeightItems_middle, ih]
  | entry pre post k q _ ih =>
    rename_i a b _
    have hq : quotedIn (pre ++ (k, q, b) :: post) = quotedIn (pre ++ (k, q, a) :: post) := by
      funext x; simp [quotedIn]
    simp only [pathHeight, pathHeightEntries_middle, hq, ih]
  | entries hp =>
    simp only [pathHeight, ← quotedIn_perm hp]
    rename_i es es'
    have key : ∀ (q : Str → Bool) {xs ys : List (Str × Bool × ETree F)}, xs.Perm ys → pathHeightEntries q xs = pathHeightEntries q ys := by
      intro q xs ys h
      induction h with
      | nil => rfl
      | cons e _ ih => obtain ⟨k, b, t⟩ := e; simp only [pathHeightEntries, ih]
      | swap e f l =>
        obtain ⟨k₁, b₁, t₁⟩ := e
        obtain ⟨k₂, b₂, t₂⟩ := f
        simp only [pathHeightEntries]; omega
      | trans _ _ ih1 ih2 => rw [ih1, ih2]
    rw [key _ hp]

end

end Toon
