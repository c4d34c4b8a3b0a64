import Verif.Lemmas.ExpandMerge
import Verif.Lemmas.FoldLeaves

/-! The leaves of an expanded value. -/

namespace Toon

section
variable {F : Type}

theorem solid_append (a b : List (List Step × Leaf F)) : solid (a ++ b) = solid a ++ solid b := List.filter_append ..

theorem solid_under (s : Step) (a : List (List Step × Leaf F)) : solid (under s a) = under s (solid a) := by
  induction a with
  | nil => rfl
  | cons x a ih =>
    simp only [solid, under, List.map_cons, List.filter_cons] at ih ⊢
    split <;> simp [ih]

theorem under_append (s : Step) (a b : List (List Step × Leaf F)) : under s (a ++ b) = under s a ++ under s b :=
  List.map_append ..

/-- The solid leaves of a value, of entries. -/
abbrev sl (v : Json F) := solid (leaves v)
abbrev sle (es : List (Str × Json F)) := solid (leavesEntries es)

theorem sl_obj (es : List (Str × Json F)) : sl (.obj es) = sle es := by
  cases es with
  | nil => rfl
  | cons e es => rfl

theorem sle_cons (k : Str) (v : Json F) (es : List (Str × Json F)) :
    sle ((k, v) :: es) = under (.key k) (sl v) ++ sle es := by
  simp only [sle, leavesEntries_cons, solid_append, solid_under]

theorem sle_append (a b : List (Str × Json F)) : sle (a ++ b) = sle a ++ sle b := by
  induction a with
  | nil => rfl
  | cons e a ih => obtain ⟨k, v⟩ := e; rw [List.cons_append, sle_cons, sle_cons, ih, List.append_assoc]

theorem sle_replace {k : Str} {c w : Json F} {x : List (List Step × Leaf F)} {a : List (Str × Json F)}
    (h : lookupKey k a = some c) (hp : (sl w).Perm (sl c ++ x)) : (sle (replaceKey k w a)).Perm (sle a ++ under (.key k) x) := by
  induction a with
  | nil => simp [lookupKey] at h
  | cons e a ih =>
    obtain ⟨k', v⟩ := e
    simp only [lookupKey] at h
    simp only [replaceKey]
    split at h
    · rename_i hk
      subst hk
      simp only [Option.some.injEq] at h
      subst h
      rw [if_pos rfl, sle_cons, sle_cons]
      refine ((hp.map _).append_right _).trans ?_
      rw [show List.map (fun l => (Step.key k' :: l.1, l.2)) (sl v ++ x) = under (.key k') (sl v) ++ under (.key k') x from
        List.map_append .., List.append_assoc, List.append_assoc]
      exact List.perm_append_comm.append_left _
    · rename_i hk
      rw [if_neg hk, sle_cons, sle_cons, List.append_assoc]
      exact (ih h).append_left _

mutual
/-- Without clash a merge keeps all leaves of both. -/
theorem deepMerge_leaves (a b : Json F) (hd : DistinctKeys b) (hc : clash a b = false) :
    (sl (deepMerge a b)).Perm (sl a ++ sl b) := by
  match b with
  | .prim p => simp [clash] at hc
  | .arr items => simp [clash] at hc
  | .obj b =>
    match a with
    | .prim p => simp [clash] at hc
    | .arr items => simp [clash] at hc
    | .obj a =>
      simp only [clash, DistinctKeys] at hc hd
      simp only [deepMerge, sl_obj]
      exact mergeObj_leaves a b hd.1 hd.2 hc
theorem mergeObj_leaves (a b : List (Str × Json F)) (hn : (b.map Prod.fst).Nodup) (hd : DistinctKeysEntries b)
    (hc : clashEntries a b = false) : (sle (mergeObj a b)).Perm (sle a ++ sle b) := by
  match b with
  | [] => rw [mergeObj]; simp [sle, leavesEntries, solid]
  | (k, v) :: b =>
    simp only [List.map_cons, List.nodup_cons, DistinctKeysEntries] at hn hd
    simp only [clashEntries, Bool.or_eq_false_iff] at hc
    rw [mergeObj_cons, sle_cons]
    have hc' : clashEntries (putMerge a k v) b = false := by
      rw [← hc.2]
      clear hc
      have : ∀ b : List (Str × Json F), k ∉ b.map Prod.fst → clashEntries (putMerge a k v) b = clashEntries a b := by
        intro b hb
        induction b with
        | nil => rfl
        | cons e b ih =>
          obtain ⟨k', v'⟩ := e
          simp only [List.map_cons, List.mem_cons, not_or] at hb
          simp only [clashEntries]
          rw [putMerge_lookup, if_neg (Ne.symm hb.1), ih hb.2]
      exact this b hn.1
    refine (mergeObj_leaves _ b hn.2 hd.2 hc').trans ?_
    rw [← List.append_assoc]
    apply List.Perm.append_right
    unfold putMerge
    cases h : lookupKey k a with
    | none =>
      simp only
      rw [sle_append, sle_cons]
      simp [sle, leavesEntries, solid]
    | some c =>
      simp only [h] at hc ⊢
      exact sle_replace h (deepMerge_leaves c v hd.1 hc.1)
end

/-- Several steps put in front. -/
def underAll (p : List Step) (l : List (List Step × Leaf F)) : List (List Step × Leaf F) := l.map fun x => (p ++ x.1, x.2)

theorem solid_underAll (p : List Step) (a : List (List Step × Leaf F)) : solid (underAll p a) = underAll p (solid a) := by
  induction a with
  | nil => rfl
  | cons x a ih =>
    simp only [solid, underAll, List.map_cons, List.filter_cons] at ih ⊢
    split <;> simp [ih]

theorem sl_nested (segs : List Str) (v : Json F) : sl (nested segs v) = underAll (segs.map .key) (sl v) := by
  induction segs with
  | nil => simp [nested, underAll]
  | cons s ss ih =>
    rw [nested, sl_obj, sle_cons, ih]
    simp [sle, leavesEntries, solid, under, underAll]

theorem sle_atPath {segs : List Str} (h : segs ≠ []) (v : Json F) : sle (atPath segs v) = underAll (segs.map .key) (sl v) := by
  cases segs with
  | nil => exact absurd rfl h
  | cons s ss => rw [← sl_nested]; rfl

theorem splitDots_ne (s : Str) : splitDots s ≠ [] := by
  cases s with
  | nil => simp [splitDots]
  | cons c cs =>
    simp only [splitDots]
    split
    · simp
    · split <;> simp

theorem keyPath_ne (q : Bool) (k : Str) : keyPath q k ≠ [] := by
  unfold keyPath
  split
  · exact splitDots_ne k
  · simp

theorem atPath_nodup (segs : List Str) (v : Json F) : ((atPath segs v).map Prod.fst).Nodup := by
  cases segs <;> simp [atPath]

theorem underAll_perm (p : List Step) {a b : List (List Step × Leaf F)} (h : a.Perm b) : (underAll p a).Perm (underAll p b) :=
  h.map _

mutual
/-- Without conflict the expanded value has exactly the leaves of the tree. -/
theorem expanded_leaves (t : ETree F) (h : conflicting t = false) : (sl (expanded t)).Perm (solid (pathLeaves t)) := by
  match t with
  | .prim p => rfl
  | .arr n [] => rfl
  | .arr n (t :: ts) =>
    have := expandedItems_leaves 0 (t :: ts) h
    rw [expandedItems] at this
    rw [expanded, pathLeaves, expandedItems, sl, leaves]
    exact this
  | .obj [] => rfl
  | .obj (e :: es) =>
    have := expandedEntries_leaves (quotedIn (e :: es)) (e :: es) [] h
    simp only [expanded, pathLeaves, sl_obj]
    exact this.trans (by simp [sle, leavesEntries, solid])
theorem expandedItems_leaves (i : Nat) (ts : List (ETree F)) (h : conflictingItems ts = false) :
    (solid (leavesItems i (expandedItems ts))).Perm (solid (pathLeavesItems i ts)) := by
  match ts with
  | [] => rfl
  | t :: ts =>
    simp only [conflictingItems, Bool.or_eq_false_iff] at h
    simp only [expandedItems, pathLeavesItems]
    rw [leavesItems_cons, solid_append, solid_append, solid_under]
    have := solid_under (.index i) (pathLeaves t)
    unfold under at this ⊢
    rw [this]
    exact ((expanded_leaves t h.1).map _).append (expandedItems_leaves (i + 1) ts h.2)
theorem expandedEntries_leaves (quoted : Str → Bool) (es : List (Str × Bool × ETree F)) (acc : List (Str × Json F))
    (h : conflictingEntries quoted es acc = false) :
    (sle (expandedEntries quoted es acc)).Perm (sle acc ++ solid (pathLeavesEntries quoted es)) := by
  match es with
  | [] => rw [expandedEntries, pathLeavesEntries]; simp [solid]
  | (k, q, t) :: es =>
    simp only [conflictingEntries, Bool.or_eq_false_iff] at h
    rw [expandedEntries, pathLeavesEntries]
    refine (expandedEntries_leaves quoted es _ h.2).trans ?_
    rw [solid_append, ← List.append_assoc]
    apply List.Perm.append_right
    refine (mergeObj_leaves acc _ (atPath_nodup _ _) (atPath_distinct _ _ (expanded_distinct t)) h.1.2).trans ?_
    apply List.Perm.append_left
    rw [sle_atPath (keyPath_ne _ _)]
    exact (underAll_perm _ (expanded_leaves t h.1.1)).trans (by rw [← solid_underAll]; rfl)
end

/-! ## With conflicts -/

theorem sle_mem {es : List (Str × Json F)} {x : List Step × Leaf F} :
    x ∈ sle es ↔ ∃ k v, (k, v) ∈ es ∧ x ∈ under (.key k) (sl v) := by
  induction es with
  | nil => simp [sle, leavesEntries, solid]
  | cons e es ih =>
    obtain ⟨k, v⟩ := e
    rw [sle_cons, List.mem_append, ih]
    constructor
    · rintro (h | ⟨k', v', h1, h2⟩)
      · exact ⟨k, v, by simp, h⟩
      · exact ⟨k', v', by simp [h1], h2⟩
    · rintro ⟨k', v', h1, h2⟩
      rcases List.mem_cons.mp h1 with h1 | h1
      · cases h1; exact Or.inl h2
      · exact Or.inr ⟨k', v', h1, h2⟩

theorem under_subset (s : Step) {a b : List (List Step × Leaf F)} (h : a ⊆ b) : under s a ⊆ under s b := List.map_subset _ h

mutual
/-- A merge makes up no leaves. -/
theorem deepMerge_subset (a b : Json F) : sl (deepMerge a b) ⊆ sl a ++ sl b := by
  match b with
  | .prim p => simp [deepMerge]
  | .arr items => simp [deepMerge]
  | .obj b =>
    match a with
    | .prim p => simp [deepMerge]
    | .arr items => simp [deepMerge]
    | .obj a => simp only [deepMerge, sl_obj]; exact mergeObj_subset a b
theorem mergeObj_subset (a b : List (Str × Json F)) : sle (mergeObj a b) ⊆ sle a ++ sle b := by
  match b with
  | [] => rw [mergeObj]; simp
  | (k, v) :: b =>
    rw [mergeObj_cons, sle_cons]
    intro x hx
    have hp : sle (putMerge a k v) ⊆ sle a ++ under (.key k) (sl v) := by
      unfold putMerge
      cases h : lookupKey k a with
      | none => simp only; rw [sle_append, sle_cons]; simp [sle, leavesEntries, solid]
      | some c =>
        simp only
        intro x hx
        rw [sle_mem] at hx
        obtain ⟨k', v', h1, h2⟩ := hx
        rcases replaceKey_mem h1 with h1 | h1
        · exact List.mem_append_left _ (sle_mem.mpr ⟨k', v', h1, h2⟩)
        · cases h1
          have := under_subset (.key k) (deepMerge_subset c v) h2
          rw [under_append] at this
          rcases List.mem_append.mp this with h3 | h3
          · exact List.mem_append_left _ (sle_mem.mpr ⟨k, c, lookup_mem h, h3⟩)
          · exact List.mem_append_right _ h3
    rcases List.mem_append.mp (mergeObj_subset _ b hx) with h | h
    · rcases List.mem_append.mp (hp h) with h | h
      · simp [h]
      · simp [h]
    · simp [h]
end

theorem lookup_unique {es : List (Str × Json F)} {k : Str} {v : Json F} (hn : (es.map Prod.fst).Nodup) (h : (k, v) ∈ es) :
    lookupKey k es = some v := by
  induction es with
  | nil => simp at h
  | cons e es ih =>
    obtain ⟨k', v'⟩ := e
    simp only [List.map_cons, List.nodup_cons] at hn
    rcases List.mem_cons.mp h with h | h
    · cases h; simp [lookupKey]
    · have : k' ≠ k := by rintro rfl; exact hn.1 (List.mem_map.mpr ⟨_, h, rfl⟩)
      simp only [lookupKey, if_neg this]
      exact ih hn.2 h

theorem mergeObj_lookup_other (a b : List (Str × Json F)) (k : Str) (h : k ∉ b.map Prod.fst) :
    lookupKey k (mergeObj a b) = lookupKey k a := by
  induction b generalizing a with
  | nil => rw [mergeObj]
  | cons e b ih =>
    obtain ⟨k', v⟩ := e
    simp only [List.map_cons, List.mem_cons, not_or] at h
    rw [mergeObj_cons, ih _ h.2, putMerge_lookup, if_neg h.1]

mutual
/-- The leaves of what is merged last are all there. -/
theorem deepMerge_last (a b : Json F) (hd : DistinctKeys b) : sl b ⊆ sl (deepMerge a b) := by
  match b with
  | .prim p => simp [deepMerge]
  | .arr items => simp [deepMerge]
  | .obj b =>
    match a with
    | .prim p => simp [deepMerge]
    | .arr items => simp [deepMerge]
    | .obj a =>
      simp only [DistinctKeys] at hd
      simp only [deepMerge, sl_obj]; exact mergeObj_last a b hd.1 hd.2
theorem mergeObj_last (a b : List (Str × Json F)) (hn : (b.map Prod.fst).Nodup) (hd : DistinctKeysEntries b) :
    sle b ⊆ sle (mergeObj a b) := by
  match b with
  | [] => simp [sle, leavesEntries, solid]
  | (k, v) :: b =>
    simp only [List.map_cons, List.nodup_cons, DistinctKeysEntries] at hn hd
    rw [mergeObj_cons, sle_cons]
    intro x hx
    rcases List.mem_append.mp hx with h | h
    · have hl := mergeObj_lookup_other (putMerge a k v) b k hn.1
      rw [putMerge_lookup, if_pos rfl] at hl
      refine sle_mem.mpr ⟨k, _, lookup_mem hl, ?_⟩
      cases hk : lookupKey k a with
      | none => exact h
      | some c => exact under_subset _ (deepMerge_last c v hd.1) h
    · exact mergeObj_last _ b hn.2 hd.2 h
end

mutual
theorem expanded_subset (t : ETree F) : sl (expanded t) ⊆ solid (pathLeaves t) := by
  match t with
  | .prim p => exact fun _ h => h
  | .arr n [] => exact fun _ h => h
  | .arr n (t :: ts) =>
    have := expandedItems_subset 0 (t :: ts)
    rw [expandedItems] at this
    rw [expanded, pathLeaves, expandedItems, sl, leaves]
    exact this
  | .obj [] => exact fun _ h => h
  | .obj (e :: es) =>
    have := expandedEntries_subset (quotedIn (e :: es)) (e :: es) []
    simp only [expanded, pathLeaves, sl_obj]
    intro x hx
    have := this hx
    simpa [sle, leavesEntries, solid] using this
theorem expandedItems_subset (i : Nat) (ts : List (ETree F)) :
    solid (leavesItems i (expandedItems ts)) ⊆ solid (pathLeavesItems i ts) := by
  match ts with
  | [] => exact fun _ h => h
  | t :: ts =>
    simp only [expandedItems, pathLeavesItems]
    rw [leavesItems_cons, solid_append, solid_append, solid_under]
    have := solid_under (.index i) (pathLeaves t)
    unfold under at this ⊢
    rw [this]
    intro x hx
    rcases List.mem_append.mp hx with hx | hx
    · exact List.mem_append_left _ (List.map_subset _ (expanded_subset t) hx)
    · exact List.mem_append_right _ (expandedItems_subset (i + 1) ts hx)
theorem expandedEntries_subset (quoted : Str → Bool) (es : List (Str × Bool × ETree F)) (acc : List (Str × Json F)) :
    sle (expandedEntries quoted es acc) ⊆ sle acc ++ solid (pathLeavesEntries quoted es) := by
  match es with
  | [] => rw [expandedEntries, pathLeavesEntries]; simp
  | (k, q, t) :: es =>
    rw [expandedEntries, pathLeavesEntries]
    intro x hx
    rw [solid_append]
    rcases List.mem_append.mp (expandedEntries_subset quoted es _ hx) with h | h
    · rcases List.mem_append.mp (mergeObj_subset _ _ h) with h | h
      · simp [h]
      · rw [sle_atPath (keyPath_ne _ _)] at h
        refine List.mem_append_right _ (List.mem_append_left _ ?_)
        have : x ∈ underAll ((keyPath (quoted k) k).map .key) (solid (pathLeaves t)) :=
          List.map_subset _ (expanded_subset t) h
        rw [← solid_underAll] at this
        exact this
    · simp [h]
end

theorem expandedEntries_append (quoted : Str → Bool) (es es' : List (Str × Bool × ETree F)) (acc : List (Str × Json F)) :
    expandedEntries quoted (es ++ es') acc = expandedEntries quoted es' (expandedEntries quoted es acc) := by
  induction es generalizing acc with
  | nil => rw [List.nil_append, expandedEntries]
  | cons e es ih => obtain ⟨k, q, t⟩ := e; rw [List.cons_append, expandedEntries, expandedEntries, ih]

/-- The leaves of the last entry are all there. -/
theorem expanded_last (es : List (Str × Bool × ETree F)) (k : Str) (q : Bool) (t : ETree F) :
    underAll ((keyPath (quotedIn (es ++ [(k, q, t)]) k) k).map .key) (sl (expanded t)) ⊆ sl (expanded (.obj (es ++ [(k, q, t)]))) := by
  rw [expanded, sl_obj, expandedEntries_append, expandedEntries, expandedEntries, ← sle_atPath (keyPath_ne _ _)]
  exact mergeObj_last _ _ (atPath_nodup _ _) (atPath_distinct _ _ (expanded_distinct t))

end

end Toon
