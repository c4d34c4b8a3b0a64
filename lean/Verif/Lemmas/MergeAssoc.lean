import Verif.Lemmas.ExpandLeaves
import Verif.Lemmas.ExpandSpec

/-! Deep merging is associative where nothing is replaced. -/

namespace Toon

section
variable {F : Type}

theorem mergeObj_append (a b c : List (Str × Json F)) : mergeObj a (b ++ c) = mergeObj (mergeObj a b) c := by
  induction b generalizing a with
  | nil => rw [List.nil_append, mergeObj]
  | cons e b ih => obtain ⟨k, v⟩ := e; rw [List.cons_append, mergeObj_cons, mergeObj_cons, ih]

theorem mergeObj_one (a : List (Str × Json F)) (k : Str) (v : Json F) : mergeObj a [(k, v)] = putMerge a k v := by
  rw [mergeObj_cons, mergeObj]

theorem replaceKey_comm {k k' : Str} (h : k ≠ k') (v v' : Json F) (a : List (Str × Json F)) :
    replaceKey k v (replaceKey k' v' a) = replaceKey k' v' (replaceKey k v a) := by
  induction a with
  | nil => rfl
  | cons e a ih =>
    obtain ⟨k1, v1⟩ := e
    by_cases h1 : k1 = k
    · subst h1
      simp only [replaceKey, if_neg h, if_true]
    · by_cases h2 : k1 = k'
      · subst h2; simp only [replaceKey, if_neg h1, if_true]
      · simp only [replaceKey, if_neg h1, if_neg h2, ih]

theorem replaceKey_twice (k : Str) (v v' : Json F) (a : List (Str × Json F)) :
    replaceKey k v (replaceKey k v' a) = replaceKey k v a := by
  induction a with
  | nil => rfl
  | cons e a ih =>
    obtain ⟨k1, v1⟩ := e
    by_cases h1 : k1 = k
    · subst h1; simp only [replaceKey, if_true]
    · simp only [replaceKey, if_neg h1, ih]

theorem replaceKey_append {k : Str} {v : Json F} {a b : List (Str × Json F)} (h : (lookupKey k a).isSome) :
    replaceKey k v (a ++ b) = replaceKey k v a ++ b := by
  induction a with
  | nil => simp [lookupKey] at h
  | cons e a ih =>
    obtain ⟨k1, v1⟩ := e
    by_cases h1 : k1 = k
    · subst h1; simp only [List.cons_append, replaceKey, if_true]
    · simp only [lookupKey, if_neg h1] at h
      simp only [List.cons_append, replaceKey, if_neg h1, ih h]

theorem replaceKey_end {k : Str} {v w : Json F} {a : List (Str × Json F)} (h : lookupKey k a = none) :
    replaceKey k v (a ++ [(k, w)]) = a ++ [(k, v)] := by
  induction a with
  | nil => simp [replaceKey]
  | cons e a ih =>
    obtain ⟨k1, v1⟩ := e
    by_cases h1 : k1 = k
    · simp [lookupKey, h1] at h
    · simp only [lookupKey, if_neg h1] at h
      simp only [List.cons_append, replaceKey, if_neg h1, ih h]

/-- Different keys can be put in either order, if the one that goes first instead of last is there already. -/
theorem putMerge_comm {k k' : Str} (hk : k ≠ k') (v v' : Json F) (a : List (Str × Json F)) (h : (lookupKey k a).isSome) :
    putMerge (putMerge a k' v') k v = putMerge (putMerge a k v) k' v' := by
  obtain ⟨c, hc⟩ := Option.isSome_iff_exists.mp h
  have h1 : lookupKey k (putMerge a k' v') = some c := by rw [putMerge_lookup, if_neg hk, hc]
  have h2 : lookupKey k' (putMerge a k v) = lookupKey k' a := by rw [putMerge_lookup, if_neg (Ne.symm hk)]
  rw [putMerge, h1, putMerge.eq_def (putMerge a k v) k' v', h2]
  simp only [putMerge, hc]
  cases h3 : lookupKey k' a with
  | none => simp only []; rw [replaceKey_append h]
  | some d => simp only []; rw [replaceKey_comm hk]

theorem mergeObj_put_comm {k : Str} (v : Json F) (b : List (Str × Json F)) (hb : k ∉ b.map Prod.fst) :
    ∀ a : List (Str × Json F), (lookupKey k a).isSome → putMerge (mergeObj a b) k v = mergeObj (putMerge a k v) b := by
  induction b with
  | nil => intro a _; rw [mergeObj, mergeObj]
  | cons e b ih =>
    obtain ⟨k', v'⟩ := e
    intro a h
    simp only [List.map_cons, List.mem_cons, not_or] at hb
    rw [mergeObj_cons, mergeObj_cons, ih hb.2, putMerge_comm hb.1 v v' a h]
    rw [putMerge_lookup, if_neg hb.1]; exact h

/-- Putting a value and merging another one into it. -/
theorem putMerge_twice {k : Str} {c v : Json F} {a : List (Str × Json F)}
    (h : ∀ d, lookupKey k a = some d → deepMerge (deepMerge d c) v = deepMerge d (deepMerge c v)) :
    putMerge (putMerge a k c) k v = putMerge a k (deepMerge c v) := by
  have h1 : lookupKey k (putMerge a k c) = some (match lookupKey k a with | none => c | some d => deepMerge d c) := by
    rw [putMerge_lookup, if_pos rfl]
    cases lookupKey k a <;> rfl
  rw [putMerge, h1]
  simp only [putMerge]
  cases h2 : lookupKey k a with
  | none => simp only []; rw [replaceKey_end h2]
  | some d => simp only []; rw [replaceKey_twice, h d h2]

/-- Putting an entry into the second of two merged objects. -/
theorem mergeObj_put {k : Str} {v : Json F} (b : List (Str × Json F)) (hn : (b.map Prod.fst).Nodup)
    (h : ∀ c, lookupKey k b = some c → ∀ d, deepMerge (deepMerge d c) v = deepMerge d (deepMerge c v)) :
    ∀ a : List (Str × Json F), mergeObj a (putMerge b k v) = putMerge (mergeObj a b) k v := by
  cases hl : lookupKey k b with
  | none => intro a; rw [putMerge, hl]; simp only []; rw [mergeObj_append, mergeObj_one]
  | some c =>
    have hc := h c hl
    have hp : putMerge b k v = replaceKey k (deepMerge c v) b := by rw [putMerge, hl]
    rw [hp]
    clear h hp
    induction b with
    | nil => simp [lookupKey] at hl
    | cons e b ih =>
      obtain ⟨k0, w⟩ := e
      intro a
      simp only [List.map_cons, List.nodup_cons] at hn
      by_cases h1 : k0 = k
      · subst h1
        simp only [lookupKey, if_true, Option.some.injEq] at hl
        subst hl
        simp only [replaceKey, if_true]
        rw [mergeObj_cons, mergeObj_cons, mergeObj_put_comm v b hn.1 _ (by rw [putMerge_lookup, if_pos rfl]; rfl),
          putMerge_twice (fun d _ => hc d)]
      · simp only [lookupKey, if_neg h1] at hl
        simp only [replaceKey, if_neg h1]
        rw [mergeObj_cons, mergeObj_cons, ih hn.2 hl]

mutual
/-- Deep merging is associative if the third value replaces nothing of the second. -/
theorem deepMerge_assoc (a b c : Json F) (hb : DistinctKeys b) (hd : DistinctKeys c) (h : clash b c = false) :
    deepMerge (deepMerge a b) c = deepMerge a (deepMerge b c) := by
  match c with
  | .prim p => simp [clash] at h
  | .arr items => simp [clash] at h
  | .obj cs =>
    match b with
    | .prim p => simp [clash] at h
    | .arr items => simp [clash] at h
    | .obj bs =>
      simp only [clash] at h
      simp only [DistinctKeys] at hd hb
      match a with
      | .prim p => simp only [deepMerge]
      | .arr items => simp only [deepMerge]
      | .obj as => simp only [deepMerge]; rw [mergeObj_assoc as bs cs hb.1 hb.2 hd.1 hd.2 h]
theorem mergeObj_assoc (a b c : List (Str × Json F)) (hb : (b.map Prod.fst).Nodup) (hb' : DistinctKeysEntries b)
    (hn : (c.map Prod.fst).Nodup) (hd : DistinctKeysEntries c) (h : clashEntries b c = false) :
    mergeObj (mergeObj a b) c = mergeObj a (mergeObj b c) := by
  match c with
  | [] => simp only [mergeObj]
  | (k, v) :: c =>
    simp only [List.map_cons, List.nodup_cons] at hn
    simp only [DistinctKeysEntries] at hd
    simp only [clashEntries, Bool.or_eq_false_iff] at h
    have hp := mergeObj_put (k := k) (v := v) b hb (by
      intro c' hc' d
      rw [hc'] at h
      exact deepMerge_assoc d c' v (distinctEntries_iff.mp hb' _ (lookup_mem hc')) hd.1 h.1) a
    have hq := mergeObj_distinct b [(k, v)] hb hb' ⟨hd.1, trivial⟩
    rw [mergeObj_one] at hq
    rw [mergeObj_cons, mergeObj_cons, ← hp]
    exact mergeObj_assoc a (putMerge b k v) c hq.1 hq.2 hn.2 hd.2 (by rw [clashEntries_put hn.1]; exact h.2)
end

/-! ## Conflicts -/

theorem clashEntries_append (a b c : List (Str × Json F)) :
    clashEntries a (b ++ c) = (clashEntries a b || clashEntries a c) := by
  induction b with
  | nil => simp [clashEntries]
  | cons e b ih => obtain ⟨k, v⟩ := e; simp only [List.cons_append, clashEntries, ih, Bool.or_assoc]

/-- What is at a key, if anything, cannot take the value. -/
def clashAt (a : List (Str × Json F)) (k : Str) (v : Json F) : Bool :=
  match lookupKey k a with
  | none => false
  | some c => clash c v

theorem clashEntries_cons (a : List (Str × Json F)) (k : Str) (v : Json F) (b : List (Str × Json F)) :
    clashEntries a ((k, v) :: b) = (clashAt a k v || clashEntries a b) := by
  rw [clashEntries]; rfl

theorem lookup_merged {k : Str} {c : Json F} {b : List (Str × Json F)} (hn : (b.map Prod.fst).Nodup)
    (hl : lookupKey k b = some c) : ∀ a : List (Str × Json F),
    lookupKey k (mergeObj a b) = some (match lookupKey k a with | none => c | some d => deepMerge d c) := by
  induction b with
  | nil => simp [lookupKey] at hl
  | cons e b ih =>
    intro a
    obtain ⟨k0, w⟩ := e
    simp only [List.map_cons, List.nodup_cons] at hn
    by_cases h1 : k0 = k
    · subst h1
      simp only [lookupKey, if_true, Option.some.injEq] at hl
      subst hl
      rw [mergeObj_cons, mergeObj_lookup_other _ _ _ hn.1, putMerge_lookup, if_pos rfl]
      cases lookupKey k0 a <;> rfl
    · simp only [lookupKey, if_neg h1] at hl
      rw [mergeObj_cons, ih hn.2 hl, putMerge_lookup, if_neg (Ne.symm h1)]

theorem clashEntries_putted {k : Str} {v : Json F} (a : List (Str × Json F)) :
    ∀ b : List (Str × Json F), (b.map Prod.fst).Nodup →
    (∀ c, lookupKey k b = some c → ∀ d, clash d (deepMerge c v) = (clash d c || clash (deepMerge d c) v)) →
    (∀ c, lookupKey k b = some c → clash c v = false) →
    clashEntries a (putMerge b k v) = (clashEntries a b || clashAt (mergeObj a b) k v) := by
  intro b hn h hv
  cases hl : lookupKey k b with
  | none =>
    rw [putMerge, hl]
    simp only []
    rw [clashEntries_append, clashEntries_cons, clashAt, clashAt, mergeObj_lookup_other a b k (lookup_none.mp hl)]
    simp [clashEntries]
  | some c =>
    have hc := h c hl
    have hv' := hv c hl
    clear hv
    have hp : putMerge b k v = replaceKey k (deepMerge c v) b := by rw [putMerge, hl]
    rw [hp]
    have hm : clashAt (mergeObj a b) k v = (match lookupKey k a with | none => false | some d => clash (deepMerge d c) v) := by
      have := lookup_merged hn hl a
      rw [clashAt, this]
      cases lookupKey k a with
      | none => exact hv'
      | some d => rfl
    rw [hm]
    clear hm hp h hv'
    induction b with
    | nil => simp [lookupKey] at hl
    | cons e b ih =>
      obtain ⟨k0, w⟩ := e
      simp only [List.map_cons, List.nodup_cons] at hn
      by_cases h1 : k0 = k
      · subst h1
        simp only [lookupKey, if_true, Option.some.injEq] at hl
        subst hl
        simp only [replaceKey, if_true, clashEntries_cons, clashAt]
        cases lookupKey k0 a with
        | none => simp
        | some d =>
          simp only [hc d]
          cases clash d w <;> cases clash (deepMerge d w) v <;> cases clashEntries a b <;> rfl
      · simp only [lookupKey, if_neg h1] at hl
        simp only [replaceKey, if_neg h1, clashEntries_cons, ih hn.2 hl, Bool.or_assoc]

mutual
/-- Merging a merged value replaces something exactly if merging its first part does, or its second part after it. -/
theorem clash_merge (a b c : Json F) (hb : DistinctKeys b) (hd : DistinctKeys c) (h : clash b c = false) :
    clash a (deepMerge b c) = (clash a b || clash (deepMerge a b) c) := by
  match c with
  | .prim p => simp [clash] at h
  | .arr items => simp [clash] at h
  | .obj cs =>
    match b with
    | .prim p => simp [clash] at h
    | .arr items => simp [clash] at h
    | .obj bs =>
      simp only [clash] at h
      simp only [DistinctKeys] at hd hb
      match a with
      | .prim p => simp [deepMerge, clash]
      | .arr items => simp [deepMerge, clash]
      | .obj as => simp only [deepMerge, clash]; exact clashEntries_merge as bs cs hb.1 hb.2 hd.1 hd.2 h
theorem clashEntries_merge (a b c : List (Str × Json F)) (hb : (b.map Prod.fst).Nodup) (hb' : DistinctKeysEntries b)
    (hn : (c.map Prod.fst).Nodup) (hd : DistinctKeysEntries c) (h : clashEntries b c = false) :
    clashEntries a (mergeObj b c) = (clashEntries a b || clashEntries (mergeObj a b) c) := by
  match c with
  | [] => simp [mergeObj, clashEntries]
  | (k, v) :: c =>
    simp only [List.map_cons, List.nodup_cons] at hn
    simp only [DistinctKeysEntries] at hd
    rw [clashEntries_cons, clashAt, Bool.or_eq_false_iff] at h
    have hv : ∀ c, lookupKey k b = some c → clash c v = false := by
      intro c' hc'; rw [hc'] at h; exact h.1
    have hp := clashEntries_putted (k := k) (v := v) a b hb (by
      intro c' hc' d
      exact clash_merge d c' v (distinctEntries_iff.mp hb' _ (lookup_mem hc')) hd.1 (hv c' hc')) hv
    have hq := mergeObj_distinct b [(k, v)] hb hb' ⟨hd.1, trivial⟩
    rw [mergeObj_one] at hq
    have hm := mergeObj_put (k := k) (v := v) b hb (by
      intro c' hc' d
      exact deepMerge_assoc d c' v (distinctEntries_iff.mp hb' _ (lookup_mem hc')) hd.1 (hv c' hc')) a
    rw [mergeObj_cons, clashEntries_merge a (putMerge b k v) c hq.1 hq.2 hn.2 hd.2 (by rw [clashEntries_put hn.1]; exact h.2),
      hp, hm, clashEntries_put hn.1, clashEntries_cons, Bool.or_assoc]
end

/-! ## Entries of a tree -/

theorem expandedEntries_merge (quoted : Str → Bool) (es : List (Str × Bool × ETree F)) :
    ∀ acc b : List (Str × Json F), (b.map Prod.fst).Nodup → DistinctKeysEntries b → conflictingEntries quoted es b = false →
    expandedEntries quoted es (mergeObj acc b) = mergeObj acc (expandedEntries quoted es b) ∧
    clashEntries acc (expandedEntries quoted es b) = (clashEntries acc b || conflictingEntries quoted es (mergeObj acc b)) := by
  induction es with
  | nil => intro acc b _ _ _; simp [expandedEntries, conflictingEntries]
  | cons e es ih =>
    obtain ⟨k, q, t⟩ := e
    intro acc b hb hb' hc
    simp only [conflictingEntries, Bool.or_eq_false_iff] at hc
    have hd := atPath_distinct (keyPath (quoted k) k) (expanded t) (expanded_distinct t)
    have hn := atPath_nodup (keyPath (quoted k) k) (expanded t)
    have hq := mergeObj_distinct b _ hb hb' hd
    obtain ⟨h1, h2⟩ := ih acc _ hq.1 hq.2 hc.2
    rw [← mergeObj_assoc acc b _ hb hb' hn hd hc.1.2] at h1 h2
    simp only [expandedEntries, conflictingEntries]
    refine ⟨h1, ?_⟩
    rw [h2, clashEntries_merge acc b _ hb hb' hn hd hc.1.2, hc.1.1, Bool.false_or, Bool.or_assoc]

mutual
/-- What can be merged into a merged value can be merged into its second part. -/
theorem clash_second (a b c : Json F) (hb : DistinctKeys b) (h : clash (deepMerge a b) c = false) : clash b c = false := by
  match c with
  | .prim p => simp [clash] at h
  | .arr items => simp [clash] at h
  | .obj cs =>
    match b with
    | .prim p => simp [deepMerge, clash] at h
    | .arr items => simp [deepMerge, clash] at h
    | .obj bs =>
      simp only [DistinctKeys] at hb
      match a with
      | .prim p => simpa only [deepMerge] using h
      | .arr items => simpa only [deepMerge] using h
      | .obj as => simp only [deepMerge, clash] at h ⊢; exact clashEntries_second as bs cs hb.1 hb.2 h
theorem clashEntries_second (a b c : List (Str × Json F)) (hb : (b.map Prod.fst).Nodup) (hb' : DistinctKeysEntries b)
    (h : clashEntries (mergeObj a b) c = false) : clashEntries b c = false := by
  match c with
  | [] => rfl
  | (k, v) :: c =>
    rw [clashEntries_cons, Bool.or_eq_false_iff] at h ⊢
    refine ⟨?_, clashEntries_second a b c hb hb' h.2⟩
    rw [clashAt]
    cases hl : lookupKey k b with
    | none => rfl
    | some x =>
      have h1 := h.1
      rw [clashAt, lookup_merged hb hl] at h1
      cases h2 : lookupKey k a with
      | none => rw [h2] at h1; exact h1
      | some d => rw [h2] at h1; exact clash_second d x v (distinctEntries_iff.mp hb' _ (lookup_mem hl)) h1
end

theorem conflictingEntries_second (quoted : Str → Bool) (es : List (Str × Bool × ETree F)) :
    ∀ a b : List (Str × Json F), (b.map Prod.fst).Nodup → DistinctKeysEntries b →
    conflictingEntries quoted es (mergeObj a b) = false → conflictingEntries quoted es b = false := by
  induction es with
  | nil => intro a b _ _ _; rfl
  | cons e es ih =>
    obtain ⟨k, q, t⟩ := e
    intro a b hb hb' h
    simp only [conflictingEntries, Bool.or_eq_false_iff] at h ⊢
    have h1 := clashEntries_second a b _ hb hb' h.1.2
    have hd := atPath_distinct (keyPath (quoted k) k) (expanded t) (expanded_distinct t)
    have hq := mergeObj_distinct b _ hb hb' hd
    refine ⟨⟨h.1.1, h1⟩, ih a _ hq.1 hq.2 ?_⟩
    rw [← mergeObj_assoc a b _ hb hb' (atPath_nodup _ _) hd h1]
    exact h.2

theorem conflictingEntries_append (quoted : Str → Bool) (es es' : List (Str × Bool × ETree F)) (acc : List (Str × Json F)) :
    conflictingEntries quoted (es ++ es') acc =
      (conflictingEntries quoted es acc || conflictingEntries quoted es' (expandedEntries quoted es acc)) := by
  induction es generalizing acc with
  | nil => simp [conflictingEntries, expandedEntries]
  | cons e es ih =>
    obtain ⟨k, q, t⟩ := e
    simp only [List.cons_append, conflictingEntries, expandedEntries, ih, Bool.or_assoc]

/-- Only the paths that the keys stand for matter. -/
theorem expandedEntries_paths {q q' : Str → Bool} (es : List (Str × Bool × ETree F))
    (h : ∀ e ∈ es, keyPath (q e.1) e.1 = keyPath (q' e.1) e.1) : ∀ acc : List (Str × Json F),
    expandedEntries q es acc = expandedEntries q' es acc ∧ conflictingEntries q es acc = conflictingEntries q' es acc := by
  induction es with
  | nil => intro acc; exact ⟨rfl, rfl⟩
  | cons e es ih =>
    obtain ⟨k, b, t⟩ := e
    intro acc
    have h1 := h (k, b, t) (by simp)
    simp only at h1
    simp only [expandedEntries, conflictingEntries, h1]
    obtain ⟨h2, h3⟩ := ih (fun e he => h e (by simp [he])) (mergeObj acc (atPath (keyPath (q' k) k) (expanded t)))
    exact ⟨h2, by rw [h3]⟩

end

end Toon
