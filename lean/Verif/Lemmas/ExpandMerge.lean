import Verif.Spec.Expansion
import Verif.Lemmas.ExpandFresh

/-! Path expansion is deep merging. -/

namespace Toon

section
variable {F : Type}

/-! ## Entries -/

theorem lookup_entries (k : Str) (es : List (Str × Node F)) :
    lookupKey k (entriesToJson es) = (entryGet es k).map nodeToJson := by
  induction es with
  | nil => rfl
  | cons e es ih =>
    obtain ⟨k', v⟩ := e
    simp only [entriesToJson, lookupKey, entryGet]
    split
    · rfl
    · exact ih

theorem entries_set (k : Str) (n : Node F) (es : List (Str × Node F)) :
    entriesToJson (entrySet es k n) = replaceKey k (nodeToJson n) (entriesToJson es) := by
  induction es with
  | nil => rfl
  | cons e es ih =>
    obtain ⟨k', v⟩ := e
    simp only [entriesToJson, replaceKey, entrySet]
    split
    · rfl
    · simp only [entriesToJson, ih]

theorem entries_append (xs ys : List (Str × Node F)) :
    entriesToJson (xs ++ ys) = entriesToJson xs ++ entriesToJson ys := by
  induction xs with
  | nil => rfl
  | cons e es ih => obtain ⟨k, v⟩ := e; simp only [List.cons_append, entriesToJson, ih]

theorem replaceKey_keys (k : Str) (v : Json F) (es : List (Str × Json F)) :
    (replaceKey k v es).map Prod.fst = es.map Prod.fst := by
  induction es with
  | nil => rfl
  | cons e es ih =>
    obtain ⟨k', v'⟩ := e
    simp only [replaceKey]
    split
    · rfl
    · simp only [List.map_cons, ih]

theorem lookup_none {k : Str} {es : List (Str × Json F)} : lookupKey k es = none ↔ k ∉ es.map Prod.fst := by
  induction es with
  | nil => simp [lookupKey]
  | cons e es ih =>
    obtain ⟨k', v⟩ := e
    simp only [lookupKey, List.map_cons, List.mem_cons]
    split
    · rename_i h; simp [h]
    · rename_i h; rw [ih]; simp [Ne.symm h]

theorem lookup_mem {k : Str} {v : Json F} {es : List (Str × Json F)} (h : lookupKey k es = some v) : (k, v) ∈ es := by
  induction es with
  | nil => simp [lookupKey] at h
  | cons e es ih =>
    obtain ⟨k', v'⟩ := e
    simp only [lookupKey] at h
    split at h
    · rename_i hk; simp only [Option.some.injEq] at h; subst h; subst hk; simp
    · simp [ih h]

theorem lookup_append (k : Str) (xs ys : List (Str × Json F)) :
    lookupKey k (xs ++ ys) = (lookupKey k xs).or (lookupKey k ys) := by
  induction xs with
  | nil => simp [lookupKey]
  | cons e es ih =>
    obtain ⟨k', v'⟩ := e
    simp only [List.cons_append, lookupKey]
    split
    · simp
    · exact ih

theorem lookup_replace (k k' : Str) (v : Json F) (es : List (Str × Json F)) :
    lookupKey k' (replaceKey k v es) = if k' = k ∧ (lookupKey k es).isSome then some v else lookupKey k' es := by
  induction es with
  | nil => simp [replaceKey, lookupKey]
  | cons e es ih =>
    obtain ⟨k1, v1⟩ := e
    simp only [replaceKey]
    by_cases h1 : k1 = k
    · subst h1
      simp only [if_true, lookupKey]
      by_cases h2 : k1 = k'
      · subst h2; simp
      · rw [if_neg h2, if_neg h2, if_neg (by simp; intro h; exact absurd h.symm h2)]
    · simp only [if_neg h1, lookupKey]
      by_cases h2 : k1 = k'
      · subst h2; rw [if_pos rfl, if_pos rfl, if_neg (by simp [h1])]
      · rw [if_neg h2, if_neg h2, ih]

/-- One entry merged into the entries of an object. -/
def putMerge (a : List (Str × Json F)) (k : Str) (v : Json F) : List (Str × Json F) :=
  match lookupKey k a with
  | none => a ++ [(k, v)]
  | some c => replaceKey k (deepMerge c v) a

theorem mergeObj_cons (a : List (Str × Json F)) (k : Str) (v : Json F) (b : List (Str × Json F)) :
    mergeObj a ((k, v) :: b) = mergeObj (putMerge a k v) b := by
  rw [mergeObj]
  rfl

theorem putMerge_lookup (a : List (Str × Json F)) (k k' : Str) (v : Json F) :
    lookupKey k' (putMerge a k v) =
      if k' = k then some (match lookupKey k a with | none => v | some c => deepMerge c v) else lookupKey k' a := by
  unfold putMerge
  cases h : lookupKey k a with
  | none =>
    simp only [lookup_append, lookupKey]
    by_cases hk : k' = k
    · subst hk; simp [h]
    · rw [if_neg (Ne.symm hk), if_neg hk]; simp
  | some c => simp [lookup_replace, h]

/-! ## Distinct keys -/

theorem distinctEntries_iff {es : List (Str × Json F)} : DistinctKeysEntries es ↔ ∀ e ∈ es, DistinctKeys e.2 := by
  induction es with
  | nil => simp [DistinctKeysEntries]
  | cons e es ih => obtain ⟨k, v⟩ := e; simp [DistinctKeysEntries, ih]

theorem replaceKey_mem {k : Str} {v : Json F} {es : List (Str × Json F)} {e : Str × Json F} (h : e ∈ replaceKey k v es) :
    e ∈ es ∨ e = (k, v) := by
  induction es with
  | nil => simp [replaceKey] at h
  | cons e' es ih =>
    obtain ⟨k', v'⟩ := e'
    simp only [replaceKey] at h
    split at h
    · rename_i hk
      rcases List.mem_cons.mp h with h | h
      · exact Or.inr (by rw [h, hk])
      · exact Or.inl (by simp [h])
    · rcases List.mem_cons.mp h with h | h
      · exact Or.inl (by simp [h])
      · rcases ih h with h | h
        · exact Or.inl (by simp [h])
        · exact Or.inr h

mutual
theorem deepMerge_distinct (a b : Json F) (ha : DistinctKeys a) (hb : DistinctKeys b) : DistinctKeys (deepMerge a b) := by
  match b with
  | .prim p => trivial
  | .arr items => exact hb
  | .obj es =>
    rw [deepMerge.eq_def]
    match a with
    | .prim p => exact hb
    | .arr items => exact hb
    | .obj a =>
      simp only [DistinctKeys] at ha hb ⊢
      exact mergeObj_distinct a es ha.1 ha.2 hb.2
theorem mergeObj_distinct (a b : List (Str × Json F)) (ha : (a.map Prod.fst).Nodup) (ha' : DistinctKeysEntries a)
    (hb : DistinctKeysEntries b) : ((mergeObj a b).map Prod.fst).Nodup ∧ DistinctKeysEntries (mergeObj a b) := by
  match b with
  | [] => rw [mergeObj]; exact ⟨ha, ha'⟩
  | (k, v) :: b =>
    simp only [DistinctKeysEntries] at hb
    rw [mergeObj_cons]
    have : ((putMerge a k v).map Prod.fst).Nodup ∧ DistinctKeysEntries (putMerge a k v) := by
      unfold putMerge
      split
      · rename_i h
        rw [lookup_none] at h
        refine ⟨?_, ?_⟩
        · rw [List.map_append, List.nodup_append]
          refine ⟨ha, by simp, ?_⟩
          intro x hx y hy
          simp only [List.map_cons, List.map_nil, List.mem_singleton] at hy
          subst hy
          rintro rfl
          exact h hx
        · rw [distinctEntries_iff] at ha' ⊢
          intro e he
          rcases List.mem_append.mp he with he | he
          · exact ha' e he
          · simp only [List.mem_singleton] at he; subst he; exact hb.1
      · rename_i c h
        refine ⟨by rw [replaceKey_keys]; exact ha, ?_⟩
        have hc : DistinctKeys c := distinctEntries_iff.mp ha' _ (lookup_mem h)
        rw [distinctEntries_iff] at ha' ⊢
        intro e he
        rcases replaceKey_mem he with he | rfl
        · exact ha' e he
        · exact deepMerge_distinct c v hc hb.1
    exact mergeObj_distinct _ b this.1 this.2 hb.2
end

theorem nested_distinct (segs : List Str) (v : Json F) (h : DistinctKeys v) : DistinctKeys (nested segs v) := by
  induction segs with
  | nil => exact h
  | cons s ss ih => exact ⟨by simp, ih, trivial⟩

theorem atPath_distinct (segs : List Str) (v : Json F) (h : DistinctKeys v) : DistinctKeysEntries (atPath segs v) := by
  cases segs with
  | nil => trivial
  | cons s ss => exact ⟨nested_distinct ss v h, trivial⟩

mutual
theorem expanded_distinct (t : ETree F) : DistinctKeys (expanded t) := by
  match t with
  | .prim p => trivial
  | .arr n items => simp only [expanded, DistinctKeys]; exact expandedItems_distinct items
  | .obj es => simp only [expanded, DistinctKeys]; exact expandedEntries_distinct (quotedIn es) es [] (by simp) trivial
theorem expandedItems_distinct (ts : List (ETree F)) : DistinctKeysItems (expandedItems ts) := by
  match ts with
  | [] => trivial
  | t :: ts => exact ⟨expanded_distinct t, expandedItems_distinct ts⟩
theorem expandedEntries_distinct (quoted : Str → Bool) (es : List (Str × Bool × ETree F)) (acc : List (Str × Json F))
    (ha : (acc.map Prod.fst).Nodup) (ha' : DistinctKeysEntries acc) :
    ((expandedEntries quoted es acc).map Prod.fst).Nodup ∧ DistinctKeysEntries (expandedEntries quoted es acc) := by
  match es with
  | [] => rw [expandedEntries]; exact ⟨ha, ha'⟩
  | (k, q, t) :: es =>
    rw [expandedEntries]
    have := mergeObj_distinct acc (atPath (keyPath (quoted k) k) (expanded t)) ha ha' (atPath_distinct _ _ (expanded_distinct t))
    exact expandedEntries_distinct quoted es _ this.1 this.2
end

/-! ## The model merges -/

mutual
theorem mergeInto_merge {strict : Bool} {depth : Nat} {target out : List (Str × Node F)} {source : Node F}
    (h : mergeInto strict depth target source = .ok out) :
    deepMerge (.obj (entriesToJson target)) (nodeToJson source) = .obj (entriesToJson out) := by
  match source with
  | .obj entries q =>
    rw [mergeInto] at h
    split at h
    · simp at h
    · simp only [nodeToJson, deepMerge]
      rw [mergeEntries_merge h]
  | .prim _ => simp [mergeInto] at h
  | .arr _ => simp [mergeInto] at h
theorem mergeEntries_merge {strict : Bool} {depth : Nat} {target out source : List (Str × Node F)}
    (h : mergeEntries strict depth target source = .ok out) :
    mergeObj (entriesToJson target) (entriesToJson source) = entriesToJson out := by
  match source with
  | [] => simp only [mergeEntries, Except.ok.injEq] at h; subst h; rfl
  | (key, value) :: rest =>
    rw [mergeEntries] at h
    rw [entriesToJson, mergeObj_cons]
    have hput : ∀ n, entryGet target key = some n →
        putMerge (entriesToJson target) key (nodeToJson value) =
          replaceKey key (deepMerge (nodeToJson n) (nodeToJson value)) (entriesToJson target) := by
      intro n hn
      unfold putMerge
      rw [lookup_entries, hn]
      rfl
    split at h
    · rename_i hg
      rw [← mergeEntries_merge h, entries_append]
      unfold putMerge
      rw [lookup_entries, hg]
      rfl
    · rename_i es q hg
      rw [hput _ hg]
      split at h
      · split at h
        · simp at h
        · rename_i merged hm
          rw [← mergeEntries_merge h, entries_set]
          simp only [nodeToJson] at hm ⊢
          have := mergeInto_merge hm
          simp only [nodeToJson] at this
          rw [this]
      · rename_i hv
        split at h
        · simp at h
        · rw [← mergeEntries_merge h, entries_set]
          cases value with
          | obj _ _ => exact absurd rfl (hv _ _)
          | prim p => rfl
          | arr items => rfl
    · rename_i n hn hg
      rw [hput _ hg]
      split at h
      · simp at h
      · rw [← mergeEntries_merge h, entries_set]
        cases n with
        | obj es q => exact absurd rfl (hn _ _)
        | prim p => cases value <;> rfl
        | arr items => cases value <;> rfl
end

end

end Toon
