import Verif.Spec.Conflicts
import Verif.Lemmas.ExpandSpec

/-! The conflict that path expansion reports is the first one. -/

namespace Toon

section
variable {F : Type}

/-- A strict run finishes only without conflict, and the conflict it reports is this one. -/
def Told {α : Type} (r : Except Err α) (o : Option Conflict) : Prop :=
  (∀ x, r = .ok x → o = none) ∧ (∀ c, r = .error (.pathConflict c) → o = some c)

theorem entriesConflict_congr {a a' : List (Str × Json F)} {b : List (Str × Json F)}
    (h : ∀ k ∈ b.map Prod.fst, lookupKey k a = lookupKey k a') : entriesConflict a b = entriesConflict a' b := by
  induction b with
  | nil => rfl
  | cons e b ih =>
    obtain ⟨k, v⟩ := e
    simp only [entriesConflict]
    rw [h k (by simp), ih (fun k hk => h k (by simp [hk]))]

theorem entriesConflict_put {a b : List (Str × Json F)} {k : Str} {v : Json F} (h : k ∉ b.map Prod.fst) :
    entriesConflict (putMerge a k v) b = entriesConflict a b := by
  apply entriesConflict_congr
  intro k' hk'
  rw [putMerge_lookup, if_neg]
  rintro rfl
  exact h hk'

theorem kindOf_node (n : Node F) : kindOf (nodeToJson n) = nodeKind n := by
  cases n <;> rfl

mutual
theorem mergeInto_told {depth : Nat} {target : List (Str × Node F)} {source : Node F} {k : Str}
    (hd : DistinctKeys (nodeToJson source)) (hs : ∃ es q, source = .obj es q) :
    Told (mergeInto true depth target source) (mergeConflict k (.obj (entriesToJson target)) (nodeToJson source)) := by
  match source with
  | .obj entries q =>
    rw [mergeInto]
    by_cases h : depth ≥ maxExpandDepth
    · rw [if_pos h]; exact ⟨by simp, by simp⟩
    · rw [if_neg h]
      simp only [nodeToJson, mergeConflict, DistinctKeys] at hd ⊢
      exact mergeEntries_told hd.1 hd.2
  | .prim _ => obtain ⟨_, _, h⟩ := hs; cases h
  | .arr _ => obtain ⟨_, _, h⟩ := hs; cases h
theorem mergeEntries_told {depth : Nat} {target source : List (Str × Node F)}
    (hn : ((entriesToJson source).map Prod.fst).Nodup) (hd : DistinctKeysEntries (entriesToJson source)) :
    Told (mergeEntries true depth target source) (entriesConflict (entriesToJson target) (entriesToJson source)) := by
  match source with
  | [] => rw [mergeEntries]; exact ⟨fun _ _ => rfl, by simp⟩
  | (key, value) :: rest =>
    simp only [entriesToJson, List.map_cons, List.nodup_cons, DistinctKeysEntries] at hn hd
    rw [mergeEntries, entriesToJson, entriesConflict, lookup_entries]
    cases hg : entryGet target key with
    | none =>
      have ih := mergeEntries_told (depth := depth) (target := target ++ [(key, value)]) hn.2 hd.2
      have he : entriesToJson (target ++ [(key, value)]) = putMerge (entriesToJson target) key (nodeToJson value) := by
        rw [entries_append]; unfold putMerge; rw [lookup_entries, hg]; rfl
      rw [he, entriesConflict_put hn.1] at ih
      simpa using ih
    | some n =>
      have hset : ∀ m, nodeToJson m = deepMerge (nodeToJson n) (nodeToJson value) →
          Told (mergeEntries true depth (entrySet target key m) rest)
            (entriesConflict (entriesToJson target) (entriesToJson rest)) := by
        intro m hm
        have ih := mergeEntries_told (depth := depth) (target := entrySet target key m) hn.2 hd.2
        have he : entriesToJson (entrySet target key m) = putMerge (entriesToJson target) key (nodeToJson value) := by
          rw [entries_set]; unfold putMerge; rw [lookup_entries, hg, hm]; rfl
        rwa [he, entriesConflict_put hn.1] at ih
      cases n with
      | prim p => exact ⟨by simp, by intro c hc; simp at hc; subst hc; cases value <;> rfl⟩
      | arr items => exact ⟨by simp, by intro c hc; simp at hc; subst hc; cases value <;> rfl⟩
      | obj es q =>
        cases value with
        | prim p => exact ⟨by simp, by intro c hc; simp at hc; subst hc; rfl⟩
        | arr items => exact ⟨by simp, by intro c hc; simp at hc; subst hc; rfl⟩
        | obj bs bq =>
          have ih := mergeInto_told (depth := depth + 1) (target := es) (source := .obj bs bq) (k := key) hd.1 ⟨_, _, rfl⟩
          simp only [Option.map_some]
          simp only [nodeToJson] at ih hset ⊢
          cases hm : mergeInto true (depth + 1) es (.obj bs bq) with
          | error e =>
            simp only
            refine ⟨by simp, ?_⟩
            intro c he
            rw [ih.2 c (by rw [hm]; exact he)]
            rfl
          | ok merged =>
            simp only
            rw [ih.1 merged hm, Option.none_or]
            refine hset _ ?_
            have := mergeInto_merge hm
            simp only [nodeToJson] at this ⊢
            exact this.symm
end

theorem insertLiteral_told {depth : Nat} {es : List (Str × Node F)} {k : Str} {v : Node F}
    (hd : DistinctKeys (nodeToJson v)) :
    Told (insertLiteral true depth es k v) (pathConflict (entriesToJson es) [k] (nodeToJson v)) := by
  unfold insertLiteral
  by_cases h : depth ≥ maxExpandDepth
  · rw [if_pos h]; exact ⟨by simp, by simp⟩
  rw [if_neg h]
  simp only [pathConflict, lookup_entries]
  cases hg : entryGet es k with
  | none => exact ⟨by simp, by simp⟩
  | some n =>
    cases n with
    | prim p => exact ⟨by simp, by intro c hc; simp at hc; subst hc; cases v <;> rfl⟩
    | arr items => exact ⟨by simp, by intro c hc; simp at hc; subst hc; cases v <;> rfl⟩
    | obj bs bq =>
      cases v with
      | prim p => exact ⟨by simp, by intro c hc; simp at hc; subst hc; rfl⟩
      | arr items => exact ⟨by simp, by intro c hc; simp at hc; subst hc; rfl⟩
      | obj cs cq =>
        have ih := mergeInto_told (depth := depth + 1) (target := bs) (k := k) hd ⟨_, _, rfl⟩
        simp only [Option.map_some]
        simp only [nodeToJson] at ih ⊢
        cases hm : mergeInto true (depth + 1) bs (.obj cs cq) with
        | error e =>
          refine ⟨by simp, ?_⟩
          intro c he
          exact ih.2 c (by rw [hm]; simpa using he)
        | ok merged => exact ⟨fun _ _ => ih.1 merged hm, by simp⟩

theorem pathConflict_cons2 (a : List (Str × Json F)) (k s : Str) (ss : List Str) (v : Json F) :
    pathConflict a (k :: s :: ss) v = match lookupKey k a with
      | none => none
      | some (.obj b) => pathConflict b (s :: ss) v
      | some c => some (.segment k (kindOf c)) := by
  rw [pathConflict]
  · rfl
  · simp

theorem pathConflict_nil : ∀ (segs : List Str) (v : Json F), pathConflict [] segs v = none
  | [], _ => rfl
  | [_], _ => rfl
  | _ :: _ :: _, _ => by rw [pathConflict_cons2]; rfl

theorem insertPath_told {v : Node F} (hd : DistinctKeys (nodeToJson v)) : ∀ {segs : List Str} {depth : Nat}
    {es : List (Str × Node F)}, Told (insertPath true depth es segs v) (pathConflict (entriesToJson es) segs (nodeToJson v))
  | [], depth, es => by
    rw [insertPath]
    split
    · exact ⟨by simp, by simp⟩
    · exact ⟨by simp [pathConflict], by simp⟩
  | [s], depth, es => by
    rw [insertPath]
    split
    · exact ⟨by simp, by simp⟩
    · exact insertLiteral_told hd
  | k :: s :: ss, depth, es => by
    rw [insertPath_cons2]
    by_cases h : depth ≥ maxExpandDepth
    · rw [if_pos h]; exact ⟨by simp, by simp⟩
    rw [if_neg h, pathConflict_cons2, lookup_entries]
    have hnil := insertPath_told hd (segs := s :: ss) (depth := depth + 1) (es := [])
    simp only [entriesToJson, pathConflict_nil] at hnil
    cases hg : entryGet es k with
    | none =>
      simp only [Option.map_none]
      cases hp : insertPath true (depth + 1) [] (s :: ss) v with
      | error e => exact ⟨by simp, by intro c he; exact absurd (hnil.2 c (by rw [hp]; simpa using he)) (by simp)⟩
      | ok es' => exact ⟨by simp, by simp⟩
    | some n =>
      simp only [Option.map_some]
      cases n with
      | prim p => exact ⟨by simp, by intro c hc; simp at hc; subst hc; rfl⟩
      | arr items => exact ⟨by simp, by intro c hc; simp at hc; subst hc; rfl⟩
      | obj bs bq =>
        have ih := insertPath_told hd (segs := s :: ss) (depth := depth + 1) (es := bs)
        simp only [nodeToJson]
        cases hp : insertPath true (depth + 1) bs (s :: ss) v with
        | error e => exact ⟨by simp, by intro c he; exact ih.2 c (by rw [hp]; simpa using he)⟩
        | ok es' => exact ⟨fun _ _ => ih.1 es' hp, by simp⟩

mutual
theorem expandInner_told (t : ETree F) (d : Nat) : Told (expandInner true t.node d) (firstConflict t) := by
  match t with
  | .prim p =>
    simp only [ETree.node]
    rw [expandInner]
    split
    · exact ⟨by simp, by simp⟩
    · exact ⟨fun _ _ => rfl, by simp⟩
  | .arr m items =>
    simp only [ETree.node]
    rw [expandInner]
    split
    · exact ⟨by simp, by simp⟩
    · have ih := expandItems_told items (d + 1)
      split
      · rename_i e he
        exact ⟨by simp, by intro c h; exact ih.2 c (by rw [he]; simpa using h)⟩
      · rename_i ns hs
        exact ⟨fun _ _ => ih.1 ns hs, by simp⟩
  | .obj es =>
    simp only [ETree.node]
    rw [expandInner]
    split
    · exact ⟨by simp, by simp⟩
    · split
      · exact ⟨by simp, by simp⟩
      · have ih := expandEntries_told es es (d + 1) []
        split
        · rename_i e he
          exact ⟨by simp, by intro c h; exact ih.2 c (by rw [he]; simpa using h)⟩
        · rename_i ns hs
          exact ⟨fun _ _ => ih.1 ns hs, by simp⟩
theorem expandItems_told (ts : List (ETree F)) (d : Nat) :
    Told (expandItems true (ETree.nodeItems ts) d) (firstConflictItems ts) := by
  match ts with
  | [] => exact ⟨fun _ _ => rfl, by simp [ETree.nodeItems, expandItems]⟩
  | t :: ts =>
    simp only [ETree.nodeItems]
    rw [expandItems, firstConflictItems]
    have ih := expandInner_told t d
    have ih' := expandItems_told ts d
    split
    · rename_i e he
      exact ⟨by simp, by intro c h; rw [ih.2 c (by rw [he]; simpa using h)]; rfl⟩
    · rename_i n' hn
      rw [ih.1 n' hn, Option.none_or]
      split
      · rename_i e he
        exact ⟨by simp, by intro c h; exact ih'.2 c (by rw [he]; simpa using h)⟩
      · rename_i ns' hns
        exact ⟨fun _ _ => ih'.1 ns' hns, by simp⟩
theorem expandEntries_told (all es : List (Str × Bool × ETree F)) (d : Nat) (acc : List (Str × Node F)) :
    Told (expandEntries true (ETree.quotedKeys all []) (ETree.nodeEntries es) d acc)
      (firstConflictEntries (quotedIn all) es (entriesToJson acc)) := by
  match es with
  | [] => exact ⟨fun _ _ => rfl, by simp [ETree.nodeEntries, expandEntries]⟩
  | (k, q, t) :: es =>
    simp only [ETree.nodeEntries]
    rw [expandEntries, firstConflictEntries]
    have ih := expandInner_told t (d + 1)
    split
    · rename_i e he
      exact ⟨by simp, by intro c h; rw [ih.2 c (by rw [he]; simpa using h)]; rfl⟩
    · rename_i v' hv
      have hj := expandInner_spec t hv
      have hdist : DistinctKeys (nodeToJson v') := by rw [hj]; exact expanded_distinct t
      rw [ih.1 v' hv, Option.none_or, segments_keyPath, ← hj]
      cases hs : expandSegments k (ETree.quotedKeys all []) with
      | some segs =>
        simp only [Option.getD_some]
        have ip := insertPath_told hdist (segs := segs) (depth := d + 1) (es := acc)
        split
        · rename_i e he
          exact ⟨by simp, by intro c h; rw [ip.2 c (by rw [he]; simpa using h)]; rfl⟩
        · rename_i acc' hp
          rw [ip.1 acc' hp, Option.none_or, ← insertPath_spec hp]
          exact expandEntries_told all es d acc'
      | none =>
        simp only [Option.getD_none]
        have ip := insertLiteral_told hdist (k := k) (depth := d + 1) (es := acc)
        split
        · rename_i e he
          exact ⟨by simp, by intro c h; rw [ip.2 c (by rw [he]; simpa using h)]; rfl⟩
        · rename_i acc' hp
          rw [ip.1 acc' hp, Option.none_or]
          have := insertLiteral_spec hp
          simp only [atPath, nested]
          rw [← this]
          exact expandEntries_told all es d acc'
end

/-! ## There is a first conflict if there is a conflict -/

mutual
theorem mergeConflict_some (k : Str) (a : Json F) : ∀ b : Json F, (mergeConflict k a b).isSome = clash a b
  | .obj b => by cases a <;> simp [mergeConflict, clash, entriesConflict_some]
  | .prim _ => rfl
  | .arr _ => rfl
theorem entriesConflict_some (a : List (Str × Json F)) : ∀ b : List (Str × Json F), (entriesConflict a b).isSome = clashEntries a b
  | [] => rfl
  | (k, v) :: b => by
    rw [entriesConflict, clashEntries, Option.isSome_or, entriesConflict_some a b]
    congr 1
    cases lookupKey k a with
    | none => rfl
    | some c => exact mergeConflict_some k c v
end

theorem pathConflict_some (v : Json F) : ∀ (segs : List Str) (a : List (Str × Json F)),
    (pathConflict a segs v).isSome = clashEntries a (atPath segs v)
  | [], _ => rfl
  | [s], a => by
    simp only [pathConflict, atPath, nested, clashEntries, Bool.or_false]
    cases lookupKey s a with
    | none => rfl
    | some c => exact mergeConflict_some s c v
  | k :: s :: ss, a => by
    rw [pathConflict_cons2]
    simp only [atPath, nested, clashEntries, Bool.or_false]
    cases lookupKey k a with
    | none => rfl
    | some c =>
      cases c with
      | prim p => rfl
      | arr items => rfl
      | obj b =>
        simp only [clash]
        rw [pathConflict_some v (s :: ss) b]
        rfl

mutual
theorem firstConflict_some : ∀ t : ETree F, (firstConflict t).isSome = conflicting t
  | .prim _ => rfl
  | .arr _ items => by simp only [firstConflict, conflicting, firstConflictItems_some items]
  | .obj es => by simp only [firstConflict, conflicting, firstConflictEntries_some (quotedIn es) es]
theorem firstConflictItems_some : ∀ ts : List (ETree F), (firstConflictItems ts).isSome = conflictingItems ts
  | [] => rfl
  | t :: ts => by simp only [firstConflictItems, conflictingItems, Option.isSome_or, firstConflict_some t, firstConflictItems_some ts]
theorem firstConflictEntries_some (quoted : Str → Bool) : ∀ (es : List (Str × Bool × ETree F)) (acc : List (Str × Json F)),
    (firstConflictEntries quoted es acc).isSome = conflictingEntries quoted es acc
  | [], _ => rfl
  | (k, _, t) :: es, acc => by
    simp only [firstConflictEntries, conflictingEntries, Option.isSome_or, firstConflict_some t, pathConflict_some,
      firstConflictEntries_some quoted es]
end

end

end Toon
