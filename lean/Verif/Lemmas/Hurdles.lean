import Verif.Spec.Hurdles
import Verif.Lemmas.Conflicts
import Verif.Lemmas.ExpandDepth

/-! Path expansion fails at the first hurdle that cannot be passed, and only there. -/

namespace Toon

section
variable {F : Type}

/-- The run fails with the first failure of the hurdles, and does not fail without one. -/
def Meets {α : Type} (strict : Bool) (r : Except Err α) (hs : List Hurdle) : Prop :=
  match r with
  | .ok _ => firstFailure strict hs = none
  | .error e => firstFailure strict hs = some e

theorem firstFailure_append (strict : Bool) (a b : List Hurdle) :
    firstFailure strict (a ++ b) = (firstFailure strict a).or (firstFailure strict b) := by
  simp only [firstFailure, List.findSome?_append]

theorem firstFailure_cons (strict : Bool) (a : Hurdle) (b : List Hurdle) :
    firstFailure strict (a :: b) = (a.fails strict).or (firstFailure strict b) := by
  simp only [firstFailure, List.findSome?_cons]
  cases a.fails strict <;> rfl

/-- Something harmless after the run. -/
theorem Meets.map {α β : Type} {strict : Bool} {r : Except Err α} {r' : Except Err β} {hs : List Hurdle} (h : Meets strict r hs)
    (he : ∀ e, r = .error e → r' = .error e) (ho : ∀ x, r = .ok x → ∃ y, r' = .ok y) : Meets strict r' hs := by
  cases r with
  | error e => rw [he e rfl]; exact h
  | ok x => obtain ⟨y, hy⟩ := ho x rfl; rw [hy]; exact h

/-- One run after the other. -/
theorem Meets.andThen {α β : Type} {strict : Bool} {r : Except Err α} {r' : Except Err β} {hs hs' : List Hurdle}
    (h : Meets strict r hs) (he : ∀ e, r = .error e → r' = .error e) (h' : ∀ x, r = .ok x → Meets strict r' hs') :
    Meets strict r' (hs ++ hs') := by
  cases r with
  | error e => rw [he e rfl]; simp only [Meets] at h ⊢; rw [firstFailure_append, h]; rfl
  | ok x =>
    have h' := h' x rfl
    simp only [Meets] at h
    unfold Meets at h' ⊢
    rw [firstFailure_append, h, Option.none_or]
    exact h'

/-- The check of a level. -/
theorem Meets.level {α : Type} {strict : Bool} {d : Nat} {r : Except Err α} {hs : List Hurdle} (h : Meets strict r hs) :
    Meets strict (if d ≥ maxExpandDepth then .error .expandDepth else r) (.level (d + 1) :: hs) := by
  unfold maxExpandDepth
  by_cases hd : d ≥ 256
  · rw [if_pos hd]
    simp only [Meets, firstFailure_cons, Hurdle.fails]
    rw [if_pos (by omega)]; rfl
  · rw [if_neg hd]
    have e : firstFailure strict (.level (d + 1) :: hs) = firstFailure strict hs := by
      rw [firstFailure_cons, Hurdle.fails, if_neg (by omega)]; rfl
    unfold Meets at h ⊢
    rw [e]; exact h

/-- The check of a conflict. -/
theorem Meets.conflict {α : Type} {strict : Bool} {c : Conflict} {r : Except Err α} {hs : List Hurdle} (h : Meets strict r hs) :
    Meets strict (if strict then .error (.pathConflict c) else r) (.conflict c :: hs) := by
  cases strict with
  | true => simp [Meets, firstFailure_cons, Hurdle.fails]
  | false =>
    have e : firstFailure false (.conflict c :: hs) = firstFailure false hs := by
      rw [firstFailure_cons]; rfl
    unfold Meets at h ⊢
    rw [e]; exact h

theorem meetHurdles_congr {n : Nat} {a a' : List (Str × Json F)} {b : List (Str × Json F)}
    (h : ∀ k ∈ b.map Prod.fst, lookupKey k a = lookupKey k a') : meetHurdles n a b = meetHurdles n a' b := by
  induction b with
  | nil => rfl
  | cons e b ih =>
    obtain ⟨k, v⟩ := e
    simp only [meetHurdles]
    rw [h k (by simp), ih (fun k hk => h k (by simp [hk]))]

theorem meetHurdles_put {n : Nat} {a b : List (Str × Json F)} {k : Str} {v : Json F} (h : k ∉ b.map Prod.fst) :
    meetHurdles n (putMerge a k v) b = meetHurdles n a b := by
  apply meetHurdles_congr
  intro k' hk'
  rw [putMerge_lookup, if_neg]
  rintro rfl
  exact h hk'

mutual
theorem mergeInto_meets {strict : Bool} {depth : Nat} {target : List (Str × Node F)} {source : Node F} {k : Str}
    (hd : DistinctKeys (nodeToJson source)) (hs : ∃ es q, source = .obj es q) :
    Meets strict (mergeInto strict depth target source)
      (mergeHurdles (depth + 1) k (.obj (entriesToJson target)) (nodeToJson source)) := by
  match source with
  | .obj entries q =>
    rw [mergeInto]
    simp only [nodeToJson, mergeHurdles, DistinctKeys] at hd ⊢
    exact (mergeEntries_meets hd.1 hd.2).level
  | .prim _ => obtain ⟨_, _, h⟩ := hs; cases h
  | .arr _ => obtain ⟨_, _, h⟩ := hs; cases h
theorem mergeEntries_meets {strict : Bool} {depth : Nat} {target source : List (Str × Node F)}
    (hn : ((entriesToJson source).map Prod.fst).Nodup) (hd : DistinctKeysEntries (entriesToJson source)) :
    Meets strict (mergeEntries strict depth target source)
      (meetHurdles (depth + 1) (entriesToJson target) (entriesToJson source)) := by
  match source with
  | [] => rw [mergeEntries]; rfl
  | (key, value) :: rest =>
    simp only [entriesToJson, List.map_cons, List.nodup_cons, DistinctKeysEntries] at hn hd
    rw [mergeEntries, entriesToJson, meetHurdles, lookup_entries]
    cases hg : entryGet target key with
    | none =>
      have ih := mergeEntries_meets (strict := strict) (depth := depth) (target := target ++ [(key, value)]) hn.2 hd.2
      have he : entriesToJson (target ++ [(key, value)]) = putMerge (entriesToJson target) key (nodeToJson value) := by
        rw [entries_append]; unfold putMerge; rw [lookup_entries, hg]; rfl
      rw [he, meetHurdles_put hn.1] at ih
      simpa using ih
    | some n =>
      have hset : ∀ m, nodeToJson m = deepMerge (nodeToJson n) (nodeToJson value) →
          Meets strict (mergeEntries strict depth (entrySet target key m) rest)
            (meetHurdles (depth + 1) (entriesToJson target) (entriesToJson rest)) := by
        intro m hm
        have ih := mergeEntries_meets (strict := strict) (depth := depth) (target := entrySet target key m) hn.2 hd.2
        have he : entriesToJson (entrySet target key m) = putMerge (entriesToJson target) key (nodeToJson value) := by
          rw [entries_set]; unfold putMerge; rw [lookup_entries, hg, hm]; rfl
        rwa [he, meetHurdles_put hn.1] at ih
      cases n with
      | prim p =>
        have := (hset value (by cases value <;> rfl)).conflict (c := .merge key .primitive (nodeKind value))
        cases value <;> exact this
      | arr items =>
        have := (hset value (by cases value <;> rfl)).conflict (c := .merge key .array (nodeKind value))
        cases value <;> exact this
      | obj es q =>
        cases value with
        | prim p => exact (hset (.prim p) rfl).conflict (c := .merge key .object .primitive)
        | arr items => exact (hset (.arr items) rfl).conflict (c := .merge key .object .array)
        | obj bs bq =>
          have ih := mergeInto_meets (strict := strict) (depth := depth + 1) (target := es) (source := .obj bs bq) (k := key)
            hd.1 ⟨_, _, rfl⟩
          refine ih.andThen (by intro e h; simp only [h]) ?_
          intro merged hm
          simp only [hm]
          refine hset _ ?_
          have := mergeInto_merge hm
          simp only [nodeToJson] at this ⊢
          exact this.symm
end

theorem insertLiteral_meets {strict : Bool} {depth : Nat} {es : List (Str × Node F)} {k : Str} {v : Node F}
    (hd : DistinctKeys (nodeToJson v)) :
    Meets strict (insertLiteral strict depth es k v) (literalHurdles (depth + 1) (entriesToJson es) k (nodeToJson v)) := by
  unfold insertLiteral literalHurdles
  refine Meets.level ?_
  rw [lookup_entries]
  cases hg : entryGet es k with
  | none => rfl
  | some n =>
    have hok : ∀ x : List (Str × Node F), Meets strict (.ok x : Except Err (List (Str × Node F))) [] := fun _ => rfl
    cases n with
    | prim p =>
      have := (hok (entrySet es k v)).conflict (c := .merge k .primitive (nodeKind v))
      cases v <;> exact this
    | arr items =>
      have := (hok (entrySet es k v)).conflict (c := .merge k .array (nodeKind v))
      cases v <;> exact this
    | obj bs bq =>
      cases v with
      | prim p => exact (hok _).conflict (c := .merge k .object .primitive)
      | arr items => exact (hok _).conflict (c := .merge k .object .array)
      | obj cs cq =>
        have ih := mergeInto_meets (strict := strict) (depth := depth + 1) (target := bs) (k := k) hd ⟨_, _, rfl⟩
        exact ih.map (by intro e h; simp only [h]) (by intro x h; simp only [h]; exact ⟨_, rfl⟩)

theorem pathHurdles_cons2 (n : Nat) (a : List (Str × Json F)) (k s : Str) (ss : List Str) (v : Json F) :
    pathHurdles n a (k :: s :: ss) v = .level n :: match lookupKey k a with
      | none => pathHurdles (n + 1) [] (s :: ss) v
      | some (.obj b) => pathHurdles (n + 1) b (s :: ss) v
      | some c => .conflict (.segment k (kindOf c)) :: pathHurdles (n + 1) [] (s :: ss) v := by
  rw [pathHurdles]
  · rfl
  · simp

theorem insertPath_meets {strict : Bool} {v : Node F} (hd : DistinctKeys (nodeToJson v)) : ∀ {segs : List Str} {depth : Nat}
    {es : List (Str × Node F)}, segs ≠ [] →
      Meets strict (insertPath strict depth es segs v) (pathHurdles (depth + 1) (entriesToJson es) segs (nodeToJson v))
  | [], _, _, h => absurd rfl h
  | [s], depth, es, _ => by
    rw [insertPath]
    exact (insertLiteral_meets hd).level
  | k :: s :: ss, depth, es, _ => by
    rw [insertPath_cons2, pathHurdles_cons2]
    refine Meets.level ?_
    rw [lookup_entries]
    have hnil := insertPath_meets (strict := strict) hd (segs := s :: ss) (depth := depth + 1) (es := []) (by simp)
    cases hg : entryGet es k with
    | none => exact hnil.map (by intro e h; simp only [h]) (by intro x h; simp only [h]; exact ⟨_, rfl⟩)
    | some n =>
      cases n with
      | prim p =>
        refine Meets.conflict (c := .segment k .primitive) ?_
        exact hnil.map (by intro e h; simp only [h]) (by intro x h; simp only [h]; exact ⟨_, rfl⟩)
      | arr items =>
        refine Meets.conflict (c := .segment k .array) ?_
        exact hnil.map (by intro e h; simp only [h]) (by intro x h; simp only [h]; exact ⟨_, rfl⟩)
      | obj bs bq =>
        have ih := insertPath_meets (strict := strict) hd (segs := s :: ss) (depth := depth + 1) (es := bs) (by simp)
        exact ih.map (by intro e h; simp only [h]) (by intro x h; simp only [h]; exact ⟨_, rfl⟩)

mutual
theorem expandInner_meets {strict : Bool} (t : ETree F) (d : Nat) :
    Meets strict (expandInner strict t.node d) (hurdles (d + 1) t) := by
  match t with
  | .prim p =>
    simp only [ETree.node]
    rw [expandInner]
    exact Meets.level rfl
  | .arr m items =>
    simp only [ETree.node]
    rw [expandInner]
    refine Meets.level ?_
    exact (expandItems_meets items (d + 1)).map (by intro e h; simp only [h]) (by intro x h; simp only [h]; exact ⟨_, rfl⟩)
  | .obj es =>
    simp only [ETree.node]
    rw [expandInner]
    refine Meets.level (Meets.level ?_)
    exact (expandEntries_meets es es (d + 1) []).map (by intro e h; simp only [h]) (by intro x h; simp only [h]; exact ⟨_, rfl⟩)
theorem expandItems_meets {strict : Bool} (ts : List (ETree F)) (d : Nat) :
    Meets strict (expandItems strict (ETree.nodeItems ts) d) (hurdlesItems (d + 1) ts) := by
  match ts with
  | [] => rfl
  | t :: ts =>
    simp only [ETree.nodeItems]
    rw [expandItems, hurdlesItems]
    refine (expandInner_meets t d).andThen (by intro e h; simp only [h]) ?_
    intro n' hn
    simp only [hn]
    exact (expandItems_meets ts d).map (by intro e h; simp only [h]) (by intro x h; simp only [h]; exact ⟨_, rfl⟩)
theorem expandEntries_meets {strict : Bool} (all es : List (Str × Bool × ETree F)) (d : Nat) (acc : List (Str × Node F)) :
    Meets strict (expandEntries strict (ETree.quotedKeys all []) (ETree.nodeEntries es) d acc)
      (hurdlesEntries (d + 2) (quotedIn all) es (entriesToJson acc)) := by
  match es with
  | [] => rfl
  | (k, q, t) :: es =>
    simp only [ETree.nodeEntries]
    rw [expandEntries, hurdlesEntries, List.append_assoc]
    refine (expandInner_meets t (d + 1)).andThen (by intro e h; simp only [h]) ?_
    intro v' hv
    simp only [hv]
    have hj := expandInner_spec t hv
    have hdist : DistinctKeys (nodeToJson v') := by rw [hj]; exact expanded_distinct t
    rw [segments_keyPath, ← hj]
    cases hs : expandSegments k (ETree.quotedKeys all []) with
    | some segs =>
      simp only [Option.getD_some]
      obtain ⟨h2, _⟩ := expandSegments_some hs
      have hin : insertHurdles (d + 2) (entriesToJson acc) segs (nodeToJson v') =
          pathHurdles (d + 2) (entriesToJson acc) segs (nodeToJson v') := by
        match segs, h2 with
        | _ :: _ :: _, _ => rfl
      rw [hin]
      refine (insertPath_meets hdist (segs := segs) (depth := d + 1) (es := acc)
        (by intro h; rw [h] at h2; simp at h2)).andThen (by intro e h; simp only [h]) ?_
      intro acc' hp
      simp only [hp]
      rw [← insertPath_spec hp]
      exact expandEntries_meets all es d acc'
    | none =>
      simp only [Option.getD_none]
      refine (insertLiteral_meets hdist (k := k) (depth := d + 1) (es := acc)).andThen (by intro e h; simp only [h]) ?_
      intro acc' hp
      simp only [hp]
      have := insertLiteral_spec hp
      simp only [atPath, nested]
      rw [← this]
      exact expandEntries_meets all es d acc'
end

/-! ## The conflicts among the hurdles -/

theorem conflictOf_append (a b : List Hurdle) : (a ++ b).findSome? conflictOf = (a.findSome? conflictOf).or (b.findSome? conflictOf) :=
  List.findSome?_append

theorem conflictOf_level (n : Nat) (hs : List Hurdle) : (Hurdle.level n :: hs).findSome? conflictOf = hs.findSome? conflictOf := rfl

theorem conflictOf_conflict (c : Conflict) (hs : List Hurdle) : (Hurdle.conflict c :: hs).findSome? conflictOf = some c := rfl

mutual
theorem mergeHurdles_conflict (n : Nat) (k : Str) (a : Json F) : ∀ b : Json F,
    (mergeHurdles n k a b).findSome? conflictOf = mergeConflict k a b
  | .obj b => by
    cases a with
    | obj a => exact meetHurdles_conflict n a b
    | prim p => rfl
    | arr items => rfl
  | .prim _ => rfl
  | .arr _ => rfl
theorem meetHurdles_conflict (n : Nat) (a : List (Str × Json F)) : ∀ b : List (Str × Json F),
    (meetHurdles n a b).findSome? conflictOf = entriesConflict a b
  | [] => rfl
  | (k, v) :: b => by
    rw [meetHurdles, entriesConflict, conflictOf_append, meetHurdles_conflict n a b]
    congr 1
    cases lookupKey k a with
    | none => rfl
    | some c => exact mergeHurdles_conflict (n + 1) k c v
end

theorem literalHurdles_conflict (n : Nat) (a : List (Str × Json F)) (k : Str) (v : Json F) :
    (literalHurdles n a k v).findSome? conflictOf = pathConflict a [k] v := by
  rw [literalHurdles, conflictOf_level, pathConflict]
  cases lookupKey k a with
  | none => rfl
  | some c => exact mergeHurdles_conflict (n + 1) k c v

theorem pathHurdles_conflict (v : Json F) : ∀ (segs : List Str) (n : Nat) (a : List (Str × Json F)),
    (pathHurdles n a segs v).findSome? conflictOf = pathConflict a segs v
  | [], _, _ => rfl
  | [s], n, a => literalHurdles_conflict (n + 1) a s v
  | k :: s :: ss, n, a => by
    rw [pathHurdles_cons2, pathConflict_cons2, conflictOf_level]
    cases lookupKey k a with
    | none => simp only; rw [pathHurdles_conflict v (s :: ss), pathConflict_nil]
    | some c =>
      cases c with
      | prim p => rfl
      | arr items => rfl
      | obj b => exact pathHurdles_conflict v (s :: ss) (n + 1) b

theorem insertHurdles_conflict (n : Nat) (a : List (Str × Json F)) (path : List Str) (v : Json F) :
    (insertHurdles n a path v).findSome? conflictOf = pathConflict a path v := by
  unfold insertHurdles
  split
  · exact literalHurdles_conflict n a _ v
  · exact pathHurdles_conflict v _ n a

mutual
theorem hurdles_conflict : ∀ (t : ETree F) (n : Nat), (hurdles n t).findSome? conflictOf = firstConflict t
  | .prim _, _ => rfl
  | .arr _ items, n => by
    rw [hurdles, firstConflict, conflictOf_level]; exact hurdlesItems_conflict items (n + 1)
  | .obj es, n => by
    rw [hurdles, firstConflict, conflictOf_level, conflictOf_level]; exact hurdlesEntries_conflict (quotedIn es) es (n + 2) []
theorem hurdlesItems_conflict : ∀ (ts : List (ETree F)) (n : Nat), (hurdlesItems n ts).findSome? conflictOf = firstConflictItems ts
  | [], _ => rfl
  | t :: ts, n => by rw [hurdlesItems, firstConflictItems, conflictOf_append, hurdles_conflict t n, hurdlesItems_conflict ts n]
theorem hurdlesEntries_conflict (quoted : Str → Bool) : ∀ (es : List (Str × Bool × ETree F)) (n : Nat) (acc : List (Str × Json F)),
    (hurdlesEntries n quoted es acc).findSome? conflictOf = firstConflictEntries quoted es acc
  | [], _, _ => rfl
  | (k, _, t) :: es, n, acc => by
    rw [hurdlesEntries, firstConflictEntries, conflictOf_append, conflictOf_append, hurdles_conflict t n, insertHurdles_conflict,
      hurdlesEntries_conflict quoted es n]
end

/-! ## The outcome -/

/-- Expansion, completely: the first failure or the expanded value. -/
theorem expandPaths_exact (strict : Bool) (t : ETree F) :
    (match expandPathsSafe strict t.node with
      | .error e => .error e
      | .ok n => .ok (nodeToJson n) : Except Err (Json F)) =
    (match firstFailure strict (hurdles 1 t) with
      | some e => .error e
      | none => .ok (expanded t)) := by
  have h := expandInner_meets (strict := strict) t 0
  unfold expandPathsSafe
  cases he : expandInner strict t.node 0 with
  | error e =>
    rw [he] at h
    simp only [Meets] at h
    rw [h]
  | ok n =>
    have hj := expandInner_spec t he
    rw [he] at h
    simp only [Meets] at h
    rw [h, ← hj]

/-! ## The levels -/

theorem firstFailure_none (strict : Bool) (hs : List Hurdle) :
    firstFailure strict hs = none ↔
      (∀ h ∈ hs, levelOf h ≤ 256) ∧ (strict = true → hs.findSome? conflictOf = none) := by
  induction hs with
  | nil => simp [firstFailure]
  | cons h hs ih =>
    rw [firstFailure_cons, Option.or_eq_none_iff, ih]
    cases h with
    | level n =>
      simp only [Hurdle.fails, List.forall_mem_cons, levelOf, conflictOf_level]
      by_cases hn : 256 < n
      · rw [if_pos hn]; simp; omega
      · rw [if_neg hn]
        have : n ≤ 256 := by omega
        simp [this]
    | conflict c => cases strict <;> simp [Hurdle.fails, levelOf, conflictOf]

/-- Before the first conflict, levels decide. -/
theorem firstFailure_depth {strict : Bool} {hs : List Hurdle} (h : firstFailure strict hs = some .expandDepth) :
    ∃ a n b, hs = a ++ .level n :: b ∧ 256 < n ∧ (∀ x ∈ a, levelOf x ≤ 256) ∧ (strict = true → a.findSome? conflictOf = none) := by
  induction hs with
  | nil => simp [firstFailure] at h
  | cons x hs ih =>
    rw [firstFailure_cons] at h
    cases hx : x.fails strict with
    | some e =>
      rw [hx] at h
      simp only [Option.some_or, Option.some.injEq] at h
      subst h
      cases x with
      | level n =>
        simp only [Hurdle.fails] at hx
        split at hx
        · exact ⟨[], n, hs, rfl, by assumption, by simp, by simp⟩
        · simp at hx
      | conflict c =>
        simp only [Hurdle.fails] at hx
        split at hx <;> simp at hx
    | none =>
      rw [hx, Option.none_or] at h
      obtain ⟨a, n, b, rfl, h1, h2, h3⟩ := ih h
      refine ⟨x :: a, n, b, rfl, h1, ?_, ?_⟩
      · simp only [List.forall_mem_cons]
        refine ⟨?_, h2⟩
        cases x with
        | level m =>
          simp only [Hurdle.fails] at hx
          split at hx
          · simp at hx
          · simp only [levelOf]; omega
        | conflict c => simp [levelOf]
      · intro hs
        cases x with
        | level m => rw [conflictOf_level]; exact h3 hs
        | conflict c => simp [Hurdle.fails, hs] at hx

theorem firstFailure_lax {hs : List Hurdle} {e : Err} (h : firstFailure false hs = some e) : e = .expandDepth := by
  obtain ⟨x, _, hx⟩ := List.exists_of_findSome?_eq_some h
  cases x with
  | level n =>
    simp only [Hurdle.fails] at hx
    split at hx
    · simpa using hx.symm
    · simp at hx
  | conflict c => simp [Hurdle.fails] at hx

/-! ## Trees without dotted paths -/

theorem keyPath_single {q : Bool} {k : Str} (h : q = true ∨ ¬ DottedPath k) : keyPath q k = [k] := by
  unfold keyPath
  rw [if_neg]
  rintro ⟨h1, h2, h3⟩
  rcases h with h | h
  · rw [h1] at h; simp at h
  · refine h ⟨splitDots k, h2, by simpa using h3, ?_⟩
    rw [splitDots_eq, dotted_eq, joinWith_splitOn]

theorem mergeObj_fresh {a : List (Str × Json F)} {k : Str} {v : Json F} (h : k ∉ a.map Prod.fst) :
    mergeObj a [(k, v)] = a ++ [(k, v)] := by
  rw [mergeObj_cons, mergeObj, putMerge, lookup_none.mpr h]

theorem depthNeededEntries_pos (quoted : Str → Bool) (k : Str) (q : Bool) (t : ETree F) (es : List (Str × Bool × ETree F)) :
    1 ≤ depthNeededEntries quoted ((k, q, t) :: es) := by
  have := depthNeeded_pos t
  simp only [depthNeededEntries]; omega

mutual
theorem hurdles_plain : ∀ (t : ETree F) (n : Nat), DistinctKeys t.json → t.AllKeys (fun k q => q = true ∨ ¬ DottedPath k) →
    ∀ h ∈ hurdles (n + 1) t, levelOf h ≤ n + depthNeeded t
  | .prim p, n, _, _ => by simp [hurdles, levelOf, depthNeeded]
  | .arr m items, n, hd, hk => by
    simp only [ETree.json, DistinctKeys, ETree.AllKeys] at hd hk
    simp only [hurdles, depthNeeded, List.forall_mem_cons]
    refine ⟨by simp only [levelOf]; omega, fun h hh => ?_⟩
    have := hurdlesItems_plain items (n + 1) hd hk h hh
    omega
  | .obj es, n, hd, hk => by
    simp only [ETree.json, DistinctKeys, ETree.AllKeys] at hd hk
    simp only [hurdles, depthNeeded, List.forall_mem_cons]
    refine ⟨by simp only [levelOf]; omega, by simp only [levelOf]; omega, fun h hh => ?_⟩
    have := hurdlesEntries_plain (quotedIn es) es (n + 2) [] hd.2 hk
      (fun k t h => by simp only [quotedIn, List.any_eq_true]; exact ⟨_, h, by simp⟩) hd.1 (by simp) h hh
    omega
theorem hurdlesItems_plain : ∀ (ts : List (ETree F)) (n : Nat), DistinctKeysItems (ETree.jsonItems ts) →
    ETree.AllKeysItems (fun k q => q = true ∨ ¬ DottedPath k) ts →
    ∀ h ∈ hurdlesItems (n + 1) ts, levelOf h ≤ n + depthNeededItems ts
  | [], _, _, _ => by simp [hurdlesItems]
  | t :: ts, n, hd, hk => by
    simp only [ETree.jsonItems, DistinctKeysItems, ETree.AllKeysItems] at hd hk
    simp only [hurdlesItems, depthNeededItems, List.mem_append]
    rintro h (hh | hh)
    · have := hurdles_plain t n hd.1 hk.1 h hh; omega
    · have := hurdlesItems_plain ts n hd.2 hk.2 h hh; omega
theorem hurdlesEntries_plain (quoted : Str → Bool) : ∀ (es : List (Str × Bool × ETree F)) (n : Nat) (acc : List (Str × Json F)),
    DistinctKeysEntries (ETree.jsonEntries es) → ETree.AllKeysEntries (fun k q => q = true ∨ ¬ DottedPath k) es →
    (∀ k t, (k, true, t) ∈ es → quoted k = true) → ((ETree.jsonEntries es).map Prod.fst).Nodup →
    (∀ k ∈ (ETree.jsonEntries es).map Prod.fst, k ∉ acc.map Prod.fst) →
    ∀ h ∈ hurdlesEntries (n + 1) quoted es acc, levelOf h ≤ n + depthNeededEntries quoted es
  | [], _, _, _, _, _, _, _ => by simp [hurdlesEntries]
  | (k, q, t) :: es, n, acc, hd, hk, hq, hn, ha => by
    have hpos := depthNeededEntries_pos quoted k q t es
    simp only [ETree.jsonEntries, DistinctKeysEntries, ETree.AllKeysEntries, List.map_cons, List.nodup_cons,
      List.forall_mem_cons] at hd hk hn ha
    have hkp : keyPath (quoted k) k = [k] := by
      apply keyPath_single
      rcases hk.1 with rfl | h
      · exact Or.inl (hq k t (by simp))
      · exact Or.inr h
    simp only [hurdlesEntries, hkp, List.mem_append, insertHurdles, literalHurdles, atPath, nested, lookup_none.mpr ha.1,
      mergeObj_fresh ha.1, List.mem_singleton]
    rintro h ((hh | hh) | hh)
    · have := hurdles_plain t n hd.1 hk.2.1 h hh
      simp only [depthNeededEntries]; omega
    · subst hh; simp only [levelOf]; omega
    · have := hurdlesEntries_plain quoted es n (acc ++ [(k, expanded t)]) hd.2 hk.2.2 (fun k t h => hq k t (by simp [h])) hn.2
        (by
          intro k' hk'
          simp only [List.map_append, List.map_cons, List.map_nil, List.mem_append, List.mem_singleton, not_or]
          exact ⟨ha.2 k' hk', by rintro rfl; exact hn.1 hk'⟩) h hh
      simp only [depthNeededEntries]; omega
end

end

end Toon
