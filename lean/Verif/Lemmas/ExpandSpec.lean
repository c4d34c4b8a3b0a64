import Verif.Lemmas.ExpandMerge
import Verif.Lemmas.ExpandBasic

/-! Path expansion agrees with its specification: results, and conflicts in strict mode. -/

namespace Toon

section
variable {F : Type}

/-! ## Conflicts -/

/-- A strict run finishes only without conflict and reports a conflict only if there is one. -/
def Judged {α : Type} (r : Except Err α) (b : Bool) : Prop :=
  (∀ x, r = .ok x → b = false) ∧ (∀ c, r = .error (.pathConflict c) → b = true)

theorem clashEntries_congr {a a' : List (Str × Json F)} {b : List (Str × Json F)}
    (h : ∀ k ∈ b.map Prod.fst, lookupKey k a = lookupKey k a') : clashEntries a b = clashEntries a' b := by
  induction b with
  | nil => rfl
  | cons e b ih =>
    obtain ⟨k, v⟩ := e
    simp only [clashEntries]
    rw [h k (by simp), ih (fun k hk => h k (by simp [hk]))]

theorem clashEntries_put {a b : List (Str × Json F)} {k : Str} {v : Json F} (h : k ∉ b.map Prod.fst) :
    clashEntries (putMerge a k v) b = clashEntries a b := by
  apply clashEntries_congr
  intro k' hk'
  rw [putMerge_lookup, if_neg]
  rintro rfl
  exact h hk'

theorem clashEntries_nil (b : List (Str × Json F)) : clashEntries [] b = false := by
  induction b with
  | nil => rfl
  | cons e b ih => obtain ⟨k, v⟩ := e; simp [clashEntries, lookupKey, ih]

theorem entriesToJson_keys (es : List (Str × Node F)) : (entriesToJson es).map Prod.fst = es.map Prod.fst := by
  induction es with
  | nil => rfl
  | cons e es ih => obtain ⟨k, v⟩ := e; simp only [entriesToJson, List.map_cons, ih]

mutual
theorem mergeInto_judged {depth : Nat} {target : List (Str × Node F)} {source : Node F}
    (hd : DistinctKeys (nodeToJson source)) :
    Judged (mergeInto true depth target source) (clash (.obj (entriesToJson target)) (nodeToJson source)) := by
  match source with
  | .obj entries q =>
    rw [mergeInto]
    by_cases h : depth ≥ maxExpandDepth
    · rw [if_pos h]; exact ⟨by simp, by simp⟩
    · rw [if_neg h]
      simp only [nodeToJson, clash, DistinctKeys] at hd ⊢
      exact mergeEntries_judged hd.1 hd.2
  | .prim _ => exact ⟨by simp [mergeInto], by simp [mergeInto]⟩
  | .arr _ => exact ⟨by simp [mergeInto], by simp [mergeInto]⟩
theorem mergeEntries_judged {depth : Nat} {target source : List (Str × Node F)}
    (hn : ((entriesToJson source).map Prod.fst).Nodup) (hd : DistinctKeysEntries (entriesToJson source)) :
    Judged (mergeEntries true depth target source) (clashEntries (entriesToJson target) (entriesToJson source)) := by
  match source with
  | [] => rw [mergeEntries]; exact ⟨fun _ _ => rfl, by simp⟩
  | (key, value) :: rest =>
    simp only [entriesToJson, List.map_cons, List.nodup_cons, DistinctKeysEntries] at hn hd
    rw [mergeEntries, entriesToJson, clashEntries, lookup_entries]
    cases hg : entryGet target key with
    | none =>
      have ih := mergeEntries_judged (depth := depth) (target := target ++ [(key, value)]) hn.2 hd.2
      have he : entriesToJson (target ++ [(key, value)]) = putMerge (entriesToJson target) key (nodeToJson value) := by
        rw [entries_append]; unfold putMerge; rw [lookup_entries, hg]; rfl
      rw [he, clashEntries_put hn.1] at ih
      simpa using ih
    | some n =>
      have hset : ∀ m, nodeToJson m = deepMerge (nodeToJson n) (nodeToJson value) →
          Judged (mergeEntries true depth (entrySet target key m) rest)
            (clashEntries (entriesToJson target) (entriesToJson rest)) := by
        intro m hm
        have ih := mergeEntries_judged (depth := depth) (target := entrySet target key m) hn.2 hd.2
        have he : entriesToJson (entrySet target key m) = putMerge (entriesToJson target) key (nodeToJson value) := by
          rw [entries_set]; unfold putMerge; rw [lookup_entries, hg, hm]; rfl
        rwa [he, clashEntries_put hn.1] at ih
      cases n with
      | prim p => exact ⟨by simp, by intro _ _; cases value <;> rfl⟩
      | arr items => exact ⟨by simp, by intro _ _; cases value <;> rfl⟩
      | obj es q =>
        cases value with
        | prim p => exact ⟨by simp, by intro _ _; rfl⟩
        | arr items => exact ⟨by simp, by intro _ _; rfl⟩
        | obj bs bq =>
          have ih := mergeInto_judged (depth := depth + 1) (target := es) (source := .obj bs bq) hd.1
          simp only [Option.map_some]
          simp only [nodeToJson] at ih hset ⊢
          cases hm : mergeInto true (depth + 1) es (.obj bs bq) with
          | error e =>
            simp only
            refine ⟨by simp, ?_⟩
            intro c he
            rw [ih.2 c (by rw [hm]; exact he)]
            rfl
          | ok merged =>
            simp only
            rw [ih.1 merged hm, Bool.false_or]
            refine hset _ ?_
            have := mergeInto_merge hm
            simp only [nodeToJson] at this ⊢
            exact this.symm
end

/-! ## Inserting one entry -/

theorem insertLiteral_spec {strict : Bool} {depth : Nat} {es out : List (Str × Node F)} {k : Str} {v : Node F}
    (h : insertLiteral strict depth es k v = .ok out) :
    entriesToJson out = mergeObj (entriesToJson es) [(k, nodeToJson v)] := by
  rw [mergeObj_cons, mergeObj]
  unfold insertLiteral at h
  by_cases hd : depth ≥ maxExpandDepth
  · rw [if_pos hd] at h; simp at h
  rw [if_neg hd] at h
  unfold putMerge
  rw [lookup_entries]
  cases hg : entryGet es k with
  | none =>
    rw [hg] at h
    simp only [Except.ok.injEq] at h
    subst h
    rw [entries_append]; rfl
  | some n =>
    rw [hg] at h
    simp only [Option.map_some]
    cases n with
    | prim p =>
      simp only at h
      split at h
      · simp at h
      · simp only [Except.ok.injEq] at h
        subst h
        rw [entries_set]
        cases v <;> rfl
    | arr items =>
      simp only at h
      split at h
      · simp at h
      · simp only [Except.ok.injEq] at h
        subst h
        rw [entries_set]
        cases v <;> rfl
    | obj bs bq =>
      cases v with
      | prim p =>
        simp only at h
        split at h
        · simp at h
        · simp only [Except.ok.injEq] at h
          subst h
          rw [entries_set]; rfl
      | arr items =>
        simp only at h
        split at h
        · simp at h
        · simp only [Except.ok.injEq] at h
          subst h
          rw [entries_set]; rfl
      | obj cs cq =>
        simp only at h
        split at h
        · simp at h
        · rename_i merged hm
          simp only [Except.ok.injEq] at h
          subst h
          rw [entries_set]
          have := mergeInto_merge hm
          simp only [nodeToJson] at this ⊢
          rw [this]

theorem insertLiteral_judged {depth : Nat} {es : List (Str × Node F)} {k : Str} {v : Node F}
    (hd : DistinctKeys (nodeToJson v)) :
    Judged (insertLiteral true depth es k v) (clashEntries (entriesToJson es) [(k, nodeToJson v)]) := by
  unfold insertLiteral
  by_cases h : depth ≥ maxExpandDepth
  · rw [if_pos h]; exact ⟨by simp, by simp⟩
  rw [if_neg h]
  simp only [clashEntries, lookup_entries, Bool.or_false]
  cases hg : entryGet es k with
  | none => exact ⟨by simp, by simp⟩
  | some n =>
    cases n with
    | prim p => exact ⟨by simp, by intro _ _; cases v <;> rfl⟩
    | arr items => exact ⟨by simp, by intro _ _; cases v <;> rfl⟩
    | obj bs bq =>
      cases v with
      | prim p => exact ⟨by simp, by intro _ _; rfl⟩
      | arr items => exact ⟨by simp, by intro _ _; rfl⟩
      | obj cs cq =>
        have ih := mergeInto_judged (depth := depth + 1) (target := bs) hd
        simp only [Option.map_some]
        simp only [nodeToJson] at ih ⊢
        cases hm : mergeInto true (depth + 1) bs (.obj cs cq) with
        | error e =>
          refine ⟨by simp, ?_⟩
          intro c he
          exact ih.2 c (by rw [hm]; simpa using he)
        | ok merged => exact ⟨fun _ _ => ih.1 merged hm, by simp⟩

theorem insertPath_cons2 (strict : Bool) (depth : Nat) (es : List (Str × Node F)) (k s : Str) (ss : List Str) (v : Node F) :
    insertPath strict depth es (k :: s :: ss) v =
      if depth ≥ maxExpandDepth then .error .expandDepth
      else
        match entryGet es k with
        | some (.obj bs q) =>
          match insertPath strict (depth + 1) bs (s :: ss) v with
          | .error e => .error e
          | .ok es' => .ok (entrySet es k (.obj es' q))
        | some existing =>
          if strict then .error (.pathConflict (.segment k (nodeKind existing)))
          else
            match insertPath strict (depth + 1) [] (s :: ss) v with
            | .error e => .error e
            | .ok es' => .ok (entrySet es k (.obj es' []))
        | none =>
          match insertPath strict (depth + 1) [] (s :: ss) v with
          | .error e => .error e
          | .ok es' => .ok (es ++ [(k, .obj es' [])]) := by
  rw [insertPath]
  · rfl
  · simp

theorem mergeObj_nil (k : Str) (v : Json F) : mergeObj [] [(k, v)] = [(k, v)] := by
  rw [mergeObj_cons, mergeObj]; rfl

theorem insertPath_spec {strict : Bool} {v : Node F} : ∀ {segs : List Str} {depth : Nat} {es out : List (Str × Node F)},
    insertPath strict depth es segs v = .ok out → entriesToJson out = mergeObj (entriesToJson es) (atPath segs (nodeToJson v))
  | [], depth, es, out, h => by
    rw [insertPath] at h
    split at h
    · simp at h
    · simp only [Except.ok.injEq] at h
      subst h
      simp only [atPath, mergeObj]
  | [s], depth, es, out, h => by
    rw [insertPath] at h
    split at h
    · simp at h
    · exact insertLiteral_spec h
  | k :: s :: ss, depth, es, out, h => by
    rw [insertPath_cons2] at h
    split at h
    · simp at h
    simp only [atPath, nested]
    rw [mergeObj_cons, mergeObj]
    unfold putMerge
    rw [lookup_entries]
    cases hg : entryGet es k with
    | none =>
      rw [hg] at h
      simp only at h
      split at h
      · simp at h
      · rename_i es' hp
        simp only [Except.ok.injEq] at h
        subst h
        have := insertPath_spec hp
        simp only [entriesToJson, atPath, mergeObj_nil] at this
        rw [entries_append]
        simp only [Option.map_none, entriesToJson, nodeToJson, this]
    | some n =>
      rw [hg] at h
      cases n with
      | obj bs bq =>
        simp only at h
        split at h
        · simp at h
        · rename_i es' hp
          simp only [Except.ok.injEq] at h
          subst h
          have := insertPath_spec hp
          simp only [atPath] at this
          rw [entries_set]
          simp only [Option.map_some, nodeToJson, this, deepMerge]
      | prim p =>
        simp only at h
        split at h
        · simp at h
        · split at h
          · simp at h
          · rename_i es' hp
            simp only [Except.ok.injEq] at h
            subst h
            have := insertPath_spec hp
            simp only [entriesToJson, atPath, mergeObj_nil] at this
            rw [entries_set]
            simp only [Option.map_some, nodeToJson, this, deepMerge]
      | arr items =>
        simp only at h
        split at h
        · simp at h
        · split at h
          · simp at h
          · rename_i es' hp
            simp only [Except.ok.injEq] at h
            subst h
            have := insertPath_spec hp
            simp only [entriesToJson, atPath, mergeObj_nil] at this
            rw [entries_set]
            simp only [Option.map_some, nodeToJson, this, deepMerge]

theorem insertPath_judged {v : Node F} (hd : DistinctKeys (nodeToJson v)) : ∀ {segs : List Str} {depth : Nat}
    {es : List (Str × Node F)}, Judged (insertPath true depth es segs v) (clashEntries (entriesToJson es) (atPath segs (nodeToJson v)))
  | [], depth, es => by
    rw [insertPath]
    split
    · exact ⟨by simp, by simp⟩
    · exact ⟨by simp [atPath, clashEntries], by simp⟩
  | [s], depth, es => by
    rw [insertPath]
    split
    · exact ⟨by simp, by simp⟩
    · exact insertLiteral_judged hd
  | k :: s :: ss, depth, es => by
    rw [insertPath_cons2]
    by_cases h : depth ≥ maxExpandDepth
    · rw [if_pos h]; exact ⟨by simp, by simp⟩
    rw [if_neg h]
    simp only [atPath, clashEntries, lookup_entries, Bool.or_false, nested]
    have hnil := insertPath_judged hd (segs := s :: ss) (depth := depth + 1) (es := [])
    simp only [entriesToJson, clashEntries_nil] at hnil
    cases hg : entryGet es k with
    | none =>
      simp only [Option.map_none]
      cases hp : insertPath true (depth + 1) [] (s :: ss) v with
      | error e => exact ⟨by simp, by intro c he; exact absurd (hnil.2 c (by rw [hp]; simpa using he)) (by simp)⟩
      | ok es' => exact ⟨by simp, by simp⟩
    | some n =>
      simp only [Option.map_some]
      cases n with
      | prim p => exact ⟨by simp, by intro _ _; rfl⟩
      | arr items => exact ⟨by simp, by intro _ _; rfl⟩
      | obj bs bq =>
        have ih := insertPath_judged hd (segs := s :: ss) (depth := depth + 1) (es := bs)
        simp only [atPath] at ih
        simp only [nodeToJson, clash]
        cases hp : insertPath true (depth + 1) bs (s :: ss) v with
        | error e => exact ⟨by simp, by intro c he; exact ih.2 c (by rw [hp]; simpa using he)⟩
        | ok es' => exact ⟨fun _ _ => ih.1 es' hp, by simp⟩

/-! ## The path of a key -/

theorem splitDots_eq (s : Str) : splitDots s = splitOn '.' s := by
  induction s with
  | nil => rfl
  | cons c cs ih =>
    simp only [splitDots, splitOn, ih]
    rfl

theorem quotedIn_iff {es : List (Str × Bool × ETree F)} {k : Str} : quotedIn es k = true ↔ k ∈ ETree.quotedKeys es [] := by
  rw [mem_quotedKeys]
  simp only [quotedIn, List.any_eq_true, Bool.and_eq_true, beq_iff_eq]
  constructor
  · rintro ⟨⟨k', q, t⟩, he, h1, h2⟩
    simp only at h1 h2
    subst h1; subst h2
    exact Or.inr ⟨t, he⟩
  · rintro (h | ⟨t, ht⟩)
    · simp at h
    · exact ⟨_, ht, rfl, rfl⟩

theorem identifier_fun : (identifier : Str → Bool) = isIdentifierSegment := funext identifier_eq

theorem segments_keyPath (es : List (Str × Bool × ETree F)) (k : Str) :
    keyPath (quotedIn es k) k = (expandSegments k (ETree.quotedKeys es [])).getD [k] := by
  cases h : expandSegments k (ETree.quotedKeys es []) with
  | some segs =>
    obtain ⟨h1, h2, h3, h4⟩ := expandSegments_some h
    rw [← quotedIn_iff, Bool.not_eq_true] at h4
    have hs : splitDots k = segs := by
      rw [splitDots_eq, h3]
      exact splitOn_joinWith (by intro he; rw [he] at h1; simp at h1) (all_nodot h2)
    unfold keyPath
    rw [hs, if_pos ⟨h4, h1, by rw [identifier_fun]; simpa using h2⟩]
    rfl
  | none =>
    unfold keyPath
    rw [if_neg]
    · rfl
    rintro ⟨h1, h2, h3⟩
    have h4 : k ∉ ETree.quotedKeys es [] := by rw [← quotedIn_iff, h1]; simp
    have := expandSegments_joined (quoted := ETree.quotedKeys es []) h2
      (by rw [identifier_fun] at h3; simpa using h3) (by rwa [splitDots_eq, joinWith_splitOn])
    rw [splitDots_eq, joinWith_splitOn] at this
    rw [this] at h
    simp at h

/-! ## Whole trees -/

mutual
theorem expandInner_spec {strict : Bool} (t : ETree F) {d : Nat} {n : Node F} (h : expandInner strict t.node d = .ok n) :
    nodeToJson n = expanded t := by
  match t with
  | .prim p =>
    simp only [ETree.node] at h
    rw [expandInner] at h
    split at h
    · simp at h
    · simp only [Except.ok.injEq] at h; subst h; rfl
  | .arr m items =>
    simp only [ETree.node] at h
    rw [expandInner] at h
    split at h
    · simp at h
    · split at h
      · simp at h
      · rename_i ns hs
        simp only [Except.ok.injEq] at h; subst h
        simp only [nodeToJson, expanded]
        rw [expandItems_spec items hs]
  | .obj es =>
    simp only [ETree.node] at h
    rw [expandInner] at h
    split at h
    · simp at h
    · split at h
      · simp at h
      · split at h
        · simp at h
        · rename_i out hs
          simp only [Except.ok.injEq] at h; subst h
          simp only [nodeToJson, expanded]
          rw [expandEntries_spec es es hs]
          rfl
theorem expandItems_spec {strict : Bool} (ts : List (ETree F)) {d : Nat} {ns : List (Node F)}
    (h : expandItems strict (ETree.nodeItems ts) d = .ok ns) : nodesToJson ns = expandedItems ts := by
  match ts with
  | [] => simp only [ETree.nodeItems, expandItems, Except.ok.injEq] at h; subst h; rfl
  | t :: ts =>
    simp only [ETree.nodeItems] at h
    rw [expandItems] at h
    split at h
    · simp at h
    · rename_i n' hn
      split at h
      · simp at h
      · rename_i ns' hns
        simp only [Except.ok.injEq] at h; subst h
        simp only [nodesToJson, expandedItems]
        rw [expandInner_spec t hn, expandItems_spec ts hns]
theorem expandEntries_spec {strict : Bool} (all es : List (Str × Bool × ETree F)) {d : Nat} {acc out : List (Str × Node F)}
    (h : expandEntries strict (ETree.quotedKeys all []) (ETree.nodeEntries es) d acc = .ok out) :
    entriesToJson out = expandedEntries (quotedIn all) es (entriesToJson acc) := by
  match es with
  | [] => simp only [ETree.nodeEntries, expandEntries, Except.ok.injEq] at h; subst h; rfl
  | (k, q, t) :: es =>
    simp only [ETree.nodeEntries] at h
    rw [expandEntries] at h
    split at h
    · simp at h
    · rename_i v' hv
      have hj := expandInner_spec t hv
      rw [expandedEntries, segments_keyPath, ← hj]
      simp only at h
      cases hs : expandSegments k (ETree.quotedKeys all []) with
      | some segs =>
        simp only [hs] at h
        split at h
        · simp at h
        · rename_i acc' hp
          rw [expandEntries_spec all es h, insertPath_spec hp]
          rfl
      | none =>
        simp only [hs] at h
        split at h
        · simp at h
        · rename_i acc' hp
          rw [expandEntries_spec all es h, insertLiteral_spec hp]
          rfl
end

mutual
theorem expandInner_judged (t : ETree F) (d : Nat) : Judged (expandInner true t.node d) (conflicting t) := by
  match t with
  | .prim p =>
    simp only [ETree.node]
    rw [expandInner]
    split
    · exact ⟨by simp, by simp⟩
    · exact ⟨fun _ _ => rfl, by simp⟩
  | .arr m items =>
    simp only [ETree.node]
    rw [expandInner]
    split
    · exact ⟨by simp, by simp⟩
    · have ih := expandItems_judged items (d + 1)
      split
      · rename_i e he
        exact ⟨by simp, by intro c h; exact ih.2 c (by rw [he]; simpa using h)⟩
      · rename_i ns hs
        exact ⟨fun _ _ => ih.1 ns hs, by simp⟩
  | .obj es =>
    simp only [ETree.node]
    rw [expandInner]
    split
    · exact ⟨by simp, by simp⟩
    · split
      · exact ⟨by simp, by simp⟩
      · have ih := expandEntries_judged es es (d + 1) []
        split
        · rename_i e he
          exact ⟨by simp, by intro c h; exact ih.2 c (by rw [he]; simpa using h)⟩
        · rename_i ns hs
          exact ⟨fun _ _ => ih.1 ns hs, by simp⟩
theorem expandItems_judged (ts : List (ETree F)) (d : Nat) :
    Judged (expandItems true (ETree.nodeItems ts) d) (conflictingItems ts) := by
  match ts with
  | [] => exact ⟨fun _ _ => rfl, by simp [ETree.nodeItems, expandItems]⟩
  | t :: ts =>
    simp only [ETree.nodeItems]
    rw [expandItems, conflictingItems]
    have ih := expandInner_judged t d
    have ih' := expandItems_judged ts d
    split
    · rename_i e he
      exact ⟨by simp, by intro c h; rw [ih.2 c (by rw [he]; simpa using h)]; rfl⟩
    · rename_i n' hn
      rw [ih.1 n' hn, Bool.false_or]
      split
      · rename_i e he
        exact ⟨by simp, by intro c h; exact ih'.2 c (by rw [he]; simpa using h)⟩
      · rename_i ns' hns
        exact ⟨fun _ _ => ih'.1 ns' hns, by simp⟩
theorem expandEntries_judged (all es : List (Str × Bool × ETree F)) (d : Nat) (acc : List (Str × Node F)) :
    Judged (expandEntries true (ETree.quotedKeys all []) (ETree.nodeEntries es) d acc)
      (conflictingEntries (quotedIn all) es (entriesToJson acc)) := by
  match es with
  | [] => exact ⟨fun _ _ => rfl, by simp [ETree.nodeEntries, expandEntries]⟩
  | (k, q, t) :: es =>
    simp only [ETree.nodeEntries]
    rw [expandEntries, conflictingEntries]
    have ih := expandInner_judged t (d + 1)
    split
    · rename_i e he
      exact ⟨by simp, by intro c h; rw [ih.2 c (by rw [he]; simpa using h)]; rfl⟩
    · rename_i v' hv
      have hj := expandInner_spec t hv
      have hdist : DistinctKeys (nodeToJson v') := by rw [hj]; exact expanded_distinct t
      rw [ih.1 v' hv, Bool.false_or, segments_keyPath, ← hj]
      cases hs : expandSegments k (ETree.quotedKeys all []) with
      | some segs =>
        simp only [Option.getD_some]
        have ip := insertPath_judged hdist (segs := segs) (depth := d + 1) (es := acc)
        split
        · rename_i e he
          exact ⟨by simp, by intro c h; rw [ip.2 c (by rw [he]; simpa using h)]; rfl⟩
        · rename_i acc' hp
          rw [ip.1 acc' hp, Bool.false_or, ← insertPath_spec hp]
          exact expandEntries_judged all es d acc'
      | none =>
        simp only [Option.getD_none]
        have ip := insertLiteral_judged hdist (k := k) (depth := d + 1) (es := acc)
        simp only [atPath, nested]
        split
        · rename_i e he
          exact ⟨by simp, by intro c h; rw [ip.2 c (by rw [he]; simpa using h)]; rfl⟩
        · rename_i acc' hp
          rw [ip.1 acc' hp, Bool.false_or, ← insertLiteral_spec hp]
          exact expandEntries_judged all es d acc'
end

end

end Toon
