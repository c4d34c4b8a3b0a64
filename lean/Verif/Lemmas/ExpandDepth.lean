import Verif.Lemmas.ExpandSpec
import Verif.Lemmas.ExpandLeaves

/-! The depth counter of path expansion. -/

namespace Toon

section
variable {F : Type}

/-! ## Heights -/

theorem heightEntries_le {es : List (Str × Json F)} {n : Nat} : heightEntries es ≤ n ↔ ∀ e ∈ es, height e.2 ≤ n := by
  induction es with
  | nil => simp [heightEntries]
  | cons e es ih => obtain ⟨k, v⟩ := e; simp [heightEntries, ih, Nat.max_le]

theorem heightEntries_mem {es : List (Str × Json F)} {e : Str × Json F} (h : e ∈ es) : height e.2 ≤ heightEntries es :=
  heightEntries_le.mp (Nat.le_refl _) e h

mutual
theorem deepMerge_height (a b : Json F) : height (deepMerge a b) ≤ max (height a) (height b) := by
  match b with
  | .prim p => simp [deepMerge]; omega
  | .arr items => simp only [deepMerge]; omega
  | .obj b =>
    match a with
    | .prim p => simp only [deepMerge]; omega
    | .arr items => simp only [deepMerge]; omega
    | .obj a =>
      simp only [deepMerge, height]
      have := mergeObj_height a b
      omega
theorem mergeObj_height (a b : List (Str × Json F)) :
    heightEntries (mergeObj a b) ≤ max (heightEntries a) (heightEntries b) := by
  match b with
  | [] => rw [mergeObj]; simp only [heightEntries]; omega
  | (k, v) :: b =>
    rw [mergeObj_cons]
    have h1 := mergeObj_height (putMerge a k v) b
    have h2 : heightEntries (putMerge a k v) ≤ max (heightEntries a) (height v) := by
      rw [heightEntries_le]
      intro e he
      unfold putMerge at he
      cases hl : lookupKey k a with
      | none =>
        simp only [hl, List.mem_append, List.mem_singleton] at he
        rcases he with he | rfl
        · have := heightEntries_mem he; omega
        · simp only; omega
      | some c =>
        simp only [hl] at he
        rcases replaceKey_mem he with he | rfl
        · have := heightEntries_mem he; omega
        · have h3 := deepMerge_height c v
          have := heightEntries_mem (lookup_mem hl)
          simp only at this ⊢
          omega
    simp only [heightEntries]
    omega
end

theorem nested_height (segs : List Str) (v : Json F) : height (nested segs v) = segs.length + height v := by
  induction segs with
  | nil => simp [nested]
  | cons s ss ih => simp only [nested, height, heightEntries, ih, List.length_cons]; omega

theorem atPath_height {segs : List Str} (h : segs ≠ []) (v : Json F) :
    heightEntries (atPath segs v) + 1 = segs.length + height v := by
  cases segs with
  | nil => exact absurd rfl h
  | cons s ss => simp only [atPath, heightEntries, nested_height, List.length_cons]; omega

theorem keyPath_pos (q : Bool) (k : Str) : 0 < (keyPath q k).length :=
  List.length_pos_iff.mpr (keyPath_ne q k)

mutual
theorem expanded_height (t : ETree F) : height (expanded t) ≤ pathHeight t := by
  match t with
  | .prim p => simp [expanded, height]
  | .arr n items => simp only [expanded, height, pathHeight]; have := expandedItems_height items; omega
  | .obj es =>
    simp only [expanded, height, pathHeight]
    have := expandedEntries_height (quotedIn es) es []
    simp only [heightEntries] at this
    omega
theorem expandedItems_height (ts : List (ETree F)) : heightItems (expandedItems ts) ≤ pathHeightItems ts := by
  match ts with
  | [] => simp [expandedItems, heightItems]
  | t :: ts =>
    simp only [expandedItems, heightItems, pathHeightItems]
    have := expanded_height t
    have := expandedItems_height ts
    omega
theorem expandedEntries_height (quoted : Str → Bool) (es : List (Str × Bool × ETree F)) (acc : List (Str × Json F)) :
    heightEntries (expandedEntries quoted es acc) + 1 ≤ max (heightEntries acc + 1) (pathHeightEntries quoted es) := by
  match es with
  | [] => rw [expandedEntries]; omega
  | (k, q, t) :: es =>
    rw [expandedEntries, pathHeightEntries]
    have h1 := expandedEntries_height quoted es (mergeObj acc (atPath (keyPath (quoted k) k) (expanded t)))
    have h2 := mergeObj_height acc (atPath (keyPath (quoted k) k) (expanded t))
    have h3 := atPath_height (keyPath_ne (quoted k) k) (expanded t)
    have h4 := expanded_height t
    omega
end

/-! ## Depth errors -/

mutual
theorem mergeInto_depth {strict : Bool} {depth : Nat} {target : List (Str × Node F)} {source : Node F}
    (h : mergeInto strict depth target source = .error .expandDepth) : 256 < depth + height (nodeToJson source) := by
  match source with
  | .obj entries q =>
    rw [mergeInto] at h
    simp only [nodeToJson, height]
    by_cases hd : depth ≥ maxExpandDepth
    · simp only [maxExpandDepth] at hd; omega
    · rw [if_neg hd] at h
      have := mergeEntries_depth h
      omega
  | .prim _ => simp [mergeInto] at h
  | .arr _ => simp [mergeInto] at h
theorem mergeEntries_depth {strict : Bool} {depth : Nat} {target source : List (Str × Node F)}
    (h : mergeEntries strict depth target source = .error .expandDepth) :
    256 < depth + 1 + heightEntries (entriesToJson source) := by
  match source with
  | [] => simp [mergeEntries] at h
  | (key, value) :: rest =>
    rw [mergeEntries] at h
    simp only [entriesToJson, heightEntries]
    cases hg : entryGet target key with
    | none => rw [hg] at h; have := mergeEntries_depth h; omega
    | some n =>
      rw [hg] at h
      have hrest : ∀ m, mergeEntries strict depth (entrySet target key m) rest = .error .expandDepth →
          256 < depth + 1 + heightEntries (entriesToJson rest) := fun m hm => mergeEntries_depth hm
      cases n with
      | prim p =>
        simp only at h
        split at h
        · simp at h
        · have := hrest _ h; omega
      | arr items =>
        simp only at h
        split at h
        · simp at h
        · have := hrest _ h; omega
      | obj es q =>
        cases value with
        | prim p =>
          simp only at h
          split at h
          · simp at h
          · have := hrest _ h; omega
        | arr items =>
          simp only at h
          split at h
          · simp at h
          · have := hrest _ h; omega
        | obj bs bq =>
          simp only at h
          cases hm : mergeInto strict (depth + 1) es (.obj bs bq) with
          | error e =>
            rw [hm] at h
            simp only [Except.error.injEq] at h
            subst h
            have := mergeInto_depth hm
            omega
          | ok merged => rw [hm] at h; have := hrest _ h; omega
end

theorem insertLiteral_depth {strict : Bool} {depth : Nat} {es : List (Str × Node F)} {k : Str} {v : Node F}
    (h : insertLiteral strict depth es k v = .error .expandDepth) : 255 < depth + height (nodeToJson v) := by
  unfold insertLiteral at h
  by_cases hd : depth ≥ maxExpandDepth
  · simp only [maxExpandDepth] at hd; omega
  rw [if_neg hd] at h
  cases hg : entryGet es k with
  | none => simp [hg] at h
  | some n =>
    rw [hg] at h
    cases n with
    | prim p => simp only at h; split at h <;> simp at h
    | arr items => simp only at h; split at h <;> simp at h
    | obj bs bq =>
      cases v with
      | prim p => simp only at h; split at h <;> simp at h
      | arr items => simp only at h; split at h <;> simp at h
      | obj cs cq =>
        simp only at h
        cases hm : mergeInto strict (depth + 1) bs (.obj cs cq) with
        | error e =>
          rw [hm] at h
          simp only [Except.error.injEq] at h
          subst h
          have := mergeInto_depth hm
          omega
        | ok merged => simp [hm] at h

theorem insertPath_depth {strict : Bool} {v : Node F} : ∀ {segs : List Str} {depth : Nat} {es : List (Str × Node F)},
    insertPath strict depth es segs v = .error .expandDepth → 255 < depth + segs.length + height (nodeToJson v)
  | [], depth, es, h => by
    rw [insertPath] at h
    by_cases hd : depth ≥ maxExpandDepth
    · simp only [maxExpandDepth] at hd; omega
    · rw [if_neg hd] at h; simp at h
  | [s], depth, es, h => by
    rw [insertPath] at h
    by_cases hd : depth ≥ maxExpandDepth
    · simp only [maxExpandDepth] at hd; omega
    · rw [if_neg hd] at h
      have := insertLiteral_depth h
      simp only [List.length_cons, List.length_nil]
      omega
  | k :: s :: ss, depth, es, h => by
    rw [insertPath_cons2] at h
    by_cases hd : depth ≥ maxExpandDepth
    · simp only [maxExpandDepth] at hd; omega
    · rw [if_neg hd] at h
      have hrec : ∀ bs : List (Str × Node F), insertPath strict (depth + 1) bs (s :: ss) v = .error .expandDepth →
          255 < depth + (k :: s :: ss).length + height (nodeToJson v) := by
        intro bs hb
        have := insertPath_depth hb
        simp only [List.length_cons] at this ⊢
        omega
      cases hg : entryGet es k with
      | none =>
        rw [hg] at h
        simp only at h
        split at h
        · rename_i e he
          simp only [Except.error.injEq] at h; subst h
          exact hrec _ he
        · simp at h
      | some n =>
        rw [hg] at h
        cases n with
        | obj bs bq =>
          simp only at h
          split at h
          · rename_i e he
            simp only [Except.error.injEq] at h; subst h
            exact hrec _ he
          · simp at h
        | prim p =>
          simp only at h
          split at h
          · simp at h
          · split at h
            · rename_i e he
              simp only [Except.error.injEq] at h; subst h
              exact hrec _ he
            · simp at h
        | arr items =>
          simp only at h
          split at h
          · simp at h
          · split at h
            · rename_i e he
              simp only [Except.error.injEq] at h; subst h
              exact hrec _ he
            · simp at h

mutual
theorem expandInner_depth {strict : Bool} (t : ETree F) {d : Nat} (h : expandInner strict t.node d = .error .expandDepth) :
    255 < d + 2 * height t.json + pathHeight t := by
  match t with
  | .prim p =>
    simp only [ETree.node] at h
    rw [expandInner] at h
    by_cases hd : d ≥ maxExpandDepth
    · simp only [maxExpandDepth] at hd; omega
    · rw [if_neg hd] at h; simp at h
  | .arr m items =>
    simp only [ETree.node] at h
    rw [expandInner] at h
    by_cases hd : d ≥ maxExpandDepth
    · simp only [maxExpandDepth] at hd; omega
    · rw [if_neg hd] at h
      split at h
      · rename_i e he
        simp only [Except.error.injEq] at h; subst h
        have := expandItems_depth items he
        simp only [ETree.json, height, pathHeight]
        omega
      · simp at h
  | .obj es =>
    simp only [ETree.node] at h
    rw [expandInner] at h
    simp only [ETree.json, height, pathHeight]
    by_cases hd : d ≥ maxExpandDepth
    · simp only [maxExpandDepth] at hd; omega
    · rw [if_neg hd] at h
      by_cases hd' : d + 1 ≥ maxExpandDepth
      · simp only [maxExpandDepth] at hd'; omega
      · rw [if_neg hd'] at h
        split at h
        · rename_i e he
          simp only [Except.error.injEq] at h; subst h
          have := expandEntries_depth es es he
          omega
        · simp at h
theorem expandItems_depth {strict : Bool} (ts : List (ETree F)) {d : Nat}
    (h : expandItems strict (ETree.nodeItems ts) d = .error .expandDepth) :
    255 < d + 2 * heightItems (ETree.jsonItems ts) + pathHeightItems ts := by
  match ts with
  | [] => simp [ETree.nodeItems, expandItems] at h
  | t :: ts =>
    simp only [ETree.nodeItems] at h
    rw [expandItems] at h
    simp only [ETree.jsonItems, heightItems, pathHeightItems]
    split at h
    · rename_i e he
      simp only [Except.error.injEq] at h; subst h
      have := expandInner_depth t he
      omega
    · split at h
      · rename_i e he
        simp only [Except.error.injEq] at h; subst h
        have := expandItems_depth ts he
        omega
      · simp at h
theorem expandEntries_depth {strict : Bool} (all es : List (Str × Bool × ETree F)) {d : Nat} {acc : List (Str × Node F)}
    (h : expandEntries strict (ETree.quotedKeys all []) (ETree.nodeEntries es) d acc = .error .expandDepth) :
    254 < d + 2 * heightEntries (ETree.jsonEntries es) + pathHeightEntries (quotedIn all) es := by
  match es with
  | [] => simp [ETree.nodeEntries, expandEntries] at h
  | (k, q, t) :: es =>
    simp only [ETree.nodeEntries] at h
    rw [expandEntries] at h
    simp only [ETree.jsonEntries, heightEntries, pathHeightEntries]
    split at h
    · rename_i e he
      simp only [Except.error.injEq] at h; subst h
      have := expandInner_depth t he
      have := keyPath_pos (quotedIn all k) k
      omega
    · rename_i v' hv
      have hj := expandInner_spec t hv
      have hh := expanded_height t
      rw [← hj] at hh
      have hp := segments_keyPath all k
      simp only at h
      cases hs : expandSegments k (ETree.quotedKeys all []) with
      | some segs =>
        rw [hs, Option.getD_some] at hp
        rw [hp]
        simp only [hs] at h
        split at h
        · rename_i e he
          simp only [Except.error.injEq] at h; subst h
          have := insertPath_depth he
          omega
        · have := expandEntries_depth all es h
          omega
      | none =>
        rw [hs, Option.getD_none] at hp
        rw [hp]
        simp only [hs] at h
        split at h
        · rename_i e he
          simp only [Except.error.injEq] at h; subst h
          have := insertLiteral_depth he
          simp only [List.length_cons, List.length_nil]
          omega
        · have := expandEntries_depth all es h
          omega
end

/-! ## Depth needed -/

theorem insertLiteral_ok {strict : Bool} {depth : Nat} {es out : List (Str × Node F)} {k : Str} {v : Node F}
    (h : insertLiteral strict depth es k v = .ok out) : depth < 256 := by
  unfold insertLiteral at h
  by_cases hd : depth ≥ maxExpandDepth
  · rw [if_pos hd] at h; simp at h
  · simp only [maxExpandDepth] at hd; omega

theorem insertPath_ok {strict : Bool} {v : Node F} : ∀ {segs : List Str} {depth : Nat} {es out : List (Str × Node F)},
    insertPath strict depth es segs v = .ok out → segs.length + depth < 256
  | [], depth, es, out, h => by
    rw [insertPath] at h
    by_cases hd : depth ≥ maxExpandDepth
    · rw [if_pos hd] at h; simp at h
    · simp only [maxExpandDepth] at hd; simp only [List.length_nil]; omega
  | [s], depth, es, out, h => by
    rw [insertPath] at h
    by_cases hd : depth ≥ maxExpandDepth
    · rw [if_pos hd] at h; simp at h
    · rw [if_neg hd] at h
      have := insertLiteral_ok h
      simp only [List.length_cons, List.length_nil]
      omega
  | k :: s :: ss, depth, es, out, h => by
    rw [insertPath_cons2] at h
    have hrec : ∀ bs os : List (Str × Node F), insertPath strict (depth + 1) bs (s :: ss) v = .ok os →
        (k :: s :: ss).length + depth < 256 := by
      intro bs os hb
      have := insertPath_ok hb
      simp only [List.length_cons] at this ⊢
      omega
    by_cases hd : depth ≥ maxExpandDepth
    · rw [if_pos hd] at h; simp at h
    · rw [if_neg hd] at h
      cases hg : entryGet es k with
      | none =>
        rw [hg] at h
        simp only at h
        split at h
        · simp at h
        · rename_i os he; exact hrec _ _ he
      | some n =>
        rw [hg] at h
        cases n with
        | obj bs bq =>
          simp only at h
          split at h
          · simp at h
          · rename_i os he; exact hrec _ _ he
        | prim p =>
          simp only at h
          split at h
          · simp at h
          · split at h
            · simp at h
            · rename_i os he; exact hrec _ _ he
        | arr items =>
          simp only at h
          split at h
          · simp at h
          · split at h
            · simp at h
            · rename_i os he; exact hrec _ _ he

mutual
theorem expandInner_needed {strict : Bool} (t : ETree F) {d : Nat} {n : Node F} (h : expandInner strict t.node d = .ok n) :
    d + depthNeeded t ≤ 256 := by
  match t with
  | .prim p =>
    simp only [ETree.node] at h
    rw [expandInner] at h
    by_cases hd : d ≥ maxExpandDepth
    · rw [if_pos hd] at h; simp at h
    · simp only [maxExpandDepth] at hd; simp only [depthNeeded]; omega
  | .arr m items =>
    simp only [ETree.node] at h
    rw [expandInner] at h
    by_cases hd : d ≥ maxExpandDepth
    · rw [if_pos hd] at h; simp at h
    · rw [if_neg hd] at h
      simp only [maxExpandDepth] at hd
      split at h
      · simp at h
      · rename_i ns hs
        have := expandItems_needed items (by omega) hs
        simp only [depthNeeded]
        omega
  | .obj es =>
    simp only [ETree.node] at h
    rw [expandInner] at h
    by_cases hd : d ≥ maxExpandDepth
    · rw [if_pos hd] at h; simp at h
    · rw [if_neg hd] at h
      by_cases hd' : d + 1 ≥ maxExpandDepth
      · rw [if_pos hd'] at h; simp at h
      · rw [if_neg hd'] at h
        simp only [maxExpandDepth] at hd'
        split at h
        · simp at h
        · rename_i ns hs
          have := expandEntries_needed es es (by omega) hs
          simp only [depthNeeded]
          omega
theorem expandItems_needed {strict : Bool} (ts : List (ETree F)) {d : Nat} {ns : List (Node F)} (hd : d ≤ 256)
    (h : expandItems strict (ETree.nodeItems ts) d = .ok ns) : d + depthNeededItems ts ≤ 256 := by
  match ts with
  | [] => simpa [depthNeededItems] using hd
  | t :: ts =>
    simp only [ETree.nodeItems] at h
    rw [expandItems] at h
    split at h
    · simp at h
    · rename_i n' hn
      split at h
      · simp at h
      · rename_i ns' hns
        have := expandInner_needed t hn
        have := expandItems_needed ts hd hns
        simp only [depthNeededItems]
        omega
theorem expandEntries_needed {strict : Bool} (all es : List (Str × Bool × ETree F)) {d : Nat} {acc out : List (Str × Node F)}
    (hd : d + 1 ≤ 256) (h : expandEntries strict (ETree.quotedKeys all []) (ETree.nodeEntries es) d acc = .ok out) :
    d + 1 + depthNeededEntries (quotedIn all) es ≤ 256 := by
  match es with
  | [] => simpa [depthNeededEntries] using hd
  | (k, q, t) :: es =>
    simp only [ETree.nodeEntries] at h
    rw [expandEntries] at h
    split at h
    · simp at h
    · rename_i v' hv
      have h1 := expandInner_needed t hv
      have hp := segments_keyPath all k
      simp only at h
      simp only [depthNeededEntries]
      cases hs : expandSegments k (ETree.quotedKeys all []) with
      | some segs =>
        rw [hs, Option.getD_some] at hp
        rw [hp]
        simp only [hs] at h
        split at h
        · simp at h
        · rename_i acc' ha
          have h2 := insertPath_ok ha
          have h3 := expandEntries_needed all es hd h
          split <;> omega
      | none =>
        rw [hs, Option.getD_none] at hp
        rw [hp]
        simp only [hs] at h
        split at h
        · simp at h
        · rename_i acc' ha
          have h2 := insertLiteral_ok ha
          have h3 := expandEntries_needed all es hd h
          simp only [List.length_cons, List.length_nil]
          split <;> omega
end

/-! ## The nesting of results -/

theorem depthNeeded_pos (t : ETree F) : 0 < depthNeeded t := by
  cases t <;> simp only [depthNeeded] <;> omega

/-! ## How deep the result nests -/

/-- The deepest nesting within a number of levels. -/
def deepest : Nat → Nat
  | 0 => 0
  | 1 => 1
  | 2 => 2
  | 3 => 3
  | 4 => 4
  | m + 5 => deepest (m + 3) + (m + 2)

theorem deepest_succ : ∀ m, deepest m + 1 ≤ deepest (m + 1)
  | 0 => by decide
  | 1 => by decide
  | 2 => by decide
  | 3 => by decide
  | 4 => by decide
  | m + 5 => by
    have := deepest_succ (m + 3)
    rw [deepest, show m + 5 + 1 = (m + 1) + 5 by omega, deepest, show m + 1 + 3 = m + 3 + 1 by omega]
    omega

theorem deepest_two (m : Nat) : deepest m + max 1 (m - 1) ≤ deepest (m + 2) := by
  match m with
  | 0 => decide
  | 1 => decide
  | 2 => decide
  | m + 3 => rw [show m + 3 + 2 = m + 5 by omega, deepest.eq_def (m + 5)]; simp only; omega

theorem deepest_pos {m : Nat} (h : 0 < m) : 0 < deepest m := by
  obtain ⟨j, rfl⟩ : ∃ j, m = j + 1 := ⟨m - 1, by omega⟩
  have := deepest_succ j
  omega

mutual
theorem pathHeight_deepest (t : ETree F) (m : Nat) (h : depthNeeded t ≤ m) : pathHeight t ≤ deepest m := by
  match t with
  | .prim p => simp [pathHeight]
  | .arr n items =>
    simp only [depthNeeded] at h
    have h2 := pathHeightItems_deepest items (m - 1) (by omega)
    simp only [pathHeight]
    obtain ⟨j, rfl⟩ : ∃ j, m = j + 1 := ⟨m - 1, by omega⟩
    simp only [Nat.add_sub_cancel] at h2
    have := deepest_succ j
    omega
  | .obj es =>
    simp only [depthNeeded] at h
    have h2 := pathHeightEntries_deepest (quotedIn es) es (m - 2) (by omega)
    simp only [pathHeight]
    obtain ⟨j, rfl⟩ : ∃ j, m = j + 2 := ⟨m - 2, by omega⟩
    simp only [Nat.add_sub_cancel] at h2
    have := deepest_two j
    omega
theorem pathHeightItems_deepest (ts : List (ETree F)) (m : Nat) (h : depthNeededItems ts ≤ m) :
    pathHeightItems ts ≤ deepest m := by
  match ts with
  | [] => simp [pathHeightItems]
  | t :: ts =>
    simp only [depthNeededItems] at h
    have := pathHeight_deepest t m (by omega)
    have := pathHeightItems_deepest ts m (by omega)
    simp only [pathHeightItems]
    omega
theorem pathHeightEntries_deepest (quoted : Str → Bool) (es : List (Str × Bool × ETree F)) (m : Nat)
    (h : depthNeededEntries quoted es ≤ m) : pathHeightEntries quoted es ≤ deepest m + max 1 (m - 1) := by
  match es with
  | [] => simp [pathHeightEntries]
  | (k, q, t) :: es =>
    simp only [depthNeededEntries] at h
    have := pathHeight_deepest t m (by omega)
    have := pathHeightEntries_deepest quoted es m (by omega)
    have := keyPath_pos (quoted k) k
    simp only [pathHeightEntries]
    split at h <;> omega
end

theorem deepest_cap : deepest 256 = 16132 := by decide +kernel

end

end Toon
