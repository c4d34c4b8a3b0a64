import Verif.Spec.Levels
import Verif.Lemmas.ExpandKeys
import Verif.Lemmas.ExpandDepth
import Verif.Lemmas.Declarable

/-! Levels of expanded values. -/

namespace Toon

section
variable {F : Type}

/-! ## The least levels -/

theorem leastLevelsEntries_le {n : Nat} : ∀ {es : List (Str × Json F)}, leastLevelsEntries es ≤ n ↔
    ∀ e ∈ es, leastLevels (identifier e.1) e.2 ≤ n
  | [] => by simp [leastLevelsEntries]
  | (k, v) :: es => by
    simp only [leastLevelsEntries, List.mem_cons, forall_eq_or_imp, Nat.max_le, leastLevelsEntries_le (n := n) (es := es)]

theorem leastLevels_joined (j : Bool) (v : Json F) : leastLevels j v ≤ leastLevels false v := by
  cases v with
  | prim p => simp [leastLevels]
  | arr items => simp [leastLevels]
  | obj es => cases j <;> simp [leastLevels]

mutual
theorem deepMerge_least (a b : Json F) (j : Bool) : leastLevels j (deepMerge a b) ≤ max (leastLevels j a) (leastLevels j b) := by
  match b with
  | .prim p => simp only [deepMerge]; omega
  | .arr items => simp only [deepMerge]; omega
  | .obj b =>
    match a with
    | .prim p => simp only [deepMerge]; omega
    | .arr items => simp only [deepMerge]; omega
    | .obj a =>
      simp only [deepMerge, leastLevels]
      have := mergeObj_least a b
      omega
theorem mergeObj_least (a b : List (Str × Json F)) :
    leastLevelsEntries (mergeObj a b) ≤ max (leastLevelsEntries a) (leastLevelsEntries b) := by
  match b with
  | [] => rw [mergeObj]; omega
  | (k, v) :: b =>
    rw [mergeObj_cons]
    have h1 := mergeObj_least (putMerge a k v) b
    have ha := leastLevelsEntries_le.mp (Nat.le_refl (leastLevelsEntries a))
    have h2 : leastLevelsEntries (putMerge a k v) ≤ max (leastLevelsEntries a) (leastLevels (identifier k) v) := by
      rw [leastLevelsEntries_le]
      intro e he
      unfold putMerge at he
      cases hl : lookupKey k a with
      | none =>
        simp only [hl, List.mem_append, List.mem_singleton] at he
        rcases he with he | rfl
        · have := ha e he; omega
        · simp only; omega
      | some c =>
        simp only [hl] at he
        rcases replaceKey_mem he with he | rfl
        · have := ha e he; omega
        · have h3 := deepMerge_least c v (identifier k)
          have := ha _ (lookup_mem hl)
          simp only at this ⊢
          omega
    simp only [leastLevelsEntries]
    omega
end

theorem nested_least : ∀ (segs : List Str) (v : Json F), (∀ s ∈ segs, identifier s = true) → leastLevels true (nested segs v) ≤ leastLevels false v
  | [], v, _ => leastLevels_joined true v
  | s :: ss, v, h => by
    simp only [nested, leastLevels, leastLevelsEntries, h s (by simp)]
    have := nested_least ss v (fun s hs => h s (by simp [hs]))
    simp only [if_true]
    omega

theorem atPath_least (q : Bool) (k : Str) (v : Json F) : leastLevelsEntries (atPath (keyPath q k) v) ≤ leastLevels false v := by
  rcases keyPath_cases q k with h | ⟨segs, h2, hi, _, h⟩
  · rw [h]
    simp only [atPath, nested, leastLevelsEntries]
    have := leastLevels_joined (identifier k) v
    omega
  · rw [h]
    match segs, h2 with
    | s :: ss, _ =>
      simp only [atPath, leastLevelsEntries, hi s (by simp)]
      have := nested_least ss v (fun s hs => hi s (by simp [hs]))
      omega

mutual
theorem expanded_least (t : ETree F) : leastLevels false (expanded t) ≤ depthNeeded t := by
  match t with
  | .prim p => simp [expanded, leastLevels, depthNeeded]
  | .arr n items =>
    simp only [expanded, leastLevels, depthNeeded]
    have := expandedItems_least items
    omega
  | .obj es =>
    simp only [expanded, leastLevels, depthNeeded]
    have := expandedEntries_least (quotedIn es) es []
    simp only [leastLevelsEntries, Bool.false_eq_true, if_false] at this ⊢
    omega
theorem expandedItems_least (ts : List (ETree F)) : leastLevelsItems (expandedItems ts) ≤ depthNeededItems ts := by
  match ts with
  | [] => simp [expandedItems, leastLevelsItems]
  | t :: ts =>
    simp only [expandedItems, leastLevelsItems, depthNeededItems]
    have := expanded_least t
    have := expandedItems_least ts
    omega
theorem expandedEntries_least (quoted : Str → Bool) (es : List (Str × Bool × ETree F)) (acc : List (Str × Json F)) :
    leastLevelsEntries (expandedEntries quoted es acc) ≤ max (leastLevelsEntries acc) (depthNeededEntries quoted es) := by
  match es with
  | [] => rw [expandedEntries]; omega
  | (k, q, t) :: es =>
    rw [expandedEntries, depthNeededEntries]
    have h1 := expandedEntries_least quoted es (mergeObj acc (atPath (keyPath (quoted k) k) (expanded t)))
    have h2 := mergeObj_least acc (atPath (keyPath (quoted k) k) (expanded t))
    have h3 := atPath_least (quoted k) k (expanded t)
    have h4 := expanded_least t
    omega
end

mutual
theorem leastLevels_plain : ∀ {v : Json F}, AllKeys (fun k => identifier k = false) v → leastLevels false v = plainLevels v
  | .prim p, _ => by simp [leastLevels, plainLevels]
  | .arr items, h => by
    rw [AllKeys] at h
    simp only [leastLevels, plainLevels, leastLevelsItems_plain h]
  | .obj es, h => by
    rw [AllKeys] at h
    simp [leastLevels, plainLevels, leastLevelsEntries_plain h]
theorem leastLevelsItems_plain : ∀ {vs : List (Json F)}, AllKeysItems (fun k => identifier k = false) vs →
    leastLevelsItems vs = plainLevelsItems vs
  | [], _ => by simp [leastLevelsItems, plainLevelsItems]
  | v :: vs, h => by
    rw [AllKeysItems] at h
    simp only [leastLevelsItems, plainLevelsItems, leastLevels_plain h.1, leastLevelsItems_plain h.2]
theorem leastLevelsEntries_plain : ∀ {es : List (Str × Json F)}, AllKeysEntries (fun k => identifier k = false) es →
    leastLevelsEntries es = plainLevelsEntries es
  | [], _ => by simp [leastLevelsEntries, plainLevelsEntries]
  | (k, v) :: es, h => by
    rw [AllKeysEntries] at h
    simp only [leastLevelsEntries, plainLevelsEntries, h.1, leastLevels_plain h.2.1, leastLevelsEntries_plain h.2.2]
end

mutual
theorem plainLevels_height : ∀ v : Json F, plainLevels v ≤ 2 * height v + 1
  | .prim p => by simp [plainLevels]
  | .arr items => by simp only [plainLevels, height]; have := plainLevelsItems_height items; omega
  | .obj es => by simp only [plainLevels, height]; have := plainLevelsEntries_height es; omega
theorem plainLevelsItems_height : ∀ vs : List (Json F), plainLevelsItems vs ≤ 2 * heightItems vs + 1
  | [] => by simp [plainLevelsItems]
  | v :: vs => by
    simp only [plainLevelsItems, heightItems]
    have := plainLevels_height v
    have := plainLevelsItems_height vs
    omega
theorem plainLevelsEntries_height : ∀ es : List (Str × Json F), plainLevelsEntries es ≤ 2 * heightEntries es + 1
  | [] => by simp [plainLevelsEntries]
  | (k, v) :: es => by
    simp only [plainLevelsEntries, heightEntries]
    have := plainLevels_height v
    have := plainLevelsEntries_height es
    omega
end

/-! ## Trees with quoted keys -/

mutual
theorem depthNeeded_quoted : ∀ {t : ETree F}, (t.AllKeys fun _ q => q = true) → depthNeeded t = plainLevels t.json
  | .prim p, _ => by simp [depthNeeded, ETree.json, plainLevels]
  | .arr n items, h => by
    rw [ETree.AllKeys] at h
    simp only [depthNeeded, ETree.json, plainLevels, depthNeededItems_quoted h]
    omega
  | .obj es, h => by
    rw [ETree.AllKeys] at h
    simp only [depthNeeded, ETree.json, plainLevels, depthNeededEntries_quoted (all := es) h (fun _ h => h)]
    omega
theorem depthNeededItems_quoted : ∀ {ts : List (ETree F)}, ETree.AllKeysItems (fun _ q => q = true) ts →
    depthNeededItems ts = plainLevelsItems (ETree.jsonItems ts)
  | [], _ => by simp [depthNeededItems, ETree.jsonItems, plainLevelsItems]
  | t :: ts, h => by
    rw [ETree.AllKeysItems] at h
    simp only [depthNeededItems, ETree.jsonItems, plainLevelsItems, depthNeeded_quoted h.1, depthNeededItems_quoted h.2]
theorem depthNeededEntries_quoted {all : List (Str × Bool × ETree F)} : ∀ {es : List (Str × Bool × ETree F)},
    ETree.AllKeysEntries (fun _ q => q = true) es → (∀ e ∈ es, e ∈ all) →
    depthNeededEntries (quotedIn all) es = plainLevelsEntries (ETree.jsonEntries es)
  | [], _, _ => by simp [depthNeededEntries, ETree.jsonEntries, plainLevelsEntries]
  | (k, q, t) :: es, h, hm => by
    rw [ETree.AllKeysEntries] at h
    obtain ⟨rfl, h1, h2⟩ := h
    have hq : quotedIn all k = true := by
      simp only [quotedIn, List.any_eq_true, Bool.and_eq_true, beq_iff_eq]
      exact ⟨(k, true, t), hm _ (by simp), rfl, rfl⟩
    simp only [depthNeededEntries, ETree.jsonEntries, plainLevelsEntries, depthNeeded_quoted h1,
      depthNeededEntries_quoted h2 (fun e he => hm e (by simp [he])), hq]
    have := depthNeeded_pos t
    rw [depthNeeded_quoted h1] at this
    rw [keyPath_single (Or.inl rfl)]
    simp
    omega
end

/-! ## Array lengths -/

theorem declarableEntries_iff {strict : Bool} : ∀ {es : List (Str × Json F)}, DeclarableEntries strict es ↔
    ∀ e ∈ es, Declarable strict e.2
  | [] => by simp [DeclarableEntries]
  | (k, v) :: es => by simp [DeclarableEntries, declarableEntries_iff (es := es)]

mutual
theorem deepMerge_declarable {strict : Bool} (a b : Json F) (ha : Declarable strict a) (hb : Declarable strict b) :
    Declarable strict (deepMerge a b) := by
  match b with
  | .prim p => simp only [deepMerge]; exact hb
  | .arr items => simp only [deepMerge]; exact hb
  | .obj b =>
    match a with
    | .prim p => simp only [deepMerge]; exact hb
    | .arr items => simp only [deepMerge]; exact hb
    | .obj a =>
      simp only [deepMerge, Declarable] at ha hb ⊢
      exact mergeObj_declarable a b ha hb
theorem mergeObj_declarable {strict : Bool} (a b : List (Str × Json F)) (ha : DeclarableEntries strict a)
    (hb : DeclarableEntries strict b) : DeclarableEntries strict (mergeObj a b) := by
  match b with
  | [] => rw [mergeObj]; exact ha
  | (k, v) :: b =>
    simp only [DeclarableEntries] at hb
    rw [mergeObj_cons]
    refine mergeObj_declarable _ b ?_ hb.2
    rw [declarableEntries_iff] at ha ⊢
    intro e he
    unfold putMerge at he
    cases hl : lookupKey k a with
    | none =>
      simp only [hl, List.mem_append, List.mem_singleton] at he
      rcases he with he | rfl
      · exact ha e he
      · exact hb.1
    | some c =>
      simp only [hl] at he
      rcases replaceKey_mem he with he | rfl
      · exact ha e he
      · exact deepMerge_declarable c v (ha _ (lookup_mem hl)) hb.1
end

theorem nested_declarable {strict : Bool} : ∀ (segs : List Str) {v : Json F}, Declarable strict v → Declarable strict (nested segs v)
  | [], _, h => h
  | s :: ss, _, h => by simp only [nested, Declarable, DeclarableEntries, and_true]; exact nested_declarable ss h

theorem atPath_declarable {strict : Bool} : ∀ (segs : List Str) {v : Json F}, Declarable strict v →
    DeclarableEntries strict (atPath segs v)
  | [], _, _ => by rw [atPath, DeclarableEntries]; trivial
  | s :: ss, _, h => by simp only [atPath, DeclarableEntries, and_true]; exact nested_declarable ss h

theorem expandedItems_length : ∀ ts : List (ETree F), (expandedItems ts).length = ts.length
  | [] => by simp [expandedItems]
  | t :: ts => by simp [expandedItems, expandedItems_length ts]

theorem expandedItems_prims : ∀ {ts : List (ETree F)}, (∀ v ∈ ETree.jsonItems ts, ∃ p, v = .prim p) →
    ∀ v ∈ expandedItems ts, ∃ p, v = .prim p
  | [], _, v, hv => by simp [expandedItems] at hv
  | t :: ts, h, v, hv => by
    simp only [ETree.jsonItems, List.mem_cons, forall_eq_or_imp] at h
    simp only [expandedItems, List.mem_cons] at hv
    rcases hv with rfl | hv
    · obtain ⟨p, hp⟩ := h.1
      cases t with
      | prim q => exact ⟨q, by simp [expanded]⟩
      | arr n items => simp [ETree.json] at hp
      | obj es => simp [ETree.json] at hp
    · exact expandedItems_prims h.2 v hv

mutual
theorem expanded_declarable {strict : Bool} (t : ETree F) (h : Declarable strict t.json) : Declarable strict (expanded t) := by
  match t with
  | .prim p => simp [expanded, Declarable]
  | .arr n items =>
    simp only [expanded, ETree.json, Declarable] at h ⊢
    refine ⟨?_, expandedItems_declarable items h.2⟩
    rcases h.1 with h1 | ⟨h1, h2⟩
    · left; rw [expandedItems_length]; rwa [jsonItems_count] at h1
    · exact Or.inr ⟨h1, expandedItems_prims h2⟩
  | .obj es =>
    simp only [expanded, ETree.json, Declarable] at h ⊢
    exact expandedEntries_declarable _ es [] h (by simp [DeclarableEntries])
theorem expandedItems_declarable {strict : Bool} (ts : List (ETree F)) (h : DeclarableItems strict (ETree.jsonItems ts)) :
    DeclarableItems strict (expandedItems ts) := by
  match ts with
  | [] => simp [expandedItems, DeclarableItems]
  | t :: ts =>
    simp only [expandedItems, ETree.jsonItems, DeclarableItems] at h ⊢
    exact ⟨expanded_declarable t h.1, expandedItems_declarable ts h.2⟩
theorem expandedEntries_declarable {strict : Bool} (quoted : Str → Bool) (es : List (Str × Bool × ETree F)) (acc : List (Str × Json F))
    (h : DeclarableEntries strict (ETree.jsonEntries es)) (ha : DeclarableEntries strict acc) :
    DeclarableEntries strict (expandedEntries quoted es acc) := by
  match es with
  | [] => rw [expandedEntries]; exact ha
  | (k, q, t) :: es =>
    simp only [ETree.jsonEntries, DeclarableEntries] at h
    rw [expandedEntries]
    exact expandedEntries_declarable quoted es _ h.2 (mergeObj_declarable _ _ ha (atPath_declarable _ (expanded_declarable t h.1)))
end

end

end Toon
