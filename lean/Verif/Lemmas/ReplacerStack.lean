import Verif.Lemmas.ReplacerFrames
import Verif.Lemmas.EncFrames

/-! How much stack the replacer needs. -/

namespace Toon

variable {S F : Type} [F64 F] (prices : Prices) (r : Replacer S F)

/-! ## What the model does is done in a stack that is large enough -/

theorem visitNormalize_ok {visit stack : Nat} {v : Json F} (h : wayDown 1 v ≤ stack) :
    (visitNormalize visit stack v).result = .ok (normalize v) := ((visitNormalize_within visit stack v).1 h).2

theorem objectLoop_enough {fuel : Nat} (ih : ∀ p v s x, transformChildren r fuel p v s = some x →
      ∃ n, ∀ stack, n ≤ stack → (runChildren prices r stack p v s).result = .ok x) (path : List PathSeg) :
    ∀ (es : List (Str × Json F)) (s : S) out s', transformObject (transformChildren r fuel) r path es s = some (out, s') →
      ∃ n, ∀ stack, n ≤ stack → ∀ acc,
        (overEach (fun (e : Str × Json F) (acc : List (Str × Json F) × S) => do
          tick (prices.segment * (path ++ [PathSeg.key e.1]).length)
          tick prices.call
          runReply prices r stack (path ++ [PathSeg.key e.1]) (r e.1 e.2 (path ++ [PathSeg.key e.1]) acc.2) acc.1
            (fun w => acc.1 ++ [(e.1, w)])) es (acc, s)).result = .ok (acc ++ out, s')
  | [], s, out, s', h => by
    rw [transformObject] at h
    cases h
    exact ⟨0, fun _ _ acc => by rw [overEach, List.append_nil]; rfl⟩
  | (k, v) :: es, s, out, s', h => by
    rw [transformObject] at h
    rcases hr : r k v (path ++ [PathSeg.key k]) s with ⟨_ | w, s1⟩ <;> simp only [hr] at h
    · obtain ⟨n, hn⟩ := objectLoop_enough ih path es s1 out s' h
      refine ⟨n, fun stack hs acc => ?_⟩
      rw [overEach, Run.result_bind]
      simp only [Run.result_bind, Run.result_tick, runReply, hr, Run.result_pure]
      exact hn stack hs acc
    · split at h
      · cases h
      · rename_i t s2 hc
        split at h
        · cases h
        · rename_i out' s3 ho
          cases h
          obtain ⟨n, hn⟩ := objectLoop_enough ih path es s2 out' s' ho
          obtain ⟨m, hm⟩ := ih _ _ _ _ hc
          refine ⟨max (max n m) (wayDown 1 w), fun stack hs acc => ?_⟩
          rw [overEach, Run.result_bind]
          simp only [Run.result_bind, Run.result_tick, runReply, hr, visitNormalize_ok (show wayDown 1 w ≤ stack by omega),
            hm stack (by omega), Run.result_pure]
          exact (hn stack (by omega) (acc ++ [(k, t)])).trans (by simp)

theorem arrayLoop_enough {fuel : Nat} (ih : ∀ p v s x, transformChildren r fuel p v s = some x →
      ∃ n, ∀ stack, n ≤ stack → (runChildren prices r stack p v s).result = .ok x) (path : List PathSeg) :
    ∀ (vs : List (Json F)) (i : Nat) (s : S) out s', transformArray (transformChildren r fuel) r path i vs s = some (out, s') →
      ∃ n, ∀ stack, n ≤ stack → ∀ acc,
        (overEach (fun (e : Json F × Nat) (acc : List (Json F) × S) => do
          tick (prices.segment * (path ++ [PathSeg.index e.2]).length)
          tick prices.call
          runReply prices r stack (path ++ [PathSeg.index e.2]) (r (indexKey e.2) e.1 (path ++ [PathSeg.index e.2]) acc.2) acc.1
            (fun w => acc.1 ++ [w])) (vs.zipIdx i) (acc, s)).result = .ok (acc ++ out, s')
  | [], i, s, out, s', h => by
    rw [transformArray] at h
    cases h
    exact ⟨0, fun _ _ acc => by rw [List.zipIdx_nil, overEach, List.append_nil]; rfl⟩
  | v :: vs, i, s, out, s', h => by
    rw [transformArray] at h
    rcases hr : r (indexKey i) v (path ++ [PathSeg.index i]) s with ⟨_ | w, s1⟩ <;> simp only [hr] at h
    · obtain ⟨n, hn⟩ := arrayLoop_enough ih path vs (i + 1) s1 out s' h
      refine ⟨n, fun stack hs acc => ?_⟩
      rw [List.zipIdx_cons, overEach, Run.result_bind]
      simp only [Run.result_bind, Run.result_tick, runReply, hr, Run.result_pure]
      exact hn stack hs acc
    · split at h
      · cases h
      · rename_i t s2 hc
        split at h
        · cases h
        · rename_i out' s3 ho
          cases h
          obtain ⟨n, hn⟩ := arrayLoop_enough ih path vs (i + 1) s2 out' s' ho
          obtain ⟨m, hm⟩ := ih _ _ _ _ hc
          refine ⟨max (max n m) (wayDown 1 w), fun stack hs acc => ?_⟩
          rw [List.zipIdx_cons, overEach, Run.result_bind]
          simp only [Run.result_bind, Run.result_tick, runReply, hr, visitNormalize_ok (show wayDown 1 w ≤ stack by omega),
            hm stack (by omega), Run.result_pure]
          exact (hn stack (by omega) (acc ++ [t])).trans (by simp)

theorem runChildren_enough : ∀ (fuel : Nat) (p : List PathSeg) (v : Json F) (s : S) x, transformChildren r fuel p v s = some x →
    ∃ n, ∀ stack, n ≤ stack → (runChildren prices r stack p v s).result = .ok x
  | 0, _, _, _, _, h => by simp [transformChildren] at h
  | fuel + 1, p, .prim q, s, x, h => by
    rw [transformChildren] at h
    cases h
    refine ⟨1, fun stack hs => ?_⟩
    match stack with
    | n + 1 => rw [runChildren]; rfl
  | fuel + 1, p, .obj es, s, x, h => by
    rw [transformChildren] at h
    split at h
    · cases h
    · rename_i out s' ho
      cases h
      obtain ⟨n, hn⟩ := objectLoop_enough prices r (runChildren_enough fuel) p es s out s' ho
      refine ⟨n + 2, fun stack hs => ?_⟩
      match stack, hs with
      | m + 2, hs =>
        rw [runChildren, Run.result_bind, runTransformObject_succ, hn m (by omega) []]
        rfl
  | fuel + 1, p, .arr vs, s, x, h => by
    rw [transformChildren] at h
    split at h
    · cases h
    · rename_i out s' ho
      cases h
      obtain ⟨n, hn⟩ := arrayLoop_enough prices r (runChildren_enough fuel) p vs 0 s out s' ho
      refine ⟨n + 2, fun stack hs => ?_⟩
      match stack, hs with
      | m + 2, hs =>
        rw [runChildren, Run.result_bind, runTransformArray_succ, hn m (by omega) []]
        rfl

theorem runReplacer_enough (fuel : Nat) (root : Json F) (s : S) (x : Json F × S) (h : applyReplacer r fuel root s = some x) :
    ∃ n, ∀ stack, n ≤ stack → (runReplacer prices r stack root s).result = .ok x := by
  rw [applyReplacer] at h
  rcases hr : r [] root [] s with ⟨_ | w, s1⟩ <;> simp only [hr] at h
  · obtain ⟨n, hn⟩ := runChildren_enough prices r _ _ _ _ _ h
    refine ⟨n + 1, fun stack hs => ?_⟩
    match stack, hs with
    | m + 1, hs =>
      rw [runReplacer]
      simp only [Run.result_bind, Run.result_tick, hr]
      exact hn m (by omega)
  · obtain ⟨n, hn⟩ := runChildren_enough prices r _ _ _ _ _ h
    refine ⟨max n (wayDown 1 w) + 1, fun stack hs => ?_⟩
    match stack, hs with
    | m + 1, hs =>
      rw [runReplacer]
      simp only [Run.result_bind, Run.result_tick, hr, visitNormalize_ok (show wayDown 1 w ≤ m by omega)]
      exact hn m (by omega)

/-! ## Replies that are not nested deeper -/

section
omit [F64 F]

mutual
theorem wayDown_le_height (per : Nat) (hp : 0 < per) : (v : Json F) → wayDown per v ≤ per * height v + 1
  | .prim _ => by rw [wayDown]; omega
  | .arr vs => by
    have := wayDownItems_le_height per hp vs
    rw [wayDown, height, Nat.mul_add]; omega
  | .obj es => by
    have := wayDownEntries_le_height per hp es
    rw [wayDown, height, Nat.mul_add]; omega
theorem wayDownItems_le_height (per : Nat) (hp : 0 < per) : (vs : List (Json F)) → wayDownItems per vs ≤ per * heightItems vs + 1
  | [] => by rw [wayDownItems]; omega
  | v :: vs => by
    have h1 := wayDown_le_height per hp v
    have h2 := wayDownItems_le_height per hp vs
    have h3 : per * height v ≤ per * heightItems (v :: vs) := Nat.mul_le_mul_left _ (by rw [heightItems]; omega)
    have h4 : per * heightItems vs ≤ per * heightItems (v :: vs) := Nat.mul_le_mul_left _ (by rw [heightItems]; omega)
    rw [wayDownItems]; omega
theorem wayDownEntries_le_height (per : Nat) (hp : 0 < per) : (es : List (Str × Json F)) →
    wayDownEntries per es ≤ per * heightEntries es + 1
  | [] => by rw [wayDownEntries]; omega
  | (k, v) :: es => by
    have h1 := wayDown_le_height per hp v
    have h2 := wayDownEntries_le_height per hp es
    have h3 : per * height v ≤ per * heightEntries ((k, v) :: es) := Nat.mul_le_mul_left _ (by rw [heightEntries]; omega)
    have h4 : per * heightEntries es ≤ per * heightEntries ((k, v) :: es) := Nat.mul_le_mul_left _ (by rw [heightEntries]; omega)
    rw [wayDownEntries]; omega
end

mutual
theorem height_le_wayDown (per : Nat) : (v : Json F) → per * height v ≤ wayDown per v
  | .prim _ => by rw [wayDown, height]; omega
  | .arr vs => by
    have := heightItems_le_wayDown per vs
    rw [wayDown, height, Nat.mul_add]; omega
  | .obj es => by
    have := heightEntries_le_wayDown per es
    rw [wayDown, height, Nat.mul_add]; omega
theorem heightItems_le_wayDown (per : Nat) : (vs : List (Json F)) → per * heightItems vs ≤ wayDownItems per vs
  | [] => by rw [wayDownItems, heightItems]; omega
  | v :: vs => by
    have h1 := height_le_wayDown per v
    have h2 := heightItems_le_wayDown per vs
    rw [wayDownItems, heightItems, ← Nat.mul_max_mul_left]; omega
theorem heightEntries_le_wayDown (per : Nat) : (es : List (Str × Json F)) → per * heightEntries es ≤ wayDownEntries per es
  | [] => by rw [wayDownEntries, heightEntries]; omega
  | (k, v) :: es => by
    have h1 := height_le_wayDown per v
    have h2 := heightEntries_le_wayDown per es
    rw [wayDownEntries, heightEntries, ← Nat.mul_max_mul_left]; omega
end

theorem heightItems_push (vs : List (Json F)) (v : Json F) : heightItems (vs ++ [v]) = max (heightItems vs) (height v) := by
  induction vs with
  | nil => simp [heightItems]
  | cons w vs ih => rw [List.cons_append, heightItems, heightItems, ih]; omega

theorem heightEntries_push (es : List (Str × Json F)) (k : Str) (v : Json F) :
    heightEntries (es ++ [(k, v)]) = max (heightEntries es) (height v) := by
  induction es with
  | nil => simp [heightEntries]
  | cons w es ih => rw [List.cons_append, heightEntries, heightEntries, ih]; omega

end

/-- A loop that keeps an invariant and never stops has a result that meets it. -/
theorem overEach_inv {α β : Type} {f : α → β → Run β} (P : β → Prop) : ∀ {xs : List α},
    (∀ x ∈ xs, ∀ out, P out → ∃ out', (f x out).result = .ok out' ∧ P out') → ∀ out, P out →
      ∃ out', (overEach f xs out).result = .ok out' ∧ P out'
  | [], _, out, hp => ⟨out, rfl, hp⟩
  | x :: xs, h, out, hp => by
    obtain ⟨o, h1, h2⟩ := h x (by simp) out hp
    obtain ⟨o', h3, h4⟩ := overEach_inv P (xs := xs) (fun y hy => h y (by simp [hy])) o h2
    exact ⟨o', by rw [overEach, Run.result_bind, h1]; exact h3, h4⟩

theorem runChildren_shallow (hr : ∀ k v p s w s', r k v p s = (some w, s') → height w ≤ height v) :
    ∀ (stack : Nat) (p : List PathSeg) (v : Json F) (s : S), 2 * height v + 1 ≤ stack →
      ∃ x, (runChildren prices r stack p v s).result = .ok x ∧ height x.1 ≤ height v
  | 0, _, v, _, h => by omega
  | n + 1, p, .prim q, s, h => by
    rw [runChildren]
    exact ⟨_, rfl, Nat.le_refl _⟩
  | 1, p, .obj es, s, h => by rw [height] at h; omega
  | 1, p, .arr vs, s, h => by rw [height] at h; omega
  | n + 2, p, .obj es, s, h => by
    rw [height] at h
    rw [runChildren, runTransformObject_succ, Run.result_bind]
    obtain ⟨x, h1, h2⟩ := overEach_inv (fun (acc : List (Str × Json F) × S) => heightEntries acc.1 ≤ heightEntries es)
      (f := fun (e : Str × Json F) (acc : List (Str × Json F) × S) => do
        tick (prices.segment * (p ++ [PathSeg.key e.1]).length)
        tick prices.call
        runReply prices r n (p ++ [PathSeg.key e.1]) (r e.1 e.2 (p ++ [PathSeg.key e.1]) acc.2) acc.1
          (fun w => acc.1 ++ [(e.1, w)])) (xs := es) (by
        intro e he acc hacc
        simp only [Run.result_bind, Run.result_tick, runReply]
        rcases hq : r e.1 e.2 (p ++ [PathSeg.key e.1]) acc.2 with ⟨_ | w, s1⟩ <;> simp only
        · exact ⟨_, rfl, hacc⟩
        · have hw := hr _ _ _ _ _ _ hq
          have he := printHeightEntries_mem he
          have hd := wayDown_le_height 1 (by omega) w
          obtain ⟨x, h1, h2⟩ := runChildren_shallow hr n (p ++ [PathSeg.key e.1]) (normalize w) s1 (by rw [height_normalize]; omega)
          rw [height_normalize] at h2
          simp only [Run.result_bind, visitNormalize_ok (show wayDown 1 w ≤ n by omega), h1]
          refine ⟨_, rfl, ?_⟩
          simp only [heightEntries_push]
          omega) ([], s) (by simp [heightEntries])
    rw [h1]
    refine ⟨_, rfl, ?_⟩
    simp only [height]
    omega
  | n + 2, p, .arr vs, s, h => by
    rw [height] at h
    rw [runChildren, runTransformArray_succ, Run.result_bind]
    obtain ⟨x, h1, h2⟩ := overEach_inv (fun (acc : List (Json F) × S) => heightItems acc.1 ≤ heightItems vs)
      (f := fun (e : Json F × Nat) (acc : List (Json F) × S) => do
        tick (prices.segment * (p ++ [PathSeg.index e.2]).length)
        tick prices.call
        runReply prices r n (p ++ [PathSeg.index e.2]) (r (indexKey e.2) e.1 (p ++ [PathSeg.index e.2]) acc.2) acc.1
          (fun w => acc.1 ++ [w])) (xs := vs.zipIdx) (by
        intro e he acc hacc
        simp only [Run.result_bind, Run.result_tick, runReply]
        rcases hq : r (indexKey e.2) e.1 (p ++ [PathSeg.index e.2]) acc.2 with ⟨_ | w, s1⟩ <;> simp only
        · exact ⟨_, rfl, hacc⟩
        · have hw := hr _ _ _ _ _ _ hq
          have he := printHeightItems_mem (List.fst_mem_of_mem_zipIdx he)
          have hd := wayDown_le_height 1 (by omega) w
          obtain ⟨x, h1, h2⟩ := runChildren_shallow hr n (p ++ [PathSeg.index e.2]) (normalize w) s1 (by rw [height_normalize]; omega)
          rw [height_normalize] at h2
          simp only [Run.result_bind, visitNormalize_ok (show wayDown 1 w ≤ n by omega), h1]
          refine ⟨_, rfl, ?_⟩
          simp only [heightItems_push]
          omega) ([], s) (by simp [heightItems])
    rw [h1]
    refine ⟨_, rfl, ?_⟩
    simp only [height]
    omega

theorem runReplacer_shallow (hr : ∀ k v p s w s', r k v p s = (some w, s') → height w ≤ height v) (stack : Nat) (root : Json F) (s : S)
    (h : 2 * height root + 2 ≤ stack) : ∃ x, (runReplacer prices r stack root s).result = .ok x ∧ height x.1 ≤ height root := by
  match stack, h with
  | n + 1, h =>
    rw [runReplacer]
    simp only [Run.result_bind, Run.result_tick]
    rcases hq : r [] root [] s with ⟨_ | w, s1⟩ <;> simp only [Run.result_bind, Run.result_tick]
    · exact runChildren_shallow prices r hr n [] root s1 (by omega)
    · have hw := hr _ _ _ _ _ _ hq
      have hd := wayDown_le_height 1 (by omega) w
      rw [visitNormalize_ok (show wayDown 1 w ≤ n by omega)]
      obtain ⟨x, h1, h2⟩ := runChildren_shallow prices r hr n [] (normalize w) s1 (by rw [height_normalize]; omega)
      rw [height_normalize] at h2
      exact ⟨x, h1, by omega⟩

end Toon
