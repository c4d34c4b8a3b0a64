import Verif.Lemmas.ConvFrames
import Verif.Lemmas.Copies

/-! The replacer with a bounded stack does what the model of the replacer does. -/

namespace Toon

variable {S F : Type} [F64 F] (prices : Prices) (r : Replacer S F)

/-! ## The result, if there is one -/

theorem visitNormalize_cases (visit stack : Nat) (v : Json F) :
    (visitNormalize visit stack v).result = .error .overflow ∨ (visitNormalize visit stack v).result = .ok (normalize v) := by
  have h := visitNormalize_within visit stack v
  by_cases hf : wayDown 1 v ≤ stack
  · exact Or.inr (h.1 hf).2
  · exact Or.inl (h.2 hf)

/-- One pass of the loops: what becomes of the reply. -/
def runReply {α : Type} (stack : Nat) (path : List PathSeg) (reply : Option (Json F) × S) (skip : α) (keep : Json F → α) : Run (α × S) :=
  match reply with
  | (some nextValue, s) => do
    let normalized ← visitNormalize prices.visit stack nextValue
    let transformed ← runChildren prices r stack path normalized s
    pure (keep transformed.1, transformed.2)
  | (none, s) => pure (skip, s)

theorem runTransformObject_succ (stack : Nat) (path : List PathSeg) (es : List (Str × Json F)) (s : S) :
    runTransformObject prices r (stack + 1) path es s =
      overEach (fun (e : Str × Json F) (acc : List (Str × Json F) × S) => do
        tick (prices.segment * (path ++ [PathSeg.key e.1]).length)
        tick prices.call
        runReply prices r stack (path ++ [PathSeg.key e.1]) (r e.1 e.2 (path ++ [PathSeg.key e.1]) acc.2) acc.1
          (fun w => acc.1 ++ [(e.1, w)])) es ([], s) := by
  rw [runTransformObject]
  refine overEach_congr ?_ _ _
  intro e acc
  simp only [runReply]
  rcases r e.1 e.2 (path ++ [PathSeg.key e.1]) acc.2 with ⟨_ | w, s1⟩ <;> rfl

theorem runTransformArray_succ (stack : Nat) (path : List PathSeg) (vs : List (Json F)) (s : S) :
    runTransformArray prices r (stack + 1) path vs s =
      overEach (fun (e : Json F × Nat) (acc : List (Json F) × S) => do
        tick (prices.segment * (path ++ [PathSeg.index e.2]).length)
        tick prices.call
        runReply prices r stack (path ++ [PathSeg.index e.2]) (r (indexKey e.2) e.1 (path ++ [PathSeg.index e.2]) acc.2) acc.1
          (fun w => acc.1 ++ [w])) vs.zipIdx ([], s) := by
  rw [runTransformArray]
  refine overEach_congr ?_ _ _
  intro e acc
  simp only [runReply]
  rcases r (indexKey e.2) e.1 (path ++ [PathSeg.index e.2]) acc.2 with ⟨_ | w, s1⟩ <;> rfl

/-- The loop over the entries ends as the model does, if what is done below does. -/
theorem objectLoop_same {stack fuel : Nat} (ih : ∀ p v s x, (runChildren prices r stack p v s).result = .ok x →
      transformChildren r fuel p v s = some x) (path : List PathSeg) : ∀ (es : List (Str × Json F)) (acc : List (Str × Json F)) (s : S) x,
    (overEach (fun (e : Str × Json F) (acc : List (Str × Json F) × S) => do
        tick (prices.segment * (path ++ [PathSeg.key e.1]).length)
        tick prices.call
        runReply prices r stack (path ++ [PathSeg.key e.1]) (r e.1 e.2 (path ++ [PathSeg.key e.1]) acc.2) acc.1
          (fun w => acc.1 ++ [(e.1, w)])) es (acc, s)).result = .ok x →
      ∃ out, x.1 = acc ++ out ∧ transformObject (transformChildren r fuel) r path es s = some (out, x.2)
  | [], acc, s, x, h => by
    rw [overEach] at h
    cases h
    exact ⟨[], by simp, rfl⟩
  | (k, v) :: es, acc, s, x, h => by
    rw [overEach, Run.result_bind] at h
    simp only [Run.result_bind, Run.result_tick, runReply] at h
    rw [transformObject]
    rcases hr : r k v (path ++ [PathSeg.key k]) s with ⟨_ | w, s1⟩ <;> simp only [hr] at h ⊢
    · exact objectLoop_same ih path es acc s1 x h
    · rcases visitNormalize_cases prices.visit stack w with hn | hn
      · simp only [Run.result_bind, hn] at h; cases h
      · simp only [Run.result_bind, hn] at h
        cases hc : (runChildren prices r stack (path ++ [PathSeg.key k]) (normalize w) s1).result with
        | error e => simp only [hc] at h; cases h
        | ok t =>
          simp only [hc] at h
          obtain ⟨out, h1, h2⟩ := objectLoop_same ih path es (acc ++ [(k, t.1)]) t.2 x h
          simp only [ih _ _ _ _ hc, h2]
          exact ⟨(k, t.1) :: out, by rw [h1]; simp, rfl⟩

theorem arrayLoop_same {stack fuel : Nat} (ih : ∀ p v s x, (runChildren prices r stack p v s).result = .ok x →
      transformChildren r fuel p v s = some x) (path : List PathSeg) : ∀ (vs : List (Json F)) (i : Nat) (acc : List (Json F)) (s : S) x,
    (overEach (fun (e : Json F × Nat) (acc : List (Json F) × S) => do
        tick (prices.segment * (path ++ [PathSeg.index e.2]).length)
        tick prices.call
        runReply prices r stack (path ++ [PathSeg.index e.2]) (r (indexKey e.2) e.1 (path ++ [PathSeg.index e.2]) acc.2) acc.1
          (fun w => acc.1 ++ [w])) (vs.zipIdx i) (acc, s)).result = .ok x →
      ∃ out, x.1 = acc ++ out ∧ transformArray (transformChildren r fuel) r path i vs s = some (out, x.2)
  | [], i, acc, s, x, h => by
    rw [List.zipIdx_nil, overEach] at h
    cases h
    exact ⟨[], by simp, rfl⟩
  | v :: vs, i, acc, s, x, h => by
    rw [List.zipIdx_cons, overEach, Run.result_bind] at h
    simp only [Run.result_bind, Run.result_tick, runReply] at h
    rw [transformArray]
    rcases hr : r (indexKey i) v (path ++ [PathSeg.index i]) s with ⟨_ | w, s1⟩ <;> simp only [hr] at h ⊢
    · exact arrayLoop_same ih path vs (i + 1) acc s1 x h
    · rcases visitNormalize_cases prices.visit stack w with hn | hn
      · simp only [Run.result_bind, hn] at h; cases h
      · simp only [Run.result_bind, hn] at h
        cases hc : (runChildren prices r stack (path ++ [PathSeg.index i]) (normalize w) s1).result with
        | error e => simp only [hc] at h; cases h
        | ok t =>
          simp only [hc] at h
          obtain ⟨out, h1, h2⟩ := arrayLoop_same ih path vs (i + 1) (acc ++ [t.1]) t.2 x h
          simp only [ih _ _ _ _ hc, h2]
          exact ⟨t.1 :: out, by rw [h1]; simp, rfl⟩

/-- What is done with a stack of `stack` calls is done by the model with as much fuel. -/
theorem runChildren_same : ∀ (stack : Nat) (p : List PathSeg) (v : Json F) (s : S) x,
    (runChildren prices r stack p v s).result = .ok x → transformChildren r stack p v s = some x
  | 0, _, _, _, _, h => by simp [runChildren] at h
  | n + 1, p, .prim q, s, x, h => by
    rw [runChildren] at h
    cases h
    rfl
  | 1, p, .obj es, s, x, h => by simp [runChildren, runTransformObject] at h
  | 1, p, .arr vs, s, x, h => by simp [runChildren, runTransformArray] at h
  | n + 2, p, .obj es, s, x, h => by
    rw [runChildren, Run.result_bind, runTransformObject_succ] at h
    split at h
    · rename_i t ht
      cases h
      obtain ⟨out, h1, h2⟩ := objectLoop_same prices r (fuel := n + 1)
        (fun p v s x hx => transformChildren_succ r n p v s x (runChildren_same n p v s x hx)) p es [] s t ht
      rw [transformChildren, h2, h1]
      rfl
    · cases h
  | n + 2, p, .arr vs, s, x, h => by
    rw [runChildren, Run.result_bind, runTransformArray_succ] at h
    split at h
    · rename_i t ht
      cases h
      obtain ⟨out, h1, h2⟩ := arrayLoop_same prices r (fuel := n + 1)
        (fun p v s x hx => transformChildren_succ r n p v s x (runChildren_same n p v s x hx)) p vs 0 [] s t ht
      rw [transformChildren, h2, h1]
      rfl
    · cases h

theorem runReplacer_same (stack : Nat) (root : Json F) (s : S) (x : Json F × S)
    (h : (runReplacer prices r stack root s).result = .ok x) : applyReplacer r stack root s = some x := by
  match stack with
  | 0 => cases h
  | n + 1 =>
    rw [runReplacer] at h
    rw [applyReplacer]
    simp only [Run.result_bind, Run.result_tick] at h
    rcases hr : r [] root [] s with ⟨_ | w, s1⟩ <;> simp only [hr, Run.result_bind, Run.result_tick] at h ⊢
    · exact transformChildren_succ r _ _ _ _ _ (runChildren_same prices r _ _ _ _ _ h)
    · rcases visitNormalize_cases prices.visit n w with hn | hn
      · simp only [hn] at h; cases h
      · simp only [hn] at h
        exact transformChildren_succ r _ _ _ _ _ (runChildren_same prices r _ _ _ _ _ h)

/-! ## Nothing but an overflow can go wrong -/

theorem visitNormalize_sound (visit stack : Nat) (v : Json F) : (visitNormalize visit stack v).Sound := by
  rcases visitNormalize_cases visit stack v with h | h
  · exact Or.inl h
  · exact Or.inr ⟨_, h⟩

theorem Run.sound_tick (n : Nat) : (tick n).Sound := Or.inr ⟨(), rfl⟩

theorem runReply_sound {α : Type} {stack : Nat} (ih : ∀ p v s, (runChildren prices r stack p v s).Sound) (path : List PathSeg)
    (reply : Option (Json F) × S) (skip : α) (keep : Json F → α) : (runReply prices r stack path reply skip keep).Sound := by
  rcases reply with ⟨_ | w, s1⟩
  · exact Run.sound_pure _
  · exact (visitNormalize_sound _ _ _).bind fun v => (ih _ _ _).bind fun t => Run.sound_pure _

theorem runChildren_sound : ∀ (stack : Nat) (p : List PathSeg) (v : Json F) (s : S), (runChildren prices r stack p v s).Sound
  | 0, _, _, _ => by rw [runChildren]; exact Or.inl rfl
  | n + 1, p, .prim q, s => by rw [runChildren]; exact Run.sound_pure _
  | 1, p, .obj es, s => Or.inl (by simp [runChildren, runTransformObject])
  | 1, p, .arr vs, s => Or.inl (by simp [runChildren, runTransformArray])
  | n + 2, p, .obj es, s => by
    rw [runChildren, runTransformObject_succ]
    exact (Run.Sound.overEach (fun e acc => (Run.sound_tick _).bind fun _ => (Run.sound_tick _).bind fun _ =>
      runReply_sound prices r (runChildren_sound n) _ _ _ _) _ _).bind fun _ => Run.sound_pure _
  | n + 2, p, .arr vs, s => by
    rw [runChildren, runTransformArray_succ]
    exact (Run.Sound.overEach (fun e acc => (Run.sound_tick _).bind fun _ => (Run.sound_tick _).bind fun _ =>
      runReply_sound prices r (runChildren_sound n) _ _ _ _) _ _).bind fun _ => Run.sound_pure _

theorem runReplacer_sound (stack : Nat) (root : Json F) (s : S) : (runReplacer prices r stack root s).Sound := by
  match stack with
  | 0 => exact Or.inl rfl
  | n + 1 =>
    rw [runReplacer]
    refine (Run.sound_tick _).bind fun _ => ?_
    rcases r [] root [] s with ⟨_ | w, s1⟩
    · exact (Run.sound_tick _).bind fun _ => runChildren_sound prices r _ _ _ _
    · exact (visitNormalize_sound _ _ _).bind fun _ => runChildren_sound prices r _ _ _ _

end Toon
