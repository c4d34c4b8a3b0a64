import Verif.Lemmas.ReplacerStack

/-! What a replacer costs. -/

namespace Toon

section
variable {F : Type}

theorem placesItems_sum (d : Nat) (vs : List (Json F)) : (placesItems d vs).sum = (vs.map fun v => (placesOf d v).sum).sum := by
  induction vs with
  | nil => rfl
  | cons v vs ih => rw [placesItems, List.sum_append, ih]; rfl

theorem placesEntries_sum (d : Nat) (es : List (Str × Json F)) :
    (placesEntries d es).sum = (es.map fun e => (placesOf d e.2).sum).sum := by
  induction es with
  | nil => rfl
  | cons e es ih => rw [placesEntries, List.sum_append, ih]; rfl

mutual
theorem placesOf_shift (d : Nat) : (v : Json F) → placesOf (d + 1) v = (placesOf d v).map (· + 1)
  | .prim _ => rfl
  | .arr vs => by rw [placesOf, placesOf, placesItems_shift (d + 1) vs]; rfl
  | .obj es => by rw [placesOf, placesOf, placesEntries_shift (d + 1) es]; rfl
theorem placesItems_shift (d : Nat) : (vs : List (Json F)) → placesItems (d + 1) vs = (placesItems d vs).map (· + 1)
  | [] => rfl
  | v :: vs => by rw [placesItems, placesItems, placesOf_shift d v, placesItems_shift d vs, List.map_append]
theorem placesEntries_shift (d : Nat) : (es : List (Str × Json F)) → placesEntries (d + 1) es = (placesEntries d es).map (· + 1)
  | [] => rfl
  | (k, v) :: es => by rw [placesEntries, placesEntries, placesOf_shift d v, placesEntries_shift d es, List.map_append]
end

mutual
theorem placesOf_length (d : Nat) : (v : Json F) → (placesOf d v).length = nodes v
  | .prim _ => rfl
  | .arr vs => by rw [placesOf, nodes, List.length_cons, placesItems_length (d + 1) vs, Nat.add_comm]
  | .obj es => by rw [placesOf, nodes, List.length_cons, placesEntries_length (d + 1) es, Nat.add_comm]
theorem placesItems_length (d : Nat) : (vs : List (Json F)) → (placesItems d vs).length = nodesItems vs
  | [] => rfl
  | v :: vs => by rw [placesItems, nodesItems, List.length_append, placesOf_length d v, placesItems_length d vs]
theorem placesEntries_length (d : Nat) : (es : List (Str × Json F)) → (placesEntries d es).length = nodesEntries es
  | [] => rfl
  | (k, v) :: es => by rw [placesEntries, nodesEntries, List.length_append, placesOf_length d v, placesEntries_length d es]
end

theorem sum_succ (xs : List Nat) : (xs.map (· + 1)).sum = xs.sum + xs.length := by
  induction xs with
  | nil => rfl
  | cons x xs ih => simp only [List.map_cons, List.sum_cons, List.length_cons, ih]; omega

theorem placesOf_one (v : Json F) : (placesOf 1 v).sum = nodes v + (placesOf 0 v).sum := by
  rw [placesOf_shift 0 v, sum_succ, placesOf_length]; omega

/-- What is spent on the parts of a value, found at a path of `d` segments, when all of them are kept. -/
def partsCost (prices : Prices) (d : Nat) : Json F → Nat
  | .prim _ => 0
  | .arr vs => prices.call * nodesItems vs + prices.segment * (placesItems (d + 1) vs).sum + prices.visit * (placesItems 1 vs).sum
  | .obj es => prices.call * nodesEntries es + prices.segment * (placesEntries (d + 1) es).sum + prices.visit * (placesEntries 1 es).sum

theorem partsCost_step (prices : Prices) (d : Nat) (v : Json F) :
    prices.segment * d + (prices.call + (prices.visit * nodes v + partsCost prices d v)) =
      prices.call * nodes v + prices.segment * (placesOf d v).sum + prices.visit * (placesOf 1 v).sum := by
  rw [placesOf_one]
  cases v with
  | prim p => simp [partsCost, nodes, placesOf]; omega
  | arr vs => simp only [partsCost, nodes, placesOf, List.sum_cons, Nat.mul_add, Nat.mul_one]; simp; omega
  | obj es => simp only [partsCost, nodes, placesOf, List.sum_cons, Nat.mul_add, Nat.mul_one]; simp; omega

mutual
theorem wayDown_mono {a b : Nat} (h : a ≤ b) : (v : Json F) → wayDown a v ≤ wayDown b v
  | .prim _ => by rw [wayDown, wayDown]; omega
  | .arr vs => by have := wayDownItems_mono h vs; rw [wayDown, wayDown]; omega
  | .obj es => by have := wayDownEntries_mono h es; rw [wayDown, wayDown]; omega
theorem wayDownItems_mono {a b : Nat} (h : a ≤ b) : (vs : List (Json F)) → wayDownItems a vs ≤ wayDownItems b vs
  | [] => by rw [wayDownItems, wayDownItems]; omega
  | v :: vs => by
    have h1 := wayDown_mono h v
    have h2 := wayDownItems_mono h vs
    rw [wayDownItems, wayDownItems]; omega
theorem wayDownEntries_mono {a b : Nat} (h : a ≤ b) : (es : List (Str × Json F)) → wayDownEntries a es ≤ wayDownEntries b es
  | [] => by rw [wayDownEntries, wayDownEntries]; omega
  | (k, v) :: es => by
    have h1 := wayDown_mono h v
    have h2 := wayDownEntries_mono h es
    rw [wayDownEntries, wayDownEntries]; omega
end

end

/-- One bounded run after another that is bounded more tightly. -/
theorem Run.Within.seq {α β : Type} {x : Run α} {f : α → Run β} {p q : Prop} {n k : Nat} {a : α} {b : β}
    (h : x.Within p n a) (h2 : (f a).Within q k b) (hqp : q → p) : (x >>= f).Within q (n + k) b := by
  refine ⟨fun hq => (h.1 (hqp hq)).bind (h2.1 hq), fun hq => ?_⟩
  rw [Run.result_bind]
  by_cases hp : p
  · rw [(h.1 hp).2]; exact h2.2 hq
  · rw [h.2 hp]

section
variable {S F : Type} [F64 F] (prices : Prices)

omit [F64 F] in
theorem NormalItems.mem [F64 F] {v : Json F} : ∀ {vs : List (Json F)}, NormalItems vs → v ∈ vs → Normal v
  | w :: vs, h, hm => by
    rw [NormalItems] at h
    rcases List.mem_cons.mp hm with rfl | hm
    · exact h.1
    · exact NormalItems.mem h.2 hm

omit [F64 F] in
theorem NormalEntries.mem [F64 F] {e : Str × Json F} : ∀ {es : List (Str × Json F)}, NormalEntries es → e ∈ es → Normal e.2
  | (k, w) :: es, h, hm => by
    rw [NormalEntries] at h
    rcases List.mem_cons.mp hm with rfl | hm
    · exact h.1
    · exact NormalEntries.mem h.2 hm

/-- One pass of the loops, when the part is kept. -/
theorem runReply_keep {α : Type} {r : Replacer S F} {stack : Nat} {path : List PathSeg} {v : Json F} {s : S} (skip : α) (keep : Json F → α)
    (hv : Normal v)
    (h : (runChildren prices r stack path v s).Within (wayDown 2 v ≤ stack) (partsCost prices path.length v) (v, s)) :
    (do
      tick (prices.segment * path.length)
      tick prices.call
      runReply prices r stack path (some v, s) skip keep : Run (α × S)).Within (wayDown 2 v ≤ stack)
        (prices.call * nodes v + prices.segment * (placesOf path.length v).sum + prices.visit * (placesOf 1 v).sum) (keep v, s) := by
  have h1 := visitNormalize_within prices.visit stack v
  rw [normalize_normal hv] at h1
  have h2 := h1.seq (f := fun normalized => do
    let transformed ← runChildren prices r stack path normalized s
    pure (keep transformed.1, transformed.2)) (h.map fun transformed => (keep transformed.1, transformed.2))
    (fun hd => Nat.le_trans (wayDown_mono (by omega) v) hd)
  exact (Run.Within.tick (Run.Within.tick h2)).congr Iff.rfl (partsCost_step prices path.length v) rfl

theorem foldl_push_state {α β : Type} (g : α → β) (s : S) (xs : List α) (out : List β) :
    xs.foldl (fun (acc : List β × S) x => (acc.1 ++ [g x], acc.2)) (out, s) = (out ++ xs.map g, s) := by
  induction xs generalizing out with
  | nil => simp
  | cons x xs ih => rw [List.foldl_cons, ih]; simp

theorem map_add_sum {α : Type} (f g : α → Nat) (xs : List α) : (xs.map fun x => f x + g x).sum = (xs.map f).sum + (xs.map g).sum := by
  induction xs with
  | nil => rfl
  | cons x xs ih => simp only [List.map_cons, List.sum_cons, ih]; omega

theorem zipIdx_map_sum {α : Type} (f : α → Nat) (xs : List α) (i : Nat) : ((xs.zipIdx i).map fun e => f e.1).sum = (xs.map f).sum := by
  induction xs generalizing i with
  | nil => rfl
  | cons x xs ih => simp only [List.zipIdx_cons, List.map_cons, List.sum_cons, ih]

theorem zipIdx_map_fst' {α : Type} (xs : List α) (i : Nat) : (xs.zipIdx i).map (fun e => e.1) = xs := by
  induction xs generalizing i with
  | nil => rfl
  | cons x xs ih => simp only [List.zipIdx_cons, List.map_cons, ih]

theorem forall_zipIdx {α : Type} (p : α → Prop) (xs : List α) (i : Nat) : (∀ e ∈ xs.zipIdx i, p e.1) ↔ ∀ x ∈ xs, p x := by
  induction xs generalizing i with
  | nil => simp
  | cons x xs ih => rw [List.zipIdx_cons, List.forall_mem_cons, List.forall_mem_cons, ih]

theorem Run.within_overflow {α : Type} {x : Run α} {fits : Prop} {n : Nat} {a : α} (h : x.result = .error .overflow) (hf : ¬ fits) :
    x.Within fits n a := ⟨fun h' => absurd h' hf, fun _ => h⟩

theorem runChildren_keep {r : Replacer S F} (hr : ∀ k v p s, r k v p s = (some v, s)) : ∀ (stack : Nat) (p : List PathSeg) (v : Json F) (s : S), Normal v →
    (runChildren prices r stack p v s).Within (wayDown 2 v ≤ stack) (partsCost prices p.length v) (v, s)
  | 0, p, v, s, _ => Run.within_overflow (by rw [runChildren]; rfl) (by have := wayDown_pos 2 (by omega) v; omega)
  | n + 1, p, .prim q, s, _ => by
    rw [runChildren]
    exact ⟨fun _ => Run.Is.pure _, fun h => by rw [wayDown] at h; omega⟩
  | 1, p, .obj es, s, _ => Run.within_overflow (by simp [runChildren, runTransformObject]) (by rw [wayDown]; omega)
  | 1, p, .arr vs, s, _ => Run.within_overflow (by simp [runChildren, runTransformArray]) (by rw [wayDown]; omega)
  | n + 2, p, .obj es, s, hv => by
    rw [Normal] at hv
    rw [runChildren, runTransformObject_succ]
    have h := overEach_within (stack := n) (xs := es) (need := fun e => wayDown 2 e.2)
      (c := fun e => prices.call * nodes e.2 + prices.segment * (placesOf (p.length + 1) e.2).sum + prices.visit * (placesOf 1 e.2).sum)
      (g := fun (acc : List (Str × Json F) × S) e => (acc.1 ++ [(e.1, e.2)], acc.2))
      (f := fun (e : Str × Json F) (acc : List (Str × Json F) × S) => do
        tick (prices.segment * (p ++ [PathSeg.key e.1]).length)
        tick prices.call
        runReply prices r n (p ++ [PathSeg.key e.1]) (r e.1 e.2 (p ++ [PathSeg.key e.1]) acc.2) acc.1
          (fun w => acc.1 ++ [(e.1, w)])) (by
        intro e he acc
        simp only [hr]
        have := runReply_keep prices acc.1 (fun w => acc.1 ++ [(e.1, w)]) (hv.mem he)
          (runChildren_keep hr n (p ++ [PathSeg.key e.1]) e.2 acc.2 (hv.mem he))
        simpa using this) ([], s)
    refine (h.map fun es => (Json.obj es.1, es.2)).congr ?_ ?_ ?_
    · rw [wayDown, ← wayDownEntries_le]; omega
    · rw [map_add_sum, map_add_sum, mul_map_sum, mul_map_sum, mul_map_sum, partsCost, nodesEntries_map, placesEntries_sum, placesEntries_sum]
    · rw [foldl_push_state]; simp
  | n + 2, p, .arr vs, s, hv => by
    rw [Normal] at hv
    rw [runChildren, runTransformArray_succ]
    have h := overEach_within (stack := n) (xs := vs.zipIdx) (need := fun e => wayDown 2 e.1)
      (c := fun e => prices.call * nodes e.1 + prices.segment * (placesOf (p.length + 1) e.1).sum + prices.visit * (placesOf 1 e.1).sum)
      (g := fun (acc : List (Json F) × S) e => (acc.1 ++ [e.1], acc.2))
      (f := fun (e : Json F × Nat) (acc : List (Json F) × S) => do
        tick (prices.segment * (p ++ [PathSeg.index e.2]).length)
        tick prices.call
        runReply prices r n (p ++ [PathSeg.index e.2]) (r (indexKey e.2) e.1 (p ++ [PathSeg.index e.2]) acc.2) acc.1
          (fun w => acc.1 ++ [w])) (by
        intro e he acc
        have he := hv.mem (List.fst_mem_of_mem_zipIdx he)
        simp only [hr]
        have := runReply_keep prices acc.1 (fun w => acc.1 ++ [w]) he
          (runChildren_keep hr n (p ++ [PathSeg.index e.2]) e.1 acc.2 he)
        simpa using this) ([], s)
    refine (h.map fun vs => (Json.arr vs.1, vs.2)).congr ?_ ?_ ?_
    · rw [wayDown, forall_zipIdx (fun v => wayDown 2 v ≤ n), ← wayDownItems_le]; omega
    · rw [zipIdx_map_sum (fun v => prices.call * nodes v + prices.segment * (placesOf (p.length + 1) v).sum + prices.visit * (placesOf 1 v).sum),
        map_add_sum, map_add_sum, mul_map_sum, mul_map_sum, mul_map_sum, partsCost, nodesItems_map, placesItems_sum, placesItems_sum]
    · rw [foldl_push_state, zipIdx_map_fst']; simp

/-- The replacer that keeps everything. -/
theorem runReplacer_keep {r : Replacer S F} (hr : ∀ k v p s, r k v p s = (some v, s)) (stack : Nat) (root : Json F) (s : S) (hv : Normal root) :
    (runReplacer prices r stack root s).Within (wayDown 2 root + 1 ≤ stack)
      (prices.call * nodes root + prices.segment * (placesOf 0 root).sum + prices.visit * ((placesOf 0 root).map (· + 1)).sum) (root, s) := by
  match stack with
  | 0 => exact Run.within_overflow (by rw [runReplacer]; rfl) (by omega)
  | n + 1 =>
    rw [runReplacer, hr]
    have h1 := visitNormalize_within prices.visit n root
    rw [normalize_normal hv] at h1
    have h2 := h1.seq (f := fun normalized => runChildren prices r n [] normalized s) (runChildren_keep prices hr n [] root s hv) (fun hd => Nat.le_trans (wayDown_mono (show 1 ≤ 2 by omega) root) hd)
    refine (Run.Within.tick h2).congr (by omega) ?_ rfl
    have := partsCost_step prices 0 root
    rw [← placesOf_shift]
    simpa using this

/-! ## Replies that are neither deeper nor larger -/

theorem visitNormalize_steps (visit : Nat) : ∀ (stack : Nat) (v : Json F), (visitNormalize visit stack v).steps ≤ visit * nodes v
  | 0, v => by rw [visitNormalize]; exact Nat.zero_le _
  | stack + 1, .prim p => by
    rw [visitNormalize, nodes]
    show visit + 0 ≤ _
    omega
  | stack + 1, .arr vs => by
    rw [visitNormalize, nodes, nodesItems_map, Nat.mul_add, Nat.mul_one, ← mul_map_sum]
    refine Run.steps_bind_le (a := visit) (Nat.le_refl _) (fun _ => Run.steps_bind_le (b := 0)
      (overEach_steps (cost := fun v => visit * nodes v) ?_ _) (fun _ => Nat.le_refl _) (Nat.le_refl _)) (Nat.le_refl _)
    exact fun v _ out => Run.steps_bind_le (b := 0) (visitNormalize_steps visit stack v) (fun _ => Nat.le_refl _) (Nat.le_refl _)
  | stack + 1, .obj es => by
    rw [visitNormalize, nodes, nodesEntries_map, Nat.mul_add, Nat.mul_one, ← mul_map_sum]
    refine Run.steps_bind_le (a := visit) (Nat.le_refl _) (fun _ => Run.steps_bind_le (b := 0)
      (overEach_steps (cost := fun e => visit * nodes e.2) ?_ _) (fun _ => Nat.le_refl _) (Nat.le_refl _)) (Nat.le_refl _)
    exact fun e _ out => Run.steps_bind_le (b := 0) (visitNormalize_steps visit stack e.2) (fun _ => Nat.le_refl _) (Nat.le_refl _)

/-- The cost of the parts of a value of `n` values and height `h` at a path of `d` segments. -/
def partsBound (prices : Prices) (d n h : Nat) : Nat := (n - 1) * (prices.call + prices.visit * h + prices.segment * (d + h))

theorem partsBound_mono {prices : Prices} {d n h n' h' : Nat} (hn : n ≤ n') (hh : h ≤ h') :
    partsBound prices d n h ≤ partsBound prices d n' h' := by
  unfold partsBound
  refine Nat.mul_le_mul (by omega) ?_
  have h1 := Nat.mul_le_mul_left prices.visit hh
  have h2 := Nat.mul_le_mul_left prices.segment (show d + h ≤ d + h' by omega)
  omega

/-- One pass of the loops over the parts of a value of height `h + 1`. -/
theorem partsBound_step {prices : Prices} {d n h : Nat} (hn : 0 < n) :
    prices.segment * (d + 1) + (prices.call + (prices.visit * n + partsBound prices (d + 1) n h)) ≤
      n * (prices.call + prices.visit * (h + 1) + prices.segment * (d + (h + 1))) := by
  obtain ⟨m, rfl⟩ : ∃ m, n = m + 1 := ⟨n - 1, by omega⟩
  unfold partsBound
  have h1 : prices.segment * (d + 1) ≤ prices.segment * (d + (h + 1)) := Nat.mul_le_mul_left _ (by omega)
  have h2 : d + 1 + h = d + (h + 1) := by omega
  have h3 : prices.visit * (m + 1) + m * (prices.visit * h) ≤ prices.visit * (h + 1) + m * (prices.visit * (h + 1)) := by
    rw [Nat.mul_add, Nat.mul_add, Nat.mul_add, Nat.mul_one, Nat.mul_comm m (prices.visit)]
    omega
  rw [h2, Nat.add_sub_cancel]
  generalize prices.segment * (d + (h + 1)) = s1 at *
  generalize prices.segment * (d + 1) = s0 at *
  generalize prices.visit * (h + 1) = v1 at *
  generalize prices.visit * h = v0 at *
  generalize prices.visit * (m + 1) = v2 at *
  simp only [Nat.mul_add, Nat.add_mul, Nat.one_mul]
  omega

theorem runReply_steps {α : Type} {r : Replacer S F} {stack d n h : Nat} {path : List PathSeg}
    (hd : path.length = d + 1) (hn : 0 < n)
    (reply : Option (Json F) × S) (hreply : ∀ w, reply.1 = some w → nodes w ≤ n ∧ height w ≤ h) (skip : α) (keep : Json F → α)
    (ih : ∀ v s, (runChildren prices r stack path v s).steps ≤ partsBound prices path.length (nodes v) (height v)) :
    (do
      tick (prices.segment * path.length)
      tick prices.call
      runReply prices r stack path reply skip keep : Run (α × S)).steps ≤
        n * (prices.call + prices.visit * (h + 1) + prices.segment * (d + (h + 1))) := by
  refine Nat.le_trans ?_ (partsBound_step hn)
  refine Run.steps_bind_le (a := prices.segment * (d + 1)) (by rw [← hd]; exact Nat.le_refl _) (fun _ => Run.steps_bind_le (a := prices.call)
    (b := prices.visit * n + partsBound prices (d + 1) n h) (Nat.le_refl _) (fun _ => ?_) (Nat.le_refl _)) (Nat.le_refl _)
  rcases reply with ⟨_ | w, s1⟩
  · exact Nat.zero_le _
  · obtain ⟨h1, h2⟩ := hreply w rfl
    simp only [runReply]
    have h3 := visitNormalize_steps prices.visit stack w
    have h4 : prices.visit * nodes w ≤ prices.visit * n := Nat.mul_le_mul_left _ h1
    rw [Run.steps_bind]
    rcases visitNormalize_cases prices.visit stack w with hc | hc
    · simp only [hc]; omega
    · simp only [hc]
      have h5 : (do
        let transformed ← runChildren prices r stack path (normalize w) s1
        pure (keep transformed.1, transformed.2) : Run (α × S)).steps ≤ partsBound prices (d + 1) n h :=
        Run.steps_bind_le (b := 0) (Nat.le_trans (ih (normalize w) s1) (by
          rw [hd, nodes_normalize, height_normalize]; exact partsBound_mono h1 h2)) (fun _ => Nat.le_refl _) (Nat.le_refl _)
      omega

theorem runChildren_steps {r : Replacer S F}
    (hr : ∀ k v p s w s', r k v p s = (some w, s') → nodes w ≤ nodes v ∧ height w ≤ height v) : ∀ (stack : Nat) (p : List PathSeg) (v : Json F) (s : S),
    (runChildren prices r stack p v s).steps ≤ partsBound prices p.length (nodes v) (height v)
  | 0, p, v, s => by rw [runChildren]; exact Nat.zero_le _
  | n + 1, p, .prim q, s => by rw [runChildren]; exact Nat.zero_le _
  | 1, p, .obj es, s => by rw [runChildren, runTransformObject]; exact Nat.zero_le _
  | 1, p, .arr vs, s => by rw [runChildren, runTransformArray]; exact Nat.zero_le _
  | n + 2, p, .obj es, s => by
    rw [runChildren, runTransformObject_succ]
    refine Run.steps_bind_le (b := 0) (overEach_steps (cost := fun e => nodes e.2 *
      (prices.call + prices.visit * (heightEntries es + 1) + prices.segment * (p.length + (heightEntries es + 1)))) ?_ _) (fun _ => Nat.le_refl _) ?_
    · intro e he acc
      have hh := printHeightEntries_mem he
      refine runReply_steps prices (by simp) (nodes_pos e.2) _ (fun w hw => ?_) _ _ (fun v s => runChildren_steps hr n _ v s)
      have := hr e.1 e.2 (p ++ [PathSeg.key e.1]) acc.2 w _ (Prod.ext hw rfl)
      exact ⟨this.1, by omega⟩
    · rw [nodesEntries_sum, partsBound, nodes, height, Nat.add_sub_cancel_left]
      exact Nat.le_refl _
  | n + 2, p, .arr vs, s => by
    rw [runChildren, runTransformArray_succ]
    refine Run.steps_bind_le (b := 0) (overEach_steps (cost := fun e => nodes e.1 *
      (prices.call + prices.visit * (heightItems vs + 1) + prices.segment * (p.length + (heightItems vs + 1)))) ?_ _) (fun _ => Nat.le_refl _) ?_
    · intro e he acc
      have hh := printHeightItems_mem (List.fst_mem_of_mem_zipIdx he)
      refine runReply_steps prices (by simp) (nodes_pos e.1) _ (fun w hw => ?_) _ _ (fun v s => runChildren_steps hr n _ v s)
      have := hr (indexKey e.2) e.1 (p ++ [PathSeg.index e.2]) acc.2 w _ (Prod.ext hw rfl)
      exact ⟨this.1, by omega⟩
    · rw [zipIdx_map_sum (fun v => nodes v * _), nodesItems_sum, partsBound, nodes, height, Nat.add_sub_cancel_left]
      exact Nat.le_refl _

theorem runReplacer_steps {r : Replacer S F}
    (hr : ∀ k v p s w s', r k v p s = (some w, s') → nodes w ≤ nodes v ∧ height w ≤ height v) (stack : Nat) (root : Json F) (s : S) :
    (runReplacer prices r stack root s).steps ≤
      nodes root * (prices.call + prices.visit * (height root + 1) + prices.segment * height root) := by
  match stack with
  | 0 => rw [runReplacer]; exact Nat.zero_le _
  | n + 1 =>
    have hb : prices.call + (prices.visit * nodes root + partsBound prices 0 (nodes root) (height root)) ≤
        nodes root * (prices.call + prices.visit * (height root + 1) + prices.segment * height root) := by
      obtain ⟨m, hm⟩ : ∃ m, nodes root = m + 1 := ⟨nodes root - 1, by have := nodes_pos root; omega⟩
      rw [hm, partsBound, Nat.zero_add, Nat.add_sub_cancel]
      simp only [Nat.mul_add, Nat.add_mul, Nat.mul_one, Nat.one_mul, Nat.mul_comm m prices.visit]
      omega
    refine Nat.le_trans ?_ hb
    rw [runReplacer]
    refine Run.steps_bind_le (a := prices.call) (b := prices.visit * nodes root + partsBound prices 0 (nodes root) (height root))
      (Nat.le_refl _) (fun _ => ?_) (Nat.le_refl _)
    rcases hq : r [] root [] s with ⟨_ | w, s1⟩ <;> simp only
    · exact Run.steps_bind_le (Nat.le_refl _) (fun _ => runChildren_steps prices hr n [] root s1) (Nat.le_refl _)
    · obtain ⟨h1, h2⟩ := hr _ _ _ _ _ _ hq
      have h3 := visitNormalize_steps prices.visit n w
      have h4 : prices.visit * nodes w ≤ prices.visit * nodes root := Nat.mul_le_mul_left _ h1
      rw [Run.steps_bind]
      rcases visitNormalize_cases prices.visit n w with hc | hc
      · simp only [hc]; omega
      · simp only [hc]
        have h5 := runChildren_steps prices hr n [] (normalize w) s1
        rw [nodes_normalize, height_normalize] at h5
        have h6 := partsBound_mono (prices := prices) (d := 0) h1 h2
        simp only [List.length_nil] at h5
        omega

end

end Toon
