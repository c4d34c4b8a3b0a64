import Verif.Lemmas.EncFramesMono

/-! How many values the encoder copies, from above. -/

namespace Toon

section
variable {α β : Type}

theorem Run.steps_bind_le {x : Run α} {f : α → Run β} {a b n : Nat} (h1 : x.steps ≤ a) (h2 : ∀ y, (f y).steps ≤ b)
    (h : a + b ≤ n) : (x >>= f).steps ≤ n := by
  show x.steps + (match x.result with | .ok a => (f a).steps | .error _ => 0) ≤ n
  cases hx : x.result with
  | ok y =>
    have := h2 y
    simp only
    omega
  | error e => simp only; omega

theorem overEach_steps {f : α → β → Run β} {cost : α → Nat} {xs : List α} (h : ∀ x ∈ xs, ∀ out, (f x out).steps ≤ cost x) (out : β) :
    (overEach f xs out).steps ≤ (xs.map cost).sum := by
  induction xs generalizing out with
  | nil => exact Nat.zero_le _
  | cons x xs ih =>
    rw [overEach]
    refine Run.steps_bind_le (h x (by simp) out) (fun y => ih (fun z hz => h z (by simp [hz])) y) ?_
    simp

end

section
variable {F : Type}

theorem nodesItems_sum (vs : List (Json F)) (c : Nat) : (vs.map fun v => nodes v * c).sum = nodesItems vs * c := by
  induction vs with
  | nil => simp [nodesItems]
  | cons v vs ih => simp [nodesItems, ih, Nat.add_mul]

theorem nodesEntries_sum (es : List (Str × Json F)) (c : Nat) : (es.map fun e => nodes e.2 * c).sum = nodesEntries es * c := by
  induction es with
  | nil => simp [nodesEntries]
  | cons e es ih => simp [nodesEntries, ih, Nat.add_mul]

theorem nodes_pos (v : Json F) : 0 < nodes v := by
  cases v <;> simp [nodes] <;> omega

theorem length_le_nodesItems (vs : List (Json F)) : vs.length ≤ nodesItems vs := by
  induction vs with
  | nil => exact Nat.zero_le _
  | cons v vs ih => have := nodes_pos v; simp only [nodesItems, List.length_cons]; omega

theorem length_le_nodesEntries (es : List (Str × Json F)) : es.length ≤ nodesEntries es := by
  induction es with
  | nil => exact Nat.zero_le _
  | cons e es ih => have := nodes_pos e.2; simp only [nodesEntries, List.length_cons]; omega

theorem collectChain_nodes (budget : Nat) (v : Json F) : nodes (collectChain budget v).2 ≤ nodes v := by
  fun_induction collectChain budget v with
  | case1 v => exact Nat.le_refl _
  | case2 budget k v segs leaf hc ih =>
    simp only [hc] at ih ⊢
    simp only [nodes, nodesEntries]
    omega
  | case3 => exact Nat.le_refl _

theorem collectChain_lower (budget : Nat) (v : Json F) (h : (collectChain budget v).1 ≠ []) :
    height (collectChain budget v).2 < height v := by
  fun_induction collectChain budget v with
  | case1 v => simp at h
  | case2 budget k v segs leaf hc =>
    have := collectChain_height budget v
    simp only [hc] at this ⊢
    simp only [height, heightEntries]
    omega
  | case3 => simp at h

theorem tryFold_lower {key : Str} {value : Json F} {siblings : List Str} {opts : EncOpts}
    {rlk : Option (List Str)} {pp : Option Str} {fd : Nat} {r : FoldResult F}
    (h : tryFold key value siblings opts rlk pp fd = some r) : height r.leaf < height value ∧ nodes r.leaf ≤ nodes value := by
  have hl := (tryFold_leaf h).2.2.2
  refine ⟨?_, by rw [hl]; exact collectChain_nodes _ _⟩
  rw [hl]
  refine collectChain_lower _ _ fun hc => ?_
  unfold tryFold at h
  simp only [hc] at h
  split at h; contradiction
  split at h; contradiction
  split at h; contradiction
  simp at h

theorem loopCopies_le (budget : Nat) (v : Json F) : loopCopies budget v ≤ nodes v * height v := by
  fun_induction loopCopies budget v with
  | case1 v => exact Nat.zero_le _
  | case2 budget k v ih =>
    simp only [nodes, nodesEntries, height, heightEntries, Nat.max_zero, Nat.add_zero]
    rw [Nat.mul_succ, Nat.add_mul]
    omega
  | case3 => exact Nat.zero_le _

theorem chainCopies_le (budget : Nat) (v : Json F) : chainCopies budget v ≤ nodes v * (height v + 2) := by
  have h1 := loopCopies_le budget v
  have h2 := collectChain_nodes budget v
  rw [chainCopies, Nat.mul_add]
  split <;> rename_i h3
  · rw [h3] at h2; omega
  · omega

theorem tabular_copies {items : List (Json F)} {header : List Str}
    (h : (if isArrayOfObjs items then extractTabularHeader items else none) = some header) :
    items.length * header.length ≤ nodesItems items := by
  split at h
  · have hall : ∀ row ∈ items, isTabularRow header row = true := by
      unfold extractTabularHeader at h
      split at h
      · split at h
        · contradiction
        · simp only at h
          split at h
          · rename_i ht
            simp only [Option.some.injEq] at h
            subst h
            exact List.all_eq_true.mp ht
          · contradiction
      · contradiction
    clear h
    rename_i ho
    clear ho
    induction items with
    | nil => simp
    | cons v vs ih =>
      have h1 := hall v (by simp)
      have h2 := ih (fun r hr => hall r (by simp [hr]))
      match v with
      | .prim p => simp [isTabularRow] at h1
      | .arr vs => simp [isTabularRow] at h1
      | .obj es =>
        have h3 : es.length = header.length := by
          rw [isTabularRow, Bool.and_eq_true, beq_iff_eq] at h1
          exact h1.1
        have := length_le_nodesEntries es
        simp only [nodesItems, nodes, List.length_cons, Nat.succ_mul]
        omega
  · contradiction

theorem arraysOfPrims_copies (items : List (Json F)) :
    (items.map fun v => match v with | .arr xs => xs.length | _ => 0).sum ≤ nodesItems items := by
  induction items with
  | nil => exact Nat.zero_le _
  | cons v vs ih =>
    simp only [List.map_cons, List.sum_cons, nodesItems]
    refine Nat.add_le_add ?_ ih
    cases v with
    | prim p => exact Nat.zero_le _
    | arr xs => have := length_le_nodesItems xs; simp only [nodes]; omega
    | obj es => exact Nat.zero_le _

variable [F64 F] (opts : EncOpts) (c : Nat → Nat)

/-- How much a value may cost that is `D` deep: `c D` copies for every value in it. -/
structure CopyRate : Prop where
  step : ∀ D, c D + 1 ≤ c (D + 1)
  fold : ∀ (v : Json F) fd D, height v ≤ D + 1 → foldCopies opts v fd + nodes v * c D ≤ nodes v * c (D + 1)

/-- The bounds for the functions. -/
structure Copies (stack : Nat) : Prop where
  object : ∀ (es : List (Str × Json F)) depth rlk pp rem out D, heightEntries es ≤ D →
    (runObject opts stack es depth rlk pp rem out).steps ≤ nodesEntries es * c D
  pair : ∀ siblings rlk pp fd key (v : Json F) depth out D, height v ≤ D →
    (runPair opts stack siblings rlk pp fd key v depth out).steps ≤ nodes v * c D
  array : ∀ key (items : List (Json F)) depth out D, heightItems items ≤ D →
    (runArray opts stack key items depth out).steps ≤ nodesItems items * c (D + 1)
  mixed : ∀ key (items : List (Json F)) depth out D, heightItems items ≤ D →
    (runMixed opts stack key items depth out).steps ≤ nodesItems items * c D
  item : ∀ (v : Json F) depth out D, height v ≤ D → (runItem opts stack v depth out).steps ≤ nodes v * c D
  objectItem : ∀ (es : List (Str × Json F)) depth out D, heightEntries es ≤ D →
    (runObjectItem opts stack es depth out).steps ≤ nodesEntries es * c (D + 1)

variable {opts c}

omit [F64 F] in
theorem CopyRate.mono (hc : CopyRate (F := F) opts c) {a b : Nat} (h : a ≤ b) : c a ≤ c b := by
  induction h with
  | refl => exact Nat.le_refl _
  | step _ ih => have := hc.step; exact Nat.le_trans ih (Nat.le_of_succ_le (this _))

theorem items_copies {stack : Nat} (hi : ∀ (v : Json F) depth out D, height v ≤ D → (runItem opts stack v depth out).steps ≤ nodes v * c D)
    (items : List (Json F)) (depth : Nat) (out : List OutLine) (D : Nat) (h : heightItems items ≤ D) :
    (overEach (fun v out => runItem opts stack v depth out) items out).steps ≤ nodesItems items * c D := by
  rw [← nodesItems_sum]
  exact overEach_steps (fun v hv out => hi v depth out D (Nat.le_trans (height_mem_items hv) h)) out

theorem le_mul_rate (hc : CopyRate (F := F) opts c) {a b D : Nat} (h : a ≤ b) : a ≤ b * c (D + 1) := by
  have := hc.step D
  exact Nat.le_trans h (Nat.le_mul_of_pos_right _ (by omega))

theorem copies (hc : CopyRate (F := F) opts c) (stack : Nat) : Copies (F := F) opts c stack := by
  induction stack with
  | zero =>
    constructor
    · intros; rw [runObject]; exact Nat.zero_le _
    · intros; rw [runPair]; exact Nat.zero_le _
    · intros; rw [runArray]; exact Nat.zero_le _
    · intros; rw [runMixed]; exact Nat.zero_le _
    · intros; rw [runItem]; exact Nat.zero_le _
    · intros; rw [runObjectItem]; exact Nat.zero_le _
  | succ s ih =>
    constructor
    · intro es depth rlk pp rem out D h
      rw [runObject, ← nodesEntries_sum]
      exact overEach_steps (cost := fun (e : Str × Json F) => nodes e.2 * c D) (fun e he out => ih.pair _ _ _ _ _ _ _ _ _
        (Nat.le_trans (height_mem_entries (k := e.1) (v := e.2) he) h)) out
    · intro siblings rlk pp fd key v depth out D h
      rw [runPair.eq_def]
      cases hf : tryFold key v siblings opts rlk pp fd with
      | some folded =>
        obtain ⟨h1, h2⟩ := tryFold_lower hf
        obtain ⟨E, rfl⟩ : ∃ E, D = E + 1 := ⟨D - 1, by omega⟩
        refine Run.steps_bind_le (b := nodes v * c E) (Nat.le_refl _) (fun _ => ?_) (hc.fold v fd E h)
        refine Nat.le_trans ?_ (Nat.mul_le_mul_right _ h2)
        simp only [hf]
        cases hl : folded.leaf with
        | prim p => exact Nat.zero_le _
        | arr items =>
          rw [hl] at h1
          simp only [height] at h1
          obtain ⟨E', rfl⟩ : ∃ E', E = E' + 1 := ⟨E - 1, by omega⟩
          exact Nat.le_trans (ih.array _ _ _ _ E' (by omega)) (Nat.mul_le_mul_right _ (by simp only [nodes]; omega))
        | obj es =>
          rw [hl] at h1
          simp only [height] at h1
          by_cases he : es.isEmpty = true
          · simp only [he, if_true]; exact Nat.zero_le _
          · simp only [he, if_false, Bool.false_eq_true]
            exact Nat.le_trans (ih.object _ _ _ _ _ _ E (by omega)) (Nat.mul_le_mul_right _ (by simp only [nodes]; omega))
      | none =>
        cases v with
        | prim p => exact Run.steps_bind_le (a := 0) (by simp [Run.steps_tick, foldCopies, Json.isObj]) (fun _ => by simp only [hf]; exact Nat.le_refl 0) (Nat.zero_le _)
        | arr items =>
          simp only [height] at h
          obtain ⟨E, rfl⟩ : ∃ E, D = E + 1 := ⟨D - 1, by omega⟩
          exact Run.steps_bind_le (a := 0) (by simp [Run.steps_tick, foldCopies, Json.isObj]) (fun _ => by simp only [hf]; exact ih.array _ _ _ _ E (by omega))
            (by rw [Nat.zero_add]; exact Nat.mul_le_mul_right _ (by simp only [nodes]; omega))
        | obj es =>
          have hv := h
          simp only [height] at h
          obtain ⟨E, rfl⟩ : ∃ E, D = E + 1 := ⟨D - 1, by omega⟩
          refine Run.steps_bind_le (b := nodes (.obj es) * c E) (Nat.le_refl _) (fun _ => ?_) (hc.fold _ fd E hv)
          simp only [hf]
          by_cases he : es.isEmpty = true
          · simp only [he, if_true]; exact Nat.zero_le _
          · simp only [he, if_false, Bool.false_eq_true]
            exact Nat.le_trans (ih.object _ _ _ _ _ _ E (by omega)) (Nat.mul_le_mul_right _ (by simp only [nodes]; omega))
    · intro key items depth out D h
      rw [runArray]
      by_cases h1 : items.isEmpty = true
      · simp only [h1, if_true]; exact Nat.zero_le _
      · simp only [h1, if_false, Bool.false_eq_true]
        by_cases h2 : isArrayOfPrims items = true
        · simp only [h2, if_true]
          exact Run.steps_bind_le (Nat.le_refl _) (fun _ => Nat.le_refl 0) (le_mul_rate hc (length_le_nodesItems items))
        · simp only [h2, if_false, Bool.false_eq_true]
          by_cases h3 : arraysOfPrims items = true
          · simp only [h3, if_true]
            refine Nat.le_trans (overEach_steps (cost := fun v => match v with | .arr xs => xs.length | _ => 0) ?_ _)
              (le_mul_rate hc (arraysOfPrims_copies items))
            intro v _ out
            cases v with
            | prim p => exact Nat.le_refl 0
            | arr xs => exact Run.steps_bind_le (Nat.le_refl _) (fun _ => Nat.le_refl 0) (Nat.le_refl _)
            | obj es => exact Nat.le_refl 0
          · simp only [h3, if_false, Bool.false_eq_true]
            cases ht : (if isArrayOfObjs items then extractTabularHeader items else none) with
            | some header =>
              exact Run.steps_bind_le (Nat.le_refl _) (fun _ => Nat.le_refl 0) (le_mul_rate hc (tabular_copies ht))
            | none =>
              exact Nat.le_trans (ih.mixed _ _ _ _ _ h) (Nat.mul_le_mul_left _ (hc.mono (Nat.le_succ D)))
    · intro key items depth out D h
      rw [runMixed]
      exact items_copies ih.item _ _ _ _ h
    · intro v depth out D h
      cases v with
      | prim p => rw [runItem]; exact Nat.zero_le _
      | arr items =>
        simp only [height] at h
        obtain ⟨E, rfl⟩ : ∃ E, D = E + 1 := ⟨D - 1, by omega⟩
        rw [runItem]
        simp only [nodes]
        by_cases h2 : isArrayOfPrims items = true
        · simp only [h2, if_true]
          exact Run.steps_bind_le (Nat.le_refl _) (fun _ => Nat.le_refl 0)
            (le_mul_rate hc (Nat.le_trans (length_le_nodesItems items) (Nat.le_add_left _ _)))
        · simp only [h2, if_false, Bool.false_eq_true]
          exact Nat.le_trans (items_copies ih.item _ _ _ (E + 1) (by omega)) (Nat.mul_le_mul_right _ (Nat.le_add_left _ _))
      | obj es =>
        simp only [height] at h
        obtain ⟨E, rfl⟩ : ∃ E, D = E + 1 := ⟨D - 1, by omega⟩
        rw [runItem]
        simp only [nodes]
        exact Nat.le_trans (ih.objectItem _ _ _ E (by omega)) (Nat.mul_le_mul_right _ (Nat.le_add_left _ _))
    · intro es depth out D h
      match es with
      | [] => rw [runObjectItem]; exact Nat.zero_le _
      | (k, v) :: rest =>
        simp only [heightEntries] at h
        rw [runObjectItem.eq_def]
        simp only [nodesEntries]
        have hrest : ∀ out, (if rest.isEmpty = true then pure out else runObject opts s rest (depth + 1) none none none out).steps ≤
            nodesEntries rest * c D := by
          intro out
          by_cases he : rest.isEmpty = true
          · simp only [he, if_true]; exact Nat.zero_le _
          · simp only [he, if_false, Bool.false_eq_true]; exact ih.object _ _ _ _ _ _ _ (by omega)
        refine Run.steps_bind_le (b := (nodes v + nodesEntries rest) * c D) (Nat.le_refl _) (fun _ => ?_) ?_
        · rw [Nat.add_mul]
          cases v with
          | prim p => exact Run.steps_bind_le (Nat.zero_le _) hrest (Nat.le_refl _)
          | arr items =>
            simp only [height] at h
            obtain ⟨E, rfl⟩ : ∃ E, D = E + 1 := ⟨D - 1, by omega⟩
            simp only [nodes]
            cases ht : (if isArrayOfObjs items then extractTabularHeader items else none) with
            | some header =>
              have := le_mul_rate hc (D := E) (Nat.le_trans (tabular_copies ht) (Nat.le_add_left _ 1))
              exact Run.steps_bind_le (Nat.le_refl _) (fun _ => Run.steps_bind_le (Nat.zero_le _) hrest (Nat.le_refl _))
                (by rw [Nat.zero_add]; exact Nat.add_le_add_right this _)
            | none =>
              by_cases h1 : items.isEmpty = true
              · simp only [h1, if_true]; exact Run.steps_bind_le (Nat.zero_le _) hrest (Nat.le_refl _)
              · simp only [h1, if_false, Bool.false_eq_true]
                by_cases h2 : isArrayOfPrims items = true
                · simp only [h2, if_true]
                  have := le_mul_rate hc (D := E) (Nat.le_trans (length_le_nodesItems items) (Nat.le_add_left _ 1))
                  exact Run.steps_bind_le (Nat.le_refl _) (fun _ => Run.steps_bind_le (Nat.zero_le _) hrest (Nat.le_refl _))
                    (by rw [Nat.zero_add]; exact Nat.add_le_add_right this _)
                · simp only [h2, if_false, Bool.false_eq_true]
                  exact Run.steps_bind_le (items_copies ih.item _ _ _ (E + 1) (by omega)) hrest
                    (Nat.add_le_add_right (Nat.mul_le_mul_right _ (Nat.le_add_left _ _)) _)
          | obj es =>
            simp only [height] at h
            simp only [nodes]
            by_cases he : es.isEmpty = true
            · simp only [he, if_true]; exact Run.steps_bind_le (Nat.zero_le _) hrest (Nat.le_refl _)
            · simp only [he, if_false, Bool.false_eq_true]
              exact Run.steps_bind_le (ih.object _ _ _ _ _ _ D (by omega)) hrest
                (Nat.add_le_add_right (Nat.mul_le_mul_right _ (Nat.le_add_left _ _)) _)
        · have := Nat.mul_le_mul_left (nodes v + nodesEntries rest) (hc.step D)
          rw [Nat.mul_succ] at this
          rw [Run.steps_tick]
          omega

omit [F64 F] in
theorem rate_plain (h : opts.fold = false) : CopyRate (F := F) opts fun D => D :=
  ⟨fun _ => Nat.le_refl _, fun v fd D _ => by
    have : foldCopies opts v fd = 0 := by simp [foldCopies, h]
    rw [this, Nat.zero_add]
    exact Nat.mul_le_mul_left _ (Nat.le_succ D)⟩

omit [F64 F] in
theorem rate_fold : CopyRate (F := F) opts fun D => (D + 1) * (D + 2) := by
  constructor
  · intro D
    simp only [Nat.add_mul, Nat.mul_add]
    omega
  · intro v fd D h
    have : foldCopies opts v fd ≤ nodes v * (D + 3) := by
      unfold foldCopies
      split
      · exact Nat.zero_le _
      · split
        · exact Nat.zero_le _
        · split
          · exact Nat.zero_le _
          · exact Nat.le_trans (chainCopies_le _ _) (Nat.mul_le_mul_left _ (by omega))
    refine Nat.le_trans (Nat.add_le_add_right this _) ?_
    rw [← Nat.mul_add]
    refine Nat.mul_le_mul_left _ ?_
    simp only [Nat.add_mul, Nat.mul_add]
    omega

omit [F64 F] in
theorem estimateLines_copies (stack : Nat) : ∀ v : Json F, (estimateLines stack v).steps = 0 := by
  induction stack with
  | zero => intro v; rw [estimateLines]; rfl
  | succ s ih =>
    intro v
    cases v with
    | prim p => rw [estimateLines]; rfl
    | arr items =>
      rw [estimateLines]
      refine Nat.le_zero.mp (Run.steps_bind_le (a := 0) (Nat.le_trans (overEach_steps (cost := fun _ => 0) ?_ _) ?_) (fun _ => Nat.le_refl 0) (Nat.le_refl 0))
      · intro v _ sum
        exact Run.steps_bind_le (Nat.le_of_eq (ih v)) (fun _ => Nat.le_refl 0) (Nat.le_refl 0)
      · exact Nat.le_of_eq (by clear ih; induction items <;> simp_all)
    | obj es =>
      rw [estimateLines]
      refine Nat.le_zero.mp (Run.steps_bind_le (a := 0) (Nat.le_trans (overEach_steps (cost := fun _ => 0) ?_ _) ?_) (fun _ => Nat.le_refl 0) (Nat.le_refl 0))
      · intro e _ sum
        exact Run.steps_bind_le (Nat.le_of_eq (ih e.2)) (fun _ => Nat.le_refl 0) (Nat.le_refl 0)
      · exact Nat.le_of_eq (by clear ih; induction es <;> simp_all)

theorem runValue_copies (hc : CopyRate (F := F) opts c) (stack : Nat) (v : Json F) :
    (runValue opts stack v).steps ≤ nodes v * c (height v) := by
  match stack with
  | 0 => exact Nat.zero_le _
  | s + 1 =>
    rw [runValue.eq_def]
    refine Run.steps_bind_le (b := nodes v * c (height v)) (Nat.le_of_eq (estimateLines_copies s v)) (fun _ => ?_) (by omega)
    cases v with
    | prim p => exact Nat.zero_le _
    | arr items =>
      exact Nat.le_trans ((copies hc s).array _ _ _ _ _ (Nat.le_refl _)) (Nat.mul_le_mul_right _ (by simp only [nodes]; omega))
    | obj es =>
      refine Nat.le_trans ((copies hc s).object _ _ _ _ _ _ _ (Nat.le_refl _)) ?_
      simp only [nodes, height]
      exact Nat.mul_le_mul (by omega) (hc.mono (Nat.le_succ _))

omit [F64 F] in
theorem overEach_free {α β : Type} {f : α → β → Run β} (h : ∀ x out, (f x out).steps = 0) (xs : List α) (out : β) :
    (overEach f xs out).steps = 0 := by
  induction xs generalizing out with
  | nil => rfl
  | cons x xs ih =>
    rw [overEach]
    exact Nat.le_zero.mp (Run.steps_bind_le (Nat.le_of_eq (h x out)) (fun y => Nat.le_of_eq (ih y)) (Nat.le_refl 0))

theorem runNormalize_free (stack : Nat) : ∀ v : Json F, (runNormalize stack v).steps = 0 := by
  induction stack with
  | zero => intro v; rw [runNormalize]; rfl
  | succ s ih =>
    intro v
    cases v with
    | prim p => rw [runNormalize]; rfl
    | arr items =>
      rw [runNormalize]
      exact Nat.le_zero.mp (Run.steps_bind_le (Nat.le_of_eq (overEach_free (fun v out =>
        Nat.le_zero.mp (Run.steps_bind_le (Nat.le_of_eq (ih v)) (fun _ => Nat.le_refl 0) (Nat.le_refl 0))) _ _)) (fun _ => Nat.le_refl 0) (Nat.le_refl 0))
    | obj es =>
      rw [runNormalize]
      exact Nat.le_zero.mp (Run.steps_bind_le (Nat.le_of_eq (overEach_free (fun (e : Str × Json F) out =>
        Nat.le_zero.mp (Run.steps_bind_le (Nat.le_of_eq (ih e.2)) (fun _ => Nat.le_refl 0) (Nat.le_refl 0))) _ _)) (fun _ => Nat.le_refl 0) (Nat.le_refl 0))

mutual
theorem nodes_normalize (v : Json F) : nodes (normalize v) = nodes v := by
  match v with
  | .prim p => simp [normalize, nodes]
  | .arr items => simp only [normalize, nodes, nodesItems_normalize items]
  | .obj es => simp only [normalize, nodes, nodesEntries_normalize es]
theorem nodesItems_normalize (vs : List (Json F)) : nodesItems (normalizeItems vs) = nodesItems vs := by
  match vs with
  | [] => rfl
  | v :: vs => simp only [normalizeItems, nodesItems, nodes_normalize v, nodesItems_normalize vs]
theorem nodesEntries_normalize (es : List (Str × Json F)) : nodesEntries (normalizeEntries es) = nodesEntries es := by
  match es with
  | [] => rfl
  | (k, v) :: es => simp only [normalizeEntries, nodesEntries, nodes_normalize v, nodesEntries_normalize es]
end

theorem runNormalize_same (stack : Nat) (v : Json F) :
    (runNormalize stack v).result = .error .overflow ∨ (runNormalize stack v).result = .ok (normalize v) := by
  have h : ∀ n, LeStop (runNormalize stack v) (runNormalize (stack + n) v) := by
    intro n
    induction n with
    | zero => exact .refl _
    | succ n ih => exact ih.trans (runNormalize_more _ _)
  rcases h (height v + 1) with h | h
  · exact Or.inl h
  · exact Or.inr (by rw [h]; exact runNormalize_ok _ v (by omega))

theorem runEncodeLines_copies (hc : CopyRate (F := F) opts c) (stack : Nat) (v : Json F) :
    (runEncodeLines opts stack v).steps ≤ nodes v * c (height v) := by
  match stack with
  | 0 => exact Nat.zero_le _
  | s + 1 =>
    rw [runEncodeLines, Run.steps_bind, runNormalize_free, Nat.zero_add]
    rcases runNormalize_same s v with h | h
    · rw [h]; exact Nat.zero_le _
    · rw [h]
      have := runValue_copies hc s (normalize v)
      rw [nodes_normalize, height_normalize] at this
      exact Run.steps_bind_le this (fun _ => Nat.le_refl 0) (Nat.le_refl _)

end

end Toon
