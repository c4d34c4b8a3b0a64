import Verif.Model.EncFrames
import Verif.Lemmas.Frames
import Verif.Lemmas.Replacer
import Verif.Lemmas.Diff

/-! The encoder with a bounded stack writes what the model of the encoder writes. -/

namespace Toon

theorem overEach_ok {α β : Type} {f : α → List β → Run (List β)} {g : α → List β} {xs : List α}
    (h : ∀ x ∈ xs, ∀ out, (f x out).result = .ok (out ++ g x)) (out : List β) :
    (overEach f xs out).result = .ok (out ++ xs.flatMap g) := by
  induction xs generalizing out with
  | nil => simp [overEach]
  | cons x xs ih =>
    rw [overEach, Run.result_bind, h x (by simp)]
    simp only
    rw [ih (fun y hy => h y (by simp [hy]))]
    simp

theorem overEach_some {α β : Type} {f : α → β → Run β} {xs : List α}
    (h : ∀ x ∈ xs, ∀ out, ∃ out', (f x out).result = .ok out') (out : β) :
    ∃ out', (overEach f xs out).result = .ok out' := by
  induction xs generalizing out with
  | nil => exact ⟨out, rfl⟩
  | cons x xs ih =>
    obtain ⟨o, ho⟩ := h x (by simp) out
    rw [overEach, Run.result_bind, ho]
    exact ih (fun y hy => h y (by simp [hy])) o

theorem overEach_first {α β : Type} {f : α → β → Run β} {x : α} {xs : List α} {out : β} {e : Stop}
    (h : (f x out).result = .error e) : (overEach f (x :: xs) out).result = .error e := by
  rw [overEach, Run.result_bind, h]

section
variable {F : Type}

theorem tryFold_leaf {key : Str} {value : Json F} {siblings : List Str} {opts : EncOpts}
    {rlk : Option (List Str)} {pp : Option Str} {fd : Nat} {r : FoldResult F}
    (h : tryFold key value siblings opts rlk pp fd = some r) :
    opts.fold = true ∧ value.isObj = true ∧ 2 ≤ fd ∧ r.leaf = (collectChain (fd - 1) value).2 := by
  unfold tryFold at h
  simp only at h
  split at h; contradiction
  rename_i h1
  split at h; contradiction
  rename_i h2
  split at h; contradiction
  rename_i h3
  split at h; contradiction
  split at h; contradiction
  split at h; contradiction
  refine ⟨by simpa using h1, by simpa using h2, by omega, ?_⟩
  split at h
  · split at h
    · contradiction
    · simp only [Option.some.injEq] at h; subst h; rfl
  · simp only [Option.some.injEq] at h; subst h; rfl

theorem tryFold_height {key : Str} {value : Json F} {siblings : List Str} {opts : EncOpts}
    {rlk : Option (List Str)} {pp : Option Str} {fd : Nat} {r : FoldResult F}
    (h : tryFold key value siblings opts rlk pp fd = some r) : height r.leaf ≤ height value := by
  rw [(tryFold_leaf h).2.2.2]
  exact collectChain_height _ _

theorem estimateLines_ok (stack : Nat) : ∀ v : Json F, height v < stack → ∃ n, (estimateLines stack v).result = .ok n := by
  induction stack with
  | zero => intro v h; omega
  | succ s ih =>
    intro v h
    match v with
    | .prim p => exact ⟨1, rfl⟩
    | .arr items =>
      simp only [height] at h
      obtain ⟨n, hn⟩ := overEach_some (f := fun v sum => do
          let n ← estimateLines s v
          pure (sum + n)) (xs := items) (by
        intro v hv out
        obtain ⟨n, hn⟩ := ih v (by have := height_mem_items hv; omega)
        exact ⟨out + n, by rw [Run.result_bind, hn]; rfl⟩) 0
      exact ⟨1 + n, by rw [estimateLines, Run.result_bind, hn]; rfl⟩
    | .obj es =>
      simp only [height] at h
      obtain ⟨n, hn⟩ := overEach_some (f := fun (e : Str × Json F) sum => do
          let n ← estimateLines s e.2
          pure (sum + n)) (xs := es) (by
        intro e he out
        obtain ⟨n, hn⟩ := ih e.2 (by have := height_mem_entries he; omega)
        exact ⟨out + n, by rw [Run.result_bind, hn]; rfl⟩) 0
      exact ⟨max n 1, by rw [estimateLines, Run.result_bind, hn]; rfl⟩

variable [F64 F] (opts : EncOpts)

theorem encodeEntries_flatten (siblings : List Str) (rlk : Option (List Str)) (pp : Option Str) (fd : Nat)
    (es : List (Str × Json F)) (depth : Nat) :
    encodeEntries opts siblings rlk pp fd es depth = es.flatMap fun e => encodeKeyValue opts siblings rlk pp fd e.1 e.2 depth := by
  induction es with
  | nil => rw [encodeEntries]; rfl
  | cons e es ih => rw [encodeEntries, ih]; rfl

theorem encodeArray_cases (key : Option Str) (items : List (Json F)) (depth : Nat) :
    encodeArray opts key items depth =
      if items.isEmpty then [⟨depth, formatHeader 0 key none opts.delim⟩]
      else if isArrayOfPrims items then [⟨depth, encodeInlineArrayLine items opts.delim key⟩]
      else if arraysOfPrims items then
        ⟨depth, formatHeader items.length key none opts.delim⟩ ::
          items.filterMap (fun item => match item with
            | .arr xs => some ⟨depth + 1, dash (encodeInlineArrayLine xs opts.delim none)⟩
            | _ => none)
      else
        match (if isArrayOfObjs items then extractTabularHeader items else none) with
        | some header =>
          ⟨depth, formatHeader items.length key (some header) opts.delim⟩ ::
            tabularRows items header (depth + 1) opts.delim
        | none =>
          ⟨depth, formatHeader items.length key none opts.delim⟩ :: encodeItems opts items (depth + 1) := by
  rw [encodeArray.eq_def]
  rfl

/-- What the functions do in a stack that is large enough. -/
structure EncRuns (stack : Nat) : Prop where
  object : ∀ (es : List (Str × Json F)) depth rlk pp rem out, 3 * heightEntries es + 2 ≤ stack →
    (runObject opts stack es depth rlk pp rem out).result = .ok (out ++ encodeObject opts es depth rlk pp rem)
  pair : ∀ siblings rlk pp fd key (v : Json F) depth out, 3 * height v + 1 ≤ stack →
    (runPair opts stack siblings rlk pp fd key v depth out).result = .ok (out ++ encodeKeyValue opts siblings rlk pp fd key v depth)
  array : ∀ key (items : List (Json F)) depth out, 3 * heightItems items + 3 ≤ stack →
    (runArray opts stack key items depth out).result = .ok (out ++ encodeArray opts key items depth)
  mixed : ∀ key (items : List (Json F)) depth out, 3 * heightItems items + 2 ≤ stack →
    (runMixed opts stack key items depth out).result = .ok (out ++
      ⟨depth, formatHeader items.length key none opts.delim⟩ :: encodeItems opts items (depth + 1))
  item : ∀ (v : Json F) depth out, 3 * height v + 1 ≤ stack →
    (runItem opts stack v depth out).result = .ok (out ++ encodeItem opts v depth)
  objectItem : ∀ (es : List (Str × Json F)) depth out, 3 * heightEntries es + 3 ≤ stack →
    (runObjectItem opts stack es depth out).result = .ok (out ++ encodeObjectItem opts es depth)

theorem items_run {stack : Nat} (hi : ∀ (v : Json F) depth out, 3 * height v + 1 ≤ stack →
      (runItem opts stack v depth out).result = .ok (out ++ encodeItem opts v depth))
    (items : List (Json F)) (depth : Nat) (out : List OutLine) (h : 3 * heightItems items + 1 ≤ stack) :
    (overEach (fun v out => runItem opts stack v depth out) items out).result = .ok (out ++ encodeItems opts items depth) := by
  rw [encodeItems_flat]
  refine overEach_ok (fun v hv out => hi v depth out ?_) out
  have := height_mem_items hv
  omega

theorem encRuns (stack : Nat) : EncRuns (F := F) opts stack := by
  induction stack with
  | zero => constructor <;> intros <;> omega
  | succ s ih =>
    constructor
    · intro es depth rlk pp rem out h
      rw [runObject, encodeObject, encodeEntries_flatten]
      refine overEach_ok (g := fun (e : Str × Json F) => encodeKeyValue opts (es.map Prod.fst) (rootLiterals depth rlk (es.map Prod.fst)) pp
        (rem.getD opts.flattenDepth) e.1 e.2 depth) (fun e he out => ih.pair _ _ _ _ _ _ _ _ ?_) out
      have := height_mem_entries (k := e.1) (v := e.2) he
      omega
    · intro siblings rlk pp fd key v depth out h
      rw [runPair.eq_def, encodeKeyValue_eq]
      simp only [Run.result_bind, Run.result_tick]
      cases hf : tryFold key v siblings opts rlk pp fd with
      | some folded =>
        have hh := tryFold_height hf
        simp only
        cases hl : folded.leaf with
        | prim p => simp [writeEntry]
        | arr items =>
          rw [hl] at hh
          simp only [height] at hh ⊢
          exact ih.array _ _ _ _ (by omega)
        | obj es =>
          rw [hl] at hh
          simp only [height] at hh ⊢
          by_cases he : es.isEmpty = true
          · obtain rfl := List.isEmpty_iff.mp he
            simp [writeEntry, encodeObject, encodeEntries]
          · simp only [he, if_false, Bool.false_eq_true]
            rw [ih.object _ _ _ _ _ _ (by omega)]
            simp [writeEntry]
      | none =>
        cases v with
        | prim p => simp [writeEntry]
        | arr items =>
          simp only [height] at h ⊢
          exact ih.array _ _ _ _ (by omega)
        | obj es =>
          simp only [height] at h ⊢
          by_cases he : es.isEmpty = true
          · obtain rfl := List.isEmpty_iff.mp he
            simp [writeEntry, encodeObject, encodeEntries]
          · simp only [he, if_false, Bool.false_eq_true]
            rw [ih.object _ _ _ _ _ _ (by omega)]
            simp [writeEntry]
    · intro key items depth out h
      rw [runArray, encodeArray_cases]
      by_cases h1 : items.isEmpty = true
      · simp [h1]
      · simp only [h1, if_false, Bool.false_eq_true]
        by_cases h2 : isArrayOfPrims items = true
        · simp [h2]
        · simp only [h2, if_false, Bool.false_eq_true]
          by_cases h3 : arraysOfPrims items = true
          · simp only [h3, if_true]
            rw [overEach_ok (g := fun item => match item with
              | .arr xs => [⟨depth + 1, dash (encodeInlineArrayLine xs opts.delim none)⟩]
              | _ => [])]
            · simp only [List.append_assoc, List.cons_append, List.nil_append]
              congr 3
              clear h h1 h2 h3
              induction items with
              | nil => rfl
              | cons v vs ih => cases v <;> simp [ih]
            · intro v _ out
              cases v <;> simp
          · simp only [h3, if_false, Bool.false_eq_true]
            cases (if isArrayOfObjs items then extractTabularHeader items else none) with
            | some header => simp
            | none => exact ih.mixed _ _ _ _ (by omega)
    · intro key items depth out h
      rw [runMixed, items_run opts ih.item _ _ _ (by omega)]
      simp
    · intro v depth out h
      cases v with
      | prim p => rw [runItem, encodeItem]; rfl
      | arr items =>
        simp only [height] at h
        rw [runItem, encodeItem]
        by_cases h2 : isArrayOfPrims items = true
        · simp [h2]
        · simp only [h2, if_false, Bool.false_eq_true]
          rw [items_run opts ih.item _ _ _ (by omega)]
          simp
      | obj es =>
        simp only [height] at h
        rw [runItem, encodeItem]
        exact ih.objectItem _ _ _ (by omega)
    · intro es depth out h
      match es with
      | [] => rw [runObjectItem, encodeObjectItem]; rfl
      | (k, v) :: rest =>
        simp only [heightEntries] at h
        rw [runObjectItem.eq_def, encodeObjectItem.eq_def]
        have hrest : ∀ out, (if rest.isEmpty = true then pure out else runObject opts s rest (depth + 1) none none none out).result =
            .ok (out ++ if rest.isEmpty = true then [] else encodeObject opts rest (depth + 1) none none none) := by
          intro out
          by_cases hr : rest.isEmpty = true
          · simp [hr]
          · simp only [hr, if_false, Bool.false_eq_true]
            exact ih.object _ _ _ _ _ _ (by omega)
        simp only [Run.result_bind, Run.result_tick]
        cases v with
        | prim p => simp only [hrest, List.append_assoc, List.cons_append, List.nil_append, Run.result_pure, Run.result_bind, Run.result_tick]
        | arr items =>
          simp only [height] at h ⊢
          cases (if isArrayOfObjs items then extractTabularHeader items else none) with
          | some header => simp only [hrest, List.append_assoc, List.cons_append, List.nil_append, Run.result_pure, Run.result_bind, Run.result_tick]
          | none =>
            by_cases h1 : items.isEmpty = true
            · simp only [h1, hrest, Run.result_bind, List.append_assoc, List.cons_append, List.nil_append, Run.result_pure, if_true]
            · simp only [h1, if_false, Bool.false_eq_true]
              by_cases h2 : isArrayOfPrims items = true
              · simp only [h2, hrest, List.append_assoc, List.cons_append, List.nil_append, Run.result_pure, Run.result_bind, Run.result_tick, if_true]
              · simp only [h2, if_false, Bool.false_eq_true]
                rw [Run.result_bind, items_run opts ih.item _ _ _ (by omega)]
                simp only [hrest, List.append_assoc, List.cons_append, List.nil_append, Run.result_pure, Run.result_bind, Run.result_tick]
        | obj es =>
          simp only [height] at h ⊢
          by_cases h1 : es.isEmpty = true
          · simp only [h1, hrest, Run.result_bind, List.append_assoc, List.cons_append, List.nil_append, Run.result_pure, if_true]
          · simp only [h1, if_false, Bool.false_eq_true]
            rw [Run.result_bind, ih.object _ _ _ _ _ _ (by omega)]
            simp only [hrest, List.append_assoc, List.cons_append, List.nil_append, Run.result_pure, Run.result_bind, Run.result_tick]

theorem runValue_ok (stack : Nat) (v : Json F) (h : max (3 * height v + 1) 2 ≤ stack) :
    (runValue opts stack v).result = .ok (encodeValue opts v) := by
  match stack with
  | 0 => omega
  | s + 1 =>
    obtain ⟨n, hn⟩ := estimateLines_ok s v (by omega)
    rw [runValue.eq_def]
    simp only [Run.result_bind, hn]
    cases v with
    | prim p => rfl
    | arr items =>
      simp only [height] at h
      exact (encRuns opts s).array _ _ _ _ (by omega)
    | obj es =>
      simp only [height] at h
      exact (encRuns opts s).object _ _ _ _ _ _ (by omega)

theorem runNormalize_ok (stack : Nat) : ∀ v : Json F, height v < stack → (runNormalize stack v).result = .ok (normalize v) := by
  induction stack with
  | zero => intro v h; omega
  | succ s ih =>
    intro v h
    cases v with
    | prim p => rfl
    | arr items =>
      simp only [height] at h
      rw [runNormalize, Run.result_bind, overEach_ok (g := fun v => [normalize v])]
      · rw [normalize, normalizeItems_eq]
        simp [List.flatMap_singleton', ← List.map_eq_flatMap]
      · intro v hv out
        rw [Run.result_bind, ih v (by have := height_mem_items hv; omega)]
        rfl
    | obj es =>
      simp only [height] at h
      rw [runNormalize, Run.result_bind, overEach_ok (g := fun (e : Str × Json F) => [(e.1, normalize e.2)])]
      · simp only [normalize, Run.result_pure, List.nil_append, ← List.map_eq_flatMap]
        congr 2
        clear h
        induction es with
        | nil => rfl
        | cons e es ih => simp [normalizeEntries, ih]
      · intro e he out
        rw [Run.result_bind, ih e.2 (by have := height_mem_entries (k := e.1) (v := e.2) he; omega)]
        rfl

theorem runEncodeLines_ok (stack : Nat) (v : Json F) (h : max (3 * height v + 2) 3 ≤ stack) :
    (runEncodeLines opts stack v).result = .ok (encodeLines opts v) := by
  match stack with
  | 0 => omega
  | s + 1 =>
    rw [runEncodeLines, Run.result_bind, runNormalize_ok s v (by omega)]
    simp only
    rw [Run.result_bind, runValue_ok opts s _ (by rw [height_normalize]; omega)]
    rfl

end

end Toon
