import Verif.Model.Compares
import Verif.Spec.Compares
import Verif.Lemmas.Copies

/-! How many keys the encoder compares, from above. -/

namespace Toon

section
variable {F : Type}

theorem getCompares_le (es : List (Str × Json F)) (key : Str) : getCompares es key ≤ es.length := by
  induction es with
  | nil => exact Nat.le_refl _
  | cons e es ih =>
    obtain ⟨k, v⟩ := e
    rw [getCompares, List.length_cons]
    split <;> omega

theorem rowCompares_le (es : List (Str × Json F)) (header : List Str) : rowCompares es header ≤ es.length * header.length := by
  induction header with
  | nil => exact Nat.le_refl _
  | cons k ks ih =>
    have := getCompares_le es k
    rw [rowCompares, List.length_cons, Nat.mul_succ]
    split <;> omega

theorem lookups_le (es : List (Str × Json F)) (header : List Str) :
    (header.map fun key => getCompares es key).sum ≤ es.length * header.length := by
  induction header with
  | nil => exact Nat.le_refl _
  | cons k ks ih =>
    have := getCompares_le es k
    rw [List.map_cons, List.sum_cons, List.length_cons, Nat.mul_succ]
    omega

/-- The entries of the objects in a list. -/
def cellCount (items : List (Json F)) : Nat :=
  (items.map fun row => match row with
    | .obj es => es.length
    | _ => 0).sum

theorem tableCompares_le {W : Nat} (header : List Str) (items : List (Json F)) (hw : widthItems items ≤ W) :
    tableCompares header items ≤ W * cellCount items := by
  induction items with
  | nil => exact Nat.zero_le _
  | cons row rows ih =>
    rw [widthItems] at hw
    have ih := ih (by omega)
    unfold cellCount at ih ⊢
    rw [tableCompares.eq_def, List.map_cons, List.sum_cons, Nat.mul_add]
    simp only
    refine Nat.add_le_add ?_ (by split; exact ih; exact Nat.zero_le _)
    match row with
    | .prim p => exact Nat.zero_le _
    | .arr xs => exact Nat.zero_le _
    | .obj es =>
      simp only
      split
      · rename_i h
        refine Nat.le_trans (rowCompares_le es header) ?_
        rw [← h]
        refine Nat.mul_le_mul_right _ ?_
        rw [width] at hw
        omega
      · exact Nat.zero_le _

theorem testCompares_le {W : Nat} (items : List (Json F)) (hw : widthItems items ≤ W) : testCompares items ≤ W * cellCount items := by
  unfold testCompares
  split
  · split
    · split
      · exact Nat.zero_le _
      · exact tableCompares_le _ _ hw
    · exact Nat.zero_le _
  · exact Nat.zero_le _

theorem tabular_rows {items : List (Json F)} {header : List Str}
    (h : (if isArrayOfObjs items then extractTabularHeader items else none) = some header) :
    ∀ row ∈ items, isTabularRow header row = true := by
  split at h
  · unfold extractTabularHeader at h
    split at h
    · split at h
      · contradiction
      · simp only at h
        split at h
        · rename_i ht
          simp only [Option.some.injEq] at h
          subst h
          exact List.all_eq_true.mp ht
        · contradiction
    · contradiction
  · contradiction

theorem rowsCompares_le {W : Nat} {items : List (Json F)} {header : List Str} (h : ∀ row ∈ items, isTabularRow header row = true)
    (hw : widthItems items ≤ W) : rowsCompares header items ≤ W * cellCount items := by
  induction items with
  | nil => exact Nat.zero_le _
  | cons row rows ih =>
    rw [widthItems] at hw
    have ih := ih (fun r hr => h r (by simp [hr])) (by omega)
    have hrow := h row (by simp)
    unfold cellCount rowsCompares at ih ⊢
    rw [List.map_cons, List.sum_cons, List.map_cons, List.sum_cons, Nat.mul_add]
    refine Nat.add_le_add ?_ ih
    match row with
    | .prim p => exact Nat.zero_le _
    | .arr xs => exact Nat.zero_le _
    | .obj es =>
      simp only
      refine Nat.le_trans (lookups_le es header) ?_
      have : es.length = header.length := by
        rw [isTabularRow, Bool.and_eq_true, beq_iff_eq] at hrow
        exact hrow.1
      rw [← this]
      refine Nat.mul_le_mul_right _ ?_
      rw [width] at hw
      omega

theorem cellCount_le (items : List (Json F)) : cellCount items ≤ nodesItems items := by
  induction items with
  | nil => exact Nat.le_refl _
  | cons row rows ih =>
    unfold cellCount at ih ⊢
    rw [List.map_cons, List.sum_cons, nodesItems]
    refine Nat.add_le_add ?_ ih
    match row with
    | .prim p => exact Nat.zero_le _
    | .arr xs => exact Nat.zero_le _
    | .obj es => have := length_le_nodesEntries es; simp only [nodes]; omega

theorem siblingCompares_le (siblings : List Str) (key : Str) : siblingCompares siblings key ≤ siblings.length := by
  induction siblings with
  | nil => exact Nat.le_refl _
  | cons s rest ih =>
    rw [siblingCompares, List.length_cons]
    split <;> omega

theorem foldCompares_le (opts : EncOpts) (key : Str) (value : Json F) (siblings : List Str) (fd : Nat) :
    foldCompares opts key value siblings fd ≤ siblings.length := by
  unfold foldCompares
  split; · exact Nat.zero_le _
  split; · exact Nat.zero_le _
  split; · exact Nat.zero_le _
  simp only
  split; · exact Nat.zero_le _
  split; · exact Nat.zero_le _
  exact siblingCompares_le _ _

theorem foldCompares_not_obj (opts : EncOpts) (key : Str) {value : Json F} (h : value.isObj = false) (siblings : List Str) (fd : Nat) :
    foldCompares opts key value siblings fd = 0 := by
  unfold foldCompares
  rw [h]
  simp

theorem collectChain_width (budget : Nat) (v : Json F) : width (collectChain budget v).2 ≤ width v := by
  fun_induction collectChain budget v with
  | case1 v => exact Nat.le_refl _
  | case2 budget k v segs leaf hc ih =>
    simp only [hc] at ih ⊢
    simp only [width, widthEntries]
    omega
  | case3 => exact Nat.le_refl _

theorem width_mem_items {items : List (Json F)} {v : Json F} (h : v ∈ items) : width v ≤ widthItems items := by
  induction items with
  | nil => simp at h
  | cons x xs ih =>
    rw [widthItems]
    rcases List.mem_cons.1 h with rfl | h
    · omega
    · have := ih h; omega

theorem width_mem_entries {es : List (Str × Json F)} {e : Str × Json F} (h : e ∈ es) : width e.2 ≤ widthEntries es := by
  induction es with
  | nil => simp at h
  | cons x xs ih =>
    obtain ⟨k, x⟩ := x
    rw [widthEntries]
    rcases List.mem_cons.1 h with rfl | h
    · simp only; omega
    · have := ih h; omega

variable [F64 F] (opts : EncOpts) (W : Nat)

/-- The bounds for the functions. -/
structure Compares (stack : Nat) : Prop where
  object : ∀ (es : List (Str × Json F)) depth rlk pp rem, es.length ≤ W → widthEntries es ≤ W →
    objectCompares opts stack es depth rlk pp rem + W * es.length ≤ 2 * W * nodesEntries es
  pair : ∀ siblings rlk pp fd key (v : Json F) depth, siblings.length ≤ W → width v ≤ W →
    pairCompares opts stack siblings rlk pp fd key v depth + W ≤ 2 * W * nodes v
  array : ∀ (items : List (Json F)) depth, widthItems items ≤ W → arrayCompares opts stack items depth ≤ 2 * W * nodesItems items
  mixed : ∀ (items : List (Json F)) depth, widthItems items ≤ W →
    mixedCompares opts stack items depth + W * cellCount items ≤ 2 * W * nodesItems items
  item : ∀ (v : Json F) depth, width v ≤ W → itemCompares opts stack v depth + W * (match v with | .obj es => es.length | _ => 0) ≤ 2 * W * nodes v
  objectItem : ∀ (es : List (Str × Json F)) depth, es.length ≤ W → widthEntries es ≤ W →
    objectItemCompares opts stack es depth + W * es.length ≤ 2 * W * nodesEntries es

variable {opts W}

omit [F64 F] in
theorem mul_length_le (es : List (Str × Json F)) : W * es.length ≤ 2 * W * nodesEntries es := by
  have := Nat.mul_le_mul_left W (length_le_nodesEntries es)
  rw [Nat.mul_assoc]
  omega

omit [F64 F] in
theorem items_compares {stack : Nat} (hi : ∀ (v : Json F) depth, width v ≤ W →
      itemCompares opts stack v depth + W * (match v with | .obj es => es.length | _ => 0) ≤ 2 * W * nodes v)
    (items : List (Json F)) (depth : Nat) (h : widthItems items ≤ W) :
    (items.map fun v => itemCompares opts stack v depth).sum + W * cellCount items ≤ 2 * W * nodesItems items := by
  induction items with
  | nil => exact Nat.zero_le _
  | cons v vs ih =>
    rw [widthItems] at h
    have ih := ih (by omega)
    have hv := hi v depth (by omega)
    unfold cellCount at ih ⊢
    rw [List.map_cons, List.sum_cons, List.map_cons, List.sum_cons, nodesItems, Nat.mul_add W, Nat.mul_add (2 * W)]
    omega

theorem array_compares {stack : Nat} {items : List (Json F)} {c : Nat} (h : widthItems items ≤ W)
    (hc : c + W * cellCount items ≤ 2 * W * nodesItems items) :
    (testCompares items + match (if isArrayOfObjs items then extractTabularHeader items else none) with
      | some header => rowsCompares header items
      | none => c) ≤ 2 * W * nodesItems items := by
  have ht := testCompares_le items h
  cases hh : (if isArrayOfObjs items then extractTabularHeader items else none) with
  | none => simp only; omega
  | some header =>
    simp only
    have := rowsCompares_le (tabular_rows hh) h
    have := Nat.mul_le_mul_left W (cellCount_le items)
    rw [Nat.mul_assoc]
    omega

theorem compares (stack : Nat) : Compares (F := F) opts W stack := by
  induction stack with
  | zero =>
    constructor
    · intros; rw [objectCompares, Nat.zero_add]; exact mul_length_le _
    · intro siblings rlk pp fd key v depth _ _
      rw [pairCompares, Nat.zero_add, Nat.mul_assoc]
      have := Nat.le_mul_of_pos_right W (nodes_pos v)
      omega
    · intros; rw [arrayCompares]; exact Nat.zero_le _
    · intro items _ _
      rw [mixedCompares, Nat.zero_add, Nat.mul_assoc]
      have := Nat.mul_le_mul_left W (cellCount_le items)
      omega
    · intro v _ _
      rw [itemCompares, Nat.zero_add, Nat.mul_assoc]
      have := Nat.mul_le_mul_left W (cellCount_le [v])
      unfold cellCount at this
      simp only [List.map_cons, List.map_nil, List.sum_cons, List.sum_nil, Nat.add_zero, nodesItems] at this
      omega
    · intros; rw [objectItemCompares, Nat.zero_add]; exact mul_length_le _
  | succ s ih =>
    constructor
    · intro es depth rlk pp rem hl hw
      rw [objectCompares]
      have key : ∀ siblings : List Str, siblings.length ≤ W → ∀ rlk pp fd (fs : List (Str × Json F)), widthEntries fs ≤ W →
          (fs.map fun e => pairCompares opts s siblings rlk pp fd e.1 e.2 depth).sum + W * fs.length ≤ 2 * W * nodesEntries fs := by
        intro siblings hs rlk pp fd fs hf
        induction fs with
        | nil => exact Nat.zero_le _
        | cons f fs ihf =>
          obtain ⟨k, v⟩ := f
          rw [widthEntries] at hf
          have h1 := ihf (by omega)
          have h2 := ih.pair siblings rlk pp fd k v depth hs (by omega)
          rw [List.map_cons, List.sum_cons, nodesEntries, List.length_cons, Nat.mul_succ, Nat.mul_add (2 * W)]
          simp only at h1 ⊢
          omega
      exact key _ (by simpa using hl) _ _ _ _ hw
    · intro siblings rlk pp fd key v depth hs hw
      rw [pairCompares.eq_def]
      simp only
      have hfold := foldCompares_le opts key v siblings fd
      have h2 : 2 * W * nodes v = 2 * (W * nodes v) := Nat.mul_assoc ..
      have hpos := Nat.le_mul_of_pos_right W (nodes_pos v)
      cases hf : tryFold key v siblings opts rlk pp fd with
      | some folded =>
        have hlow := (tryFold_lower hf).2
        have hwid : width folded.leaf ≤ W := by
          rw [(tryFold_leaf hf).2.2.2]
          exact Nat.le_trans (collectChain_width _ _) hw
        have hmul := Nat.mul_le_mul_left (2 * W) hlow
        simp only
        cases hl : folded.leaf with
        | prim p => simp only; omega
        | arr items =>
          rw [hl] at hwid hmul
          simp only [width] at hwid
          simp only [nodes, Nat.mul_add, Nat.mul_one] at hmul
          have := ih.array items depth hwid
          simp only
          omega
        | obj es =>
          rw [hl] at hwid hmul
          simp only [width] at hwid
          simp only [nodes, Nat.mul_add, Nat.mul_one] at hmul
          simp only
          split
          · omega
          · have := ih.object es (depth + 1) rlk (some (extendPath pp folded.foldedKey)) (some (fd - folded.segmentCount)) (by omega) (by omega)
            omega
      | none =>
        simp only
        cases v with
        | prim p => rw [foldCompares_not_obj _ _ rfl]; simp only; omega
        | arr items =>
          rw [foldCompares_not_obj _ _ rfl]
          simp only [width] at hw
          have := ih.array items depth hw
          simp only [nodes, Nat.mul_add, Nat.mul_one]
          omega
        | obj es =>
          simp only [width] at hw
          simp only [nodes, Nat.mul_add, Nat.mul_one]
          split
          · omega
          · have := ih.object es (depth + 1) rlk (some (extendPath pp key)) (some fd) (by omega) (by omega)
            omega
    · intro items depth h
      rw [arrayCompares]
      split; · exact Nat.zero_le _
      split; · exact Nat.zero_le _
      split; · exact Nat.zero_le _
      exact array_compares (stack := s) h (ih.mixed items depth h)
    · intro items depth h
      rw [mixedCompares]
      exact items_compares ih.item _ _ h
    · intro v depth h
      match v with
      | .prim p => rw [itemCompares]; exact Nat.zero_le _
      | .arr items =>
        rw [itemCompares]
        rw [width] at h
        have := items_compares ih.item items (depth + 1) h
        simp only [nodes, Nat.mul_add, Nat.mul_one, Nat.mul_zero]
        split <;> omega
      | .obj es =>
        rw [itemCompares]
        rw [width] at h
        have := ih.objectItem es depth (by omega) (by omega)
        simp only [nodes, Nat.mul_add, Nat.mul_one]
        omega
    · intro es depth hl hw
      match es with
      | [] => rw [objectItemCompares]; exact Nat.zero_le _
      | (k, v) :: rest =>
        rw [widthEntries] at hw
        rw [List.length_cons] at hl
        rw [objectItemCompares.eq_def]
        simp only [nodesEntries, List.length_cons, Nat.mul_succ, Nat.mul_add (2 * W)]
        have hrest : (if rest.isEmpty = true then 0 else objectCompares opts s rest (depth + 1) none none none) + W * rest.length ≤
            2 * W * nodesEntries rest := by
          split
          · rw [Nat.zero_add]; exact mul_length_le _
          · exact ih.object _ _ _ _ _ (by omega) (by omega)
        cases v with
        | prim p => simp only [nodes]; omega
        | arr items =>
          simp only [width] at hw
          have h1 := items_compares ih.item items (depth + 2) (by omega)
          have h2 := array_compares (stack := s) (items := items) (W := W)
            (c := if isArrayOfPrims items then 0 else (items.map fun v => itemCompares opts s v (depth + 2)).sum) (by omega)
            (by split <;> omega)
          simp only [nodes, Nat.mul_add, Nat.mul_one]
          refine Nat.le_trans (Nat.add_le_add_right (Nat.add_le_add_right h2 _) _) ?_
          omega
        | obj es =>
          simp only [width] at hw
          simp only [nodes, Nat.mul_add, Nat.mul_one]
          by_cases he : es.isEmpty = true
          · simp only [he, if_true]; omega
          · simp only [he, if_false, Bool.false_eq_true]
            have := ih.object es (depth + 2) none none none (by omega) (by omega)
            omega

mutual
theorem width_normalize (v : Json F) : width (normalize v) = width v := by
  match v with
  | .prim p => rw [normalize, width, width]
  | .arr items => rw [normalize, width, width, widthItems_normalize items]
  | .obj es => rw [normalize, width, width, widthEntries_normalize es, normalizeEntries_count es]
theorem widthItems_normalize (vs : List (Json F)) : widthItems (normalizeItems vs) = widthItems vs := by
  match vs with
  | [] => rfl
  | v :: vs => rw [normalizeItems, widthItems, widthItems, width_normalize v, widthItems_normalize vs]
theorem widthEntries_normalize (es : List (Str × Json F)) : widthEntries (normalizeEntries es) = widthEntries es := by
  match es with
  | [] => rfl
  | (k, v) :: es => rw [normalizeEntries, widthEntries, widthEntries, width_normalize v, widthEntries_normalize es]
theorem normalizeEntries_count (es : List (Str × Json F)) : (normalizeEntries es).length = es.length := by
  match es with
  | [] => rfl
  | (k, v) :: es => rw [normalizeEntries, List.length_cons, List.length_cons, normalizeEntries_count es]
end

theorem encodeCompares_le (stack : Nat) (v : Json F) : encodeCompares opts stack v ≤ 2 * width v * nodes v := by
  have hval : ∀ stack (v : Json F), valueCompares opts stack v ≤ 2 * width v * nodes v := by
    intro stack v
    cases stack with
    | zero => exact Nat.zero_le _
    | succ s =>
      rw [valueCompares.eq_def]
      match v with
      | .prim p => exact Nat.zero_le _
      | .arr items =>
        have := (compares (opts := opts) (W := width (.arr items)) s).array items 0 (by rw [width]; exact Nat.le_refl _)
        simp only [nodes, Nat.mul_add, Nat.mul_one]
        omega
      | .obj es =>
        have := (compares (opts := opts) (W := width (.obj es)) s).object es 0 none none none (by rw [width]; omega) (by rw [width]; omega)
        simp only [nodes, Nat.mul_add, Nat.mul_one]
        omega
  cases stack with
  | zero => exact Nat.zero_le _
  | succ s =>
    rw [encodeCompares, ← width_normalize v, ← nodes_normalize v]
    exact hval s _

end

end Toon
