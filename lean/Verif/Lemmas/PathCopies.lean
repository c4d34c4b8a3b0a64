import Verif.Model.PathCopies
import Verif.Spec.PathCopies
import Verif.Lemmas.Copies

/-! How many characters of paths the encoder copies, from above. -/

namespace Toon

section
variable {F : Type}

/-- What stands before a key. -/
def aheadOf : Option Str → Nat
  | none => 0
  | some p => p.length + 1

theorem extendPath_length (pp : Option Str) (key : Str) : (extendPath pp key).length = aheadOf pp + key.length := by
  cases pp with
  | none => simp [extendPath, aheadOf]
  | some p => simp [extendPath, aheadOf]; omega

theorem joinWith_cons_length (c : Char) (k : Str) (ks : List Str) :
    (joinWith c (k :: ks)).length = k.length + (ks.map fun s => s.length + 1).sum := by
  induction ks generalizing k with
  | nil => simp [joinWith]
  | cons s ks ih =>
    rw [joinWith]
    · rw [List.length_append, List.length_cons, ih, List.map_cons, List.sum_cons]
      omega
    · simp

theorem collectChain_path (budget : Nat) (v : Json F) :
    ((collectChain budget v).1.map fun s => s.length + 1).sum + longestPath (collectChain budget v).2 ≤ longestPath v := by
  fun_induction collectChain budget v with
  | case1 v => simp
  | case2 budget k v segs leaf hc ih =>
    simp only [hc] at ih
    simp only [longestPath, longestPathEntries, List.map_cons, List.sum_cons]
    omega
  | case3 => simp

theorem tryFold_key {key : Str} {value : Json F} {siblings : List Str} {opts : EncOpts} {rlk : Option (List Str)} {pp : Option Str}
    {fd : Nat} {r : FoldResult F} (h : tryFold key value siblings opts rlk pp fd = some r) :
    r.foldedKey = joinWith '.' (key :: (collectChain (fd - 1) value).1) := by
  unfold tryFold at h
  simp only at h
  split at h; contradiction
  split at h; contradiction
  split at h; contradiction
  split at h; contradiction
  split at h; contradiction
  split at h; contradiction
  split at h
  · split at h
    · contradiction
    · simp only [Option.some.injEq] at h; subst h; rfl
  · simp only [Option.some.injEq] at h; subst h; rfl

theorem tryFold_path {key : Str} {value : Json F} {siblings : List Str} {opts : EncOpts} {rlk : Option (List Str)} {pp : Option Str}
    {fd : Nat} {r : FoldResult F} (h : tryFold key value siblings opts rlk pp fd = some r) :
    r.foldedKey.length + longestPath r.leaf ≤ key.length + longestPath value := by
  rw [tryFold_key h, (tryFold_leaf h).2.2.2, joinWith_cons_length]
  have := collectChain_path (fd - 1) value
  omega

/-- How many paths are put together for an entry, apart from those for a set of the keys of the root. -/
def pathRate (opts : EncOpts) : Nat := if opts.fold then 5 else 1

theorem foldPaths_off {opts : EncOpts} (hf : opts.fold = false) (key : Str) (value : Json F) (siblings : List Str) (pp : Option Str)
    (fd : Nat) : foldPaths opts key value siblings pp fd = 0 := by
  unfold foldPaths
  simp [hf]

theorem foldPaths_le (opts : EncOpts) (key : Str) (value : Json F) (siblings : List Str) (pp : Option Str) (fd L : Nat)
    (h : aheadOf pp + key.length + 1 + longestPath value ≤ L) : foldPaths opts key value siblings pp fd ≤ 3 * L := by
  have := collectChain_path (fd - 1) value
  unfold foldPaths
  split; · exact Nat.zero_le _
  split; · exact Nat.zero_le _
  split; · exact Nat.zero_le _
  simp only
  split; · omega
  split; · omega
  have hj := joinWith_cons_length '.' key (collectChain (fd - 1) value).1
  split
  · omega
  · cases pp with
    | none => simp only [aheadOf] at h; simp only; omega
    | some p =>
      simp only
      rw [extendPath_length]
      omega

theorem rootPaths_le (depth : Nat) (rlk : Option (List Str)) (L : Nat) (keys : List Str) (h : ∀ k ∈ keys, k.length ≤ L) :
    rootPaths depth rlk keys ≤ L * keys.length := by
  unfold rootPaths
  split
  · induction keys with
    | nil => simp
    | cons k ks ih =>
      have ih := ih fun k hk => h k (by simp [hk])
      have := h k (by simp)
      rw [List.length_cons, Nat.mul_succ, List.filter_cons]
      split
      · rw [List.map_cons, List.sum_cons]; omega
      · omega
  · exact Nat.zero_le _

theorem key_le_longest {es : List (Str × Json F)} {e : Str × Json F} (h : e ∈ es) :
    e.1.length + 1 + longestPath e.2 ≤ longestPathEntries es := by
  induction es with
  | nil => simp at h
  | cons x xs ih =>
    obtain ⟨k, x⟩ := x
    rw [longestPathEntries]
    rcases List.mem_cons.1 h with rfl | h
    · simp only; omega
    · have := ih h; omega

variable [F64 F] (opts : EncOpts) (L : Nat)

/-- The bounds for the functions. -/
structure PathBounds (stack : Nat) : Prop where
  object : ∀ (es : List (Str × Json F)) depth rlk pp rem, aheadOf pp + longestPathEntries es ≤ L →
    objectPaths opts stack es depth rlk pp rem ≤ (pathRate opts + 1) * L * nodesEntries es
  pair : ∀ siblings rlk pp fd key (v : Json F) depth, aheadOf pp + key.length + 1 + longestPath v ≤ L →
    pairPaths opts stack siblings rlk pp fd key v depth + L ≤ (pathRate opts + 1) * L * nodes v
  array : ∀ (items : List (Json F)) depth, longestPathItems items ≤ L →
    arrayPaths opts stack items depth ≤ (pathRate opts + 1) * L * nodesItems items
  mixed : ∀ (items : List (Json F)) depth, longestPathItems items ≤ L →
    mixedPaths opts stack items depth ≤ (pathRate opts + 1) * L * nodesItems items
  item : ∀ (v : Json F) depth, longestPath v ≤ L → itemPaths opts stack v depth ≤ (pathRate opts + 1) * L * nodes v
  objectItem : ∀ (es : List (Str × Json F)) depth, longestPathEntries es ≤ L →
    objectItemPaths opts stack es depth ≤ (pathRate opts + 1) * L * nodesEntries es

variable {opts L}

omit [F64 F] in
theorem items_paths {C stack : Nat} (hi : ∀ (v : Json F) depth, longestPath v ≤ L → itemPaths opts stack v depth ≤ C * nodes v)
    (items : List (Json F)) (depth : Nat) (h : longestPathItems items ≤ L) :
    (items.map fun v => itemPaths opts stack v depth).sum ≤ C * nodesItems items := by
  induction items with
  | nil => exact Nat.zero_le _
  | cons v vs ih =>
    rw [longestPathItems] at h
    have ih := ih (by omega)
    have hv := hi v depth (by omega)
    rw [List.map_cons, List.sum_cons, nodesItems, Nat.mul_add]
    omega

theorem pathBounds (stack : Nat) : PathBounds (F := F) opts L stack := by
  have hC : (pathRate opts + 1) * L = pathRate opts * L + L := by rw [Nat.add_mul, Nat.one_mul]
  induction stack with
  | zero =>
    constructor
    · intros; rw [objectPaths]; exact Nat.zero_le _
    · intro siblings rlk pp fd key v depth _
      rw [pairPaths, Nat.zero_add]
      have := Nat.le_mul_of_pos_right ((pathRate opts + 1) * L) (nodes_pos v)
      omega
    · intros; rw [arrayPaths]; exact Nat.zero_le _
    · intros; rw [mixedPaths]; exact Nat.zero_le _
    · intros; rw [itemPaths]; exact Nat.zero_le _
    · intros; rw [objectItemPaths]; exact Nat.zero_le _
  | succ s ih =>
    generalize hc : (pathRate opts + 1) * L = C at *
    constructor
    · intro es depth rlk pp rem hl
      rw [hc]
      rw [objectPaths]
      have key : ∀ (siblings : List Str) rlk fd (fs : List (Str × Json F)), aheadOf pp + longestPathEntries fs ≤ L →
          (fs.map fun e => pairPaths opts s siblings rlk pp fd e.1 e.2 depth).sum + L * fs.length ≤ C * nodesEntries fs := by
        intro siblings rlk fd fs hf
        induction fs with
        | nil => exact Nat.zero_le _
        | cons f fs ihf =>
          obtain ⟨k, v⟩ := f
          rw [longestPathEntries] at hf
          have h1 := ihf (by omega)
          have h2 := ih.pair siblings rlk pp fd k v depth (by omega)
          rw [hc] at h2
          rw [List.map_cons, List.sum_cons, nodesEntries, List.length_cons, Nat.mul_succ, Nat.mul_add C]
          simp only at h1 ⊢
          omega
      have h1 := key (es.map Prod.fst) (rootLiterals depth rlk (es.map Prod.fst)) (rem.getD opts.flattenDepth) es hl
      have h2 := rootPaths_le depth rlk L (es.map Prod.fst) (by
        intro k hk
        obtain ⟨e, he, rfl⟩ := List.mem_map.1 hk
        have := key_le_longest he
        omega)
      rw [List.length_map] at h2
      omega
    · intro siblings rlk pp fd key v depth hl
      rw [hc]
      rw [pairPaths.eq_def]
      simp only
      have hex := extendPath_length pp key
      have hpos := Nat.le_mul_of_pos_right C (nodes_pos v)
      cases hf : tryFold key v siblings opts rlk pp fd with
      | some folded =>
        have hrate : pathRate opts = 5 := by rw [pathRate, (tryFold_leaf hf).1]; rfl
        rw [hrate] at hC
        have hfold := foldPaths_le opts key v siblings pp fd L hl
        have hlow := (tryFold_lower hf).2
        have hmul := Nat.mul_le_mul_left C hlow
        have hpath := tryFold_path hf
        have hex2 := extendPath_length pp folded.foldedKey
        simp only
        cases hleaf : folded.leaf with
        | prim p => simp only; omega
        | arr items =>
          rw [hleaf] at hmul hpath
          simp only [nodes, Nat.mul_add, Nat.mul_one] at hmul
          rw [longestPath] at hpath
          have := ih.array items depth (by omega)
          rw [hc] at this
          simp only
          omega
        | obj es =>
          rw [hleaf] at hmul hpath
          simp only [nodes, Nat.mul_add, Nat.mul_one] at hmul
          rw [longestPath] at hpath
          simp only
          split
          · omega
          · rename_i hne
            have hpos : 0 < longestPathEntries es := by
              cases es with
              | nil => simp at hne
              | cons e es => obtain ⟨k, x⟩ := e; rw [longestPathEntries]; omega
            have := ih.object es (depth + 1) rlk (some (extendPath pp folded.foldedKey)) (some (fd - folded.segmentCount))
              (by rw [aheadOf, hex2]; omega)
            rw [hc] at this
            omega
      | none =>
        have hfold : foldPaths opts key v siblings pp fd + 2 * L ≤ pathRate opts * L + L := by
          cases ho : opts.fold with
          | false =>
            rw [foldPaths_off ho]
            simp only [pathRate, ho, Bool.false_eq_true, if_false]
            omega
          | true =>
            have := foldPaths_le opts key v siblings pp fd L hl
            simp only [pathRate, ho, if_true]
            omega
        simp only
        cases v with
        | prim p => simp only; omega
        | arr items =>
          rw [longestPath] at hl
          have := ih.array items depth (by omega)
          rw [hc] at this
          simp only [nodes, Nat.mul_add, Nat.mul_one]
          omega
        | obj es =>
          rw [longestPath] at hl
          simp only [nodes, Nat.mul_add, Nat.mul_one]
          split
          · omega
          · have := ih.object es (depth + 1) rlk (some (extendPath pp key)) (some fd) (by rw [aheadOf, hex]; omega)
            rw [hc] at this
            omega
    · intro items depth h
      rw [hc]
      rw [arrayPaths]
      split; · exact Nat.zero_le _
      split; · exact Nat.zero_le _
      split; · exact Nat.zero_le _
      cases hh : (if isArrayOfObjs items then extractTabularHeader items else none) with
      | none => exact hc ▸ ih.mixed items depth h
      | some header => exact Nat.zero_le _
    · intro items depth h
      rw [hc]
      rw [mixedPaths]
      exact hc ▸ items_paths ih.item _ _ h
    · intro v depth h
      rw [hc]
      match v with
      | .prim p => rw [itemPaths]; exact Nat.zero_le _
      | .arr items =>
        rw [itemPaths]
        rw [longestPath] at h
        have := items_paths ih.item items (depth + 1) h
        rw [hc] at this
        simp only [nodes, Nat.mul_add, Nat.mul_one]
        split <;> omega
      | .obj es =>
        rw [itemPaths]
        rw [longestPath] at h
        have := ih.objectItem es depth h
        rw [hc] at this
        simp only [nodes, Nat.mul_add, Nat.mul_one]
        omega
    · intro es depth hl
      rw [hc]
      match es with
      | [] => rw [objectItemPaths]; exact Nat.zero_le _
      | (k, v) :: rest =>
        rw [longestPathEntries] at hl
        rw [objectItemPaths.eq_def]
        simp only [nodesEntries, Nat.mul_add C]
        refine Nat.add_le_add ?_ ?_
        · cases v with
          | prim p => exact Nat.zero_le _
          | arr items =>
            simp only [longestPath] at hl
            have h1 := items_paths ih.item items (depth + 2) (by omega)
            rw [hc] at h1
            simp only [nodes, Nat.mul_add, Nat.mul_one]
            split
            · exact Nat.zero_le _
            · split <;> omega
          | obj es =>
            simp only [longestPath] at hl
            simp only [nodes, Nat.mul_add, Nat.mul_one]
            by_cases he : es.isEmpty = true
            · simp only [he, if_true]; omega
            · simp only [he, if_false, Bool.false_eq_true]
              have := ih.object es (depth + 2) none none none (by simp only [aheadOf]; omega)
              rw [hc] at this
              omega
        · split
          · exact Nat.zero_le _
          · exact hc ▸ ih.object _ _ _ _ _ (by simp only [aheadOf]; omega)

mutual
theorem longestPath_normalize (v : Json F) : longestPath (normalize v) = longestPath v := by
  match v with
  | .prim p => rw [normalize, longestPath, longestPath]
  | .arr items => rw [normalize, longestPath, longestPath, longestPathItems_normalize items]
  | .obj es => rw [normalize, longestPath, longestPath, longestPathEntries_normalize es]
theorem longestPathItems_normalize (vs : List (Json F)) : longestPathItems (normalizeItems vs) = longestPathItems vs := by
  match vs with
  | [] => rfl
  | v :: vs => rw [normalizeItems, longestPathItems, longestPathItems, longestPath_normalize v, longestPathItems_normalize vs]
theorem longestPathEntries_normalize (es : List (Str × Json F)) : longestPathEntries (normalizeEntries es) = longestPathEntries es := by
  match es with
  | [] => rfl
  | (k, v) :: es => rw [normalizeEntries, longestPathEntries, longestPathEntries, longestPath_normalize v, longestPathEntries_normalize es]
end

theorem encodePaths_le (opts : EncOpts) (stack : Nat) (v : Json F) :
    encodePaths opts stack v ≤ (pathRate opts + 1) * longestPath v * nodes v := by
  have hval : ∀ stack (v : Json F), valuePaths opts stack v ≤ (pathRate opts + 1) * longestPath v * nodes v := by
    intro stack v
    cases stack with
    | zero => exact Nat.zero_le _
    | succ s =>
      rw [valuePaths.eq_def]
      match v with
      | .prim p => exact Nat.zero_le _
      | .arr items =>
        have := (pathBounds (opts := opts) (L := longestPath (.arr items)) s).array items 0 (by rw [longestPath]; exact Nat.le_refl _)
        simp only [nodes, Nat.mul_add _ 1, Nat.mul_one]
        omega
      | .obj es =>
        have := (pathBounds (opts := opts) (L := longestPath (.obj es)) s).object es 0 none none none
          (by rw [longestPath, aheadOf]; omega)
        simp only [nodes, Nat.mul_add _ 1, Nat.mul_one]
        omega
  cases stack with
  | zero => exact Nat.zero_le _
  | succ s =>
    rw [encodePaths, ← longestPath_normalize v, ← nodes_normalize v]
    exact hval s _

end

end Toon
