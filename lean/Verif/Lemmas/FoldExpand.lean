import Verif.Lemmas.ExpandFresh
import Verif.Lemmas.Brace

/-! Expansion undoes folding. -/

namespace Toon

section
variable {F : Type}

/-! ## Values without dotted keys -/

mutual
theorem allKeys_treeOf {P : Str → Prop} (v : Json F) (h : AllKeys P v) : (treeOf v).AllKeys (fun k q => q = true ∨ P k) := by
  match v with
  | .prim p => simp only [treeOf, ETree.AllKeys]
  | .arr items => simp only [AllKeys] at h; simp only [treeOf, ETree.AllKeys]; exact allKeysItems_treesOf items h
  | .obj es => simp only [AllKeys] at h; simp only [treeOf, ETree.AllKeys]; exact allKeysEntries_treeEntries es h
theorem allKeysItems_treesOf {P : Str → Prop} (vs : List (Json F)) (h : AllKeysItems P vs) :
    ETree.AllKeysItems (fun k q => q = true ∨ P k) (treesOf vs) := by
  match vs with
  | [] => simp only [treesOf, ETree.AllKeysItems]
  | v :: vs =>
    simp only [AllKeysItems] at h
    simp only [treesOf, ETree.AllKeysItems]
    exact ⟨allKeys_treeOf v h.1, allKeysItems_treesOf vs h.2⟩
theorem allKeysEntries_treeEntries {P : Str → Prop} (es : List (Str × Json F)) (h : AllKeysEntries P es) :
    ETree.AllKeysEntries (fun k q => q = true ∨ P k) (treeEntries es) := by
  match es with
  | [] => simp only [treeEntries, ETree.AllKeysEntries]
  | (k, v) :: es =>
    simp only [AllKeysEntries] at h
    simp only [treeEntries, ETree.AllKeysEntries]
    exact ⟨Or.inr h.1, allKeys_treeOf v h.2.1, allKeysEntries_treeEntries es h.2.2⟩
end

theorem expand_plain (strict : Bool) (v : Json F) (d : Nat) (hd : DistinctKeys v) (hk : NoDottedKeys v) :
    Outcome (height v) d (expandInner strict (treeOf v).node d) (plainNode v) := by
  have := expand_literal (strict := strict) (treeOf v) d (by rwa [json_treeOf]) (allKeys_treeOf v hk)
  rwa [json_treeOf] at this

/-! ## Arrays written without folding -/

theorem allKeysItems_prims {P : Str → Prop} {items : List (Json F)} (h : isArrayOfPrims items = true) : AllKeysItems P items := by
  induction items with
  | nil => trivial
  | cons v vs ih =>
    simp only [isArrayOfPrims, List.all_cons, Bool.and_eq_true] at h
    cases v with
    | prim p => exact ⟨trivial, ih h.2⟩
    | arr _ => simp [Json.isPrim] at h
    | obj _ => simp [Json.isPrim] at h

theorem zipRow_sublist (cols : List Str) (ps : List (Prim F)) : ((zipRow cols ps).map Prod.fst).Sublist cols := by
  induction cols generalizing ps with
  | nil => simp [zipRow]
  | cons c cols ih =>
    cases ps with
    | nil => simp [zipRow]
    | cons p ps => simp only [zipRow, List.map_cons]; exact (ih ps).cons_cons c

theorem distinct_of_prims {es : List (Str × Json F)} (h : ∀ e ∈ es, ∃ p, e.2 = .prim p) : DistinctKeysEntries es := by
  induction es with
  | nil => trivial
  | cons e es ih =>
    obtain ⟨k, v⟩ := e
    obtain ⟨p, hp⟩ := h (k, v) (by simp)
    simp only at hp
    subst hp
    exact ⟨trivial, ih (fun e he => h e (by simp [he]))⟩

theorem allKeys_of_prims {P : Str → Prop} {es : List (Str × Json F)} (h : ∀ e ∈ es, ∃ p, e.2 = .prim p)
    (hk : ∀ k ∈ es.map Prod.fst, P k) : AllKeysEntries P es := by
  induction es with
  | nil => trivial
  | cons e es ih =>
    obtain ⟨k, v⟩ := e
    obtain ⟨p, hp⟩ := h (k, v) (by simp)
    simp only at hp
    subst hp
    exact ⟨hk k (by simp), trivial, ih (fun e he => h e (by simp [he])) (fun k' hk' => hk k' (List.mem_cons_of_mem _ hk'))⟩

theorem height_of_prims {es : List (Str × Json F)} (h : ∀ e ∈ es, ∃ p, e.2 = .prim p) : heightEntries es = 0 := by
  induction es with
  | nil => rfl
  | cons e es ih =>
    obtain ⟨k, v⟩ := e
    obtain ⟨p, hp⟩ := h (k, v) (by simp)
    simp only at hp
    subst hp
    simp only [heightEntries, height, ih (fun e he => h e (by simp [he]))]
    omega

theorem mem_keys_allKeys {P : Str → Prop} {es : List (Str × Json F)} (h : AllKeysEntries P es) : ∀ k ∈ es.map Prod.fst, P k := by
  induction es with
  | nil => simp
  | cons e es ih =>
    obtain ⟨k, v⟩ := e
    simp only [AllKeysEntries] at h
    intro k' hk'
    rcases List.mem_cons.mp hk' with rfl | hk'
    · exact h.1
    · exact ih h.2.2 k' hk'

theorem distinctItems_of {vs : List (Json F)} (h : ∀ v ∈ vs, DistinctKeys v) : DistinctKeysItems vs := by
  induction vs with
  | nil => trivial
  | cons v vs ih => exact ⟨h v (by simp), ih (fun w hw => h w (by simp [hw]))⟩

theorem allKeysItems_of {P : Str → Prop} {vs : List (Json F)} (h : ∀ v ∈ vs, AllKeys P v) : AllKeysItems P vs := by
  induction vs with
  | nil => trivial
  | cons v vs ih => exact ⟨h v (by simp), ih (fun w hw => h w (by simp [hw]))⟩

theorem heightItems_of {vs : List (Json F)} {n : Nat} (h : ∀ v ∈ vs, height v ≤ n) : heightItems vs ≤ n := by
  induction vs with
  | nil => simp [heightItems]
  | cons v vs ih =>
    have h1 := h v (by simp)
    have h2 := ih (fun w hw => h w (by simp [hw]))
    simp only [heightItems]
    omega

/-- The rows of a table: distinct keys, keys of the first item, no nesting. -/
theorem tableRows_facts {P : Str → Prop} {items : List (Json F)} {cols : List Str} (h : tableHeader items = some cols)
    (hd : DistinctKeysItems items) (hk : AllKeysItems P items) :
    DistinctKeysItems (tableRows items cols) ∧ AllKeysItems P (tableRows items cols) ∧
      heightItems (tableRows items cols) ≤ heightItems items := by
  obtain ⟨_, _, es, rest, rfl, rfl⟩ := tableHeader_some h
  simp only [DistinctKeysItems, DistinctKeys, AllKeysItems, AllKeys] at hd hk
  have hrow : ∀ r ∈ tableRows (.obj es :: rest) (es.map Prod.fst), ∃ ps, r = .obj (zipRow (es.map Prod.fst) ps) := by
    intro r hr
    rw [tableRows_eq] at hr
    obtain ⟨ps, _, rfl⟩ := List.mem_map.mp hr
    exact ⟨ps, rfl⟩
  refine ⟨distinctItems_of ?_, allKeysItems_of ?_, heightItems_of ?_⟩
  · intro r hr
    obtain ⟨ps, rfl⟩ := hrow r hr
    exact ⟨(zipRow_sublist _ ps).nodup hd.1.1, distinct_of_prims (zipRow_prims _ ps)⟩
  · intro r hr
    obtain ⟨ps, rfl⟩ := hrow r hr
    exact allKeys_of_prims (zipRow_prims _ ps) (fun k hk' => mem_keys_allKeys hk.1 k ((zipRow_sublist _ ps).subset hk'))
  · intro r hr
    obtain ⟨ps, rfl⟩ := hrow r hr
    simp only [height, height_of_prims (zipRow_prims _ ps), heightItems]
    omega

/-! ## Chains -/

theorem collectChain_facts {P : Str → Prop} (budget : Nat) (v : Json F) (hd : DistinctKeys v) (hk : AllKeys P v) :
    DistinctKeys (collectChain budget v).2 ∧ AllKeys P (collectChain budget v).2 := by
  fun_induction collectChain budget v with
  | case1 v => exact ⟨hd, hk⟩
  | case2 budget k v segs leaf hc ih =>
    simp only [hc] at ih ⊢
    simp only [DistinctKeys, DistinctKeysEntries, AllKeys, AllKeysEntries] at hd hk
    exact ih hd.2.1 hk.2.1
  | case3 => exact ⟨hd, hk⟩

theorem collectChain_nest (budget : Nat) (v : Json F) :
    plainNode (canon true v) = nest (collectChain budget v).1 (plainNode (canon true (collectChain budget v).2)) ∧
      height v = height (collectChain budget v).2 + (collectChain budget v).1.length := by
  fun_induction collectChain budget v with
  | case1 v => exact ⟨rfl, rfl⟩
  | case2 budget k v segs leaf hc ih =>
    simp only [hc] at ih ⊢
    obtain ⟨h1, h2⟩ := ih
    refine ⟨?_, by simp only [height, heightEntries, List.length_cons]; omega⟩
    rw [canon]
    simp only [canonEntries, plainNode, plainEntries, nest, h1]
  | case3 => exact ⟨rfl, rfl⟩

theorem quotedKeys_valid (es : List (Str × Json F)) : ∀ k ∈ ETree.quotedKeys (treeEntries es) [], isValidUnquotedKey k = false := by
  intro k hk
  rw [mem_quotedKeys] at hk
  rcases hk with hk | ⟨t, ht⟩
  · simp at hk
  · induction es with
    | nil => simp [treeEntries] at ht
    | cons e es ih =>
      obtain ⟨k', v⟩ := e
      simp only [treeEntries, List.mem_cons, Prod.mk.injEq] at ht
      rcases ht with ⟨rfl, h, _⟩ | ht
      · simpa using h.symm
      · exact ih ht

/-! ## The theorem -/

/-- The conditions on a list of entries. -/
def FoldOk (es : List (Str × Json F)) : Prop :=
  (es.map Prod.fst).Nodup ∧ DistinctKeysEntries es ∧ AllKeysEntries (fun k => ¬ DottedPath k) es

mutual
theorem fe_object {opts : EncOpts} {strict : Bool} (entries : List (Str × Json F)) (depth : Nat) (rlk : Option (List Str))
    (pp : Option Str) (rem : Option Nat) (d : Nat) (hg : FoldOk entries) :
    Outcome (heightEntries entries + 1) d
      (expandInner strict (treeOf (.obj (shapeObject opts entries depth rlk pp rem))).node d)
      (plainNode (.obj (canonEntries entries))) := by
  rw [shapeObject]
  simp only [treeOf, ETree.node, plainNode]
  exact outcome_obj (fe_entries _ _ _ _ entries depth d _ (quotedKeys_valid _) _ (Nat.le_refl _) hg.2.1 hg.2.2)
    (by rw [plainEntries_keys, canonEntries_keys]; exact hg.1)
termination_by (sizeOf entries, 3)

theorem fe_entries {opts : EncOpts} {strict : Bool} (siblings : List Str) (rlk : Option (List Str))
    (pp : Option Str) (fd : Nat) (entries : List (Str × Json F)) (depth d : Nat) (quoted : List Str)
    (hq : ∀ k ∈ quoted, isValidUnquotedKey k = false) (h : Nat) (hh : heightEntries entries ≤ h)
    (hd : DistinctKeysEntries entries) (hk : AllKeysEntries (fun k => ¬ DottedPath k) entries) :
    Pointwise (EntryOut strict quoted (d + 1) (254 < 2 * (h + 1) + d))
      (ETree.nodeEntries (treeEntries (shapeEntries opts siblings rlk pp fd entries depth)))
      (plainEntries (canonEntries entries)) := by
  match entries with
  | [] => rw [shapeEntries]; exact .nil
  | (k, v) :: rest =>
    simp only [DistinctKeysEntries, AllKeysEntries, heightEntries] at hd hk hh
    rw [shapeEntries, shapeKeyValue_eq]
    simp only [canonEntries, plainEntries]
    have hrest := fe_entries (opts := opts) (strict := strict) siblings rlk pp fd rest depth d quoted hq h (by omega) hd.2 hk.2.2
    rcases hr : tryFold k v siblings opts rlk pp fd with _ | r
    · simp only [treeEntries, ETree.nodeEntries]
      exact .cons (entryOut_literal (fe_entry rlk _ fd v depth (d + 2) hd.1 hk.2.1)
        (expandSegments_iff.mpr (Or.inl hk.1)) (by omega)) hrest
    · simp only [treeEntries, ETree.nodeEntries]
      have hlt := tryFold_size hr
      obtain ⟨_, _, h2, hid, hne, hfk, hlf, _, _, _⟩ := tryFold_some hr
      obtain ⟨hn1, hn2⟩ := collectChain_nest (fd - 1) v
      obtain ⟨hc1, hc2⟩ := collectChain_facts (fd - 1) v hd.1 hk.2.1
      rw [← hlf] at hn1 hn2 hc1 hc2
      rw [hn1]
      refine .cons (entryOut_path (hv := height r.leaf) (fe_entry rlk _ _ r.leaf depth (d + 2) hc1 hc2) ?_ (by omega)) hrest
      rw [hfk]
      apply expandSegments_joined
      · simp only [List.length_cons]
        have := List.length_pos_iff.mpr hne
        omega
      · exact hid
      · intro hm
        have := hq _ hm
        rw [joined_valid (by simp) hid] at this
        simp at this
termination_by (sizeOf entries, 2)

theorem fe_entry {opts : EncOpts} {strict : Bool} (rlk : Option (List Str)) (path : Str) (fd : Nat)
    (value : Json F) (depth d : Nat) (hd : DistinctKeys value) (hk : NoDottedKeys value) :
    Outcome (height value) d (expandInner strict (treeOf (shapeEntry opts rlk path fd value depth)).node d)
      (plainNode (canon true value)) := by
  match value with
  | .prim p => simp only [shapeEntry, canon]; exact expand_plain strict _ d trivial trivial
  | .arr items =>
    rw [canon_arr]
    simp only [shapeEntry]
    exact fe_array items d hd hk
  | .obj es =>
    simp only [shapeEntry, canon]
    simp only [DistinctKeys, NoDottedKeys, AllKeys] at hd hk
    exact fe_object es (depth + 1) rlk (some path) (some fd) d ⟨hd.1, hd.2, hk⟩
termination_by (sizeOf value, 0)

theorem fe_array {opts : EncOpts} {strict : Bool} (items : List (Json F)) (d : Nat)
    (hd : DistinctKeysItems items) (hk : AllKeysItems (fun k => ¬ DottedPath k) items) :
    Outcome (heightItems items + 1) d (expandInner strict (treeOf (.arr (shapeArray opts items))).node d)
      (plainNode (.arr (canonArr items))) := by
  rw [shapeArray, canonArr]
  split
  · rename_i h
    rw [tableHeader_prims h]
    simp only [canonItems_prims h]
    have := expand_plain strict (.arr items) d hd hk
    exact this
  · cases ht : tableHeader items with
    | some cols =>
      obtain ⟨h1, h2, h3⟩ := tableRows_facts ht hd hk
      exact (expand_plain strict (.arr (tableRows items cols)) d h1 h2).mono (by simp only [height]; omega)
    | none =>
      simp only [treeOf, ETree.node, plainNode]
      exact outcome_arr (fe_items items (d + 1) _ (Nat.le_refl _) hd hk)
termination_by (sizeOf items, 4)

theorem fe_items {opts : EncOpts} {strict : Bool} (items : List (Json F)) (d h : Nat) (hh : heightItems items ≤ h)
    (hd : DistinctKeysItems items) (hk : AllKeysItems (fun k => ¬ DottedPath k) items) :
    Pointwise (fun n r => Outcome h d (expandInner strict n d) r)
      (ETree.nodeItems (treesOf (shapeItems opts items))) (plainNodes (canonItems items)) := by
  match items with
  | [] => rw [shapeItems]; exact .nil
  | v :: vs =>
    simp only [DistinctKeysItems, AllKeysItems, heightItems] at hd hk hh
    rw [shapeItems]
    simp only [treesOf, ETree.nodeItems, canonItems, plainNodes]
    exact .cons ((fe_item v d hd.1 hk.1).mono (by omega)) (fe_items vs d h (by omega) hd.2 hk.2)
termination_by (sizeOf items, 3)

theorem fe_item {opts : EncOpts} {strict : Bool} (value : Json F) (d : Nat) (hd : DistinctKeys value)
    (hk : NoDottedKeys value) :
    Outcome (height value) d (expandInner strict (treeOf (shapeItem opts value)).node d) (plainNode (canon false value)) := by
  match value with
  | .prim p => rw [shapeItem, canon]; exact expand_plain strict _ d trivial trivial
  | .arr items =>
    rw [shapeItem, canon]
    simp only [Bool.false_eq_true, if_false]
    split
    · rename_i h
      rw [canonItems_prims h]
      exact expand_plain strict (.arr items) d hd hk
    · simp only [treeOf, ETree.node, plainNode]
      exact outcome_arr (fe_items items (d + 1) _ (Nat.le_refl _) hd hk)
  | .obj es =>
    rw [shapeItem, canon]
    simp only [DistinctKeys, NoDottedKeys, AllKeys] at hd hk
    exact fe_objectItem es d ⟨hd.1, hd.2, hk⟩
termination_by (sizeOf value, 1)

theorem fe_objectItem {opts : EncOpts} {strict : Bool} (entries : List (Str × Json F)) (d : Nat) (hg : FoldOk entries) :
    Outcome (heightEntries entries + 1) d (expandInner strict (treeOf (.obj (shapeObjectItem opts entries))).node d)
      (plainNode (.obj (canonEntries entries))) := by
  match entries with
  | [] => rw [shapeObjectItem]; exact expand_plain strict (.obj []) d ⟨by simp, trivial⟩ trivial
  | (k, v) :: rest =>
    obtain ⟨hg1, hg2, hg3⟩ := hg
    simp only [DistinctKeysEntries, AllKeysEntries] at hg2 hg3
    rw [shapeObjectItem.eq_def]
    simp only [treeOf, ETree.node, plainNode]
    refine outcome_obj ?_ (by rw [plainEntries_keys, canonEntries_keys]; exact hg1)
    rw [shapeObject]
    generalize hqd : ETree.quotedKeys _ [] = quoted
    have hq : ∀ k ∈ quoted, isValidUnquotedKey k = false := by
      rw [← hqd]; exact quotedKeys_valid _
    simp only [canonEntries, plainEntries, treeEntries, ETree.nodeEntries]
    have hrest := fe_entries (opts := opts) (strict := strict) (rest.map Prod.fst) (rootLiterals 1 none (rest.map Prod.fst)) none
      ((none : Option Nat).getD opts.flattenDepth) rest 1 d quoted hq (heightEntries ((k, v) :: rest))
      (by simp only [heightEntries]; omega) hg2.2 hg3.2.2
    refine .cons (entryOut_literal (hv := height v) ?_ (expandSegments_iff.mpr (Or.inl hg3.1)) (by simp only [heightEntries]; omega)) hrest
    obtain ⟨hd, _⟩ := hg2
    obtain ⟨_, hk, _⟩ := hg3
    cases v with
    | prim p => simp only [canon]; exact expand_plain strict _ (d + 2) trivial trivial
    | arr items => rw [canon_arr]; exact fe_array items (d + 2) hd hk
    | obj es =>
      simp only [DistinctKeys, AllKeys] at hd hk
      rw [canon]
      exact fe_object es 1 none none none (d + 2) ⟨hd.1, hd.2, hk⟩
termination_by (sizeOf entries, 0)
end

theorem fold_expand {opts : EncOpts} {strict : Bool} (v : Json F) (hd : DistinctKeys v) (hk : NoDottedKeys v) :
    Outcome (height v) 0 (expandPathsSafe strict (treeOf (shape opts v)).node) (plainNode (canon true v)) := by
  unfold expandPathsSafe
  match v with
  | .prim p => simp only [shape, canon]; exact expand_plain strict _ 0 trivial trivial
  | .arr items => rw [canon_arr]; simp only [shape]; exact fe_array items 0 hd hk
  | .obj es =>
    simp only [shape, canon]
    simp only [DistinctKeys, NoDottedKeys, AllKeys] at hd hk
    exact fe_object es 0 none none none 0 ⟨hd.1, hd.2, hk⟩

end

end Toon
