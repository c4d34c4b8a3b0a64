import Verif.Lemmas.FoldExpand

/-! Folding keeps the leaves, addressed by dotted paths, and the number and distinctness of entries. -/

namespace Toon

section
variable {F : Type}

/-! ## Leaves up to the way keys are joined -/

/-- The dotted paths of a leaf, at the start and inside a longer path. -/
def leafSig (x : List Step × Leaf F) : Str × Str × Leaf F := (renderPath true x.1, renderPath false x.1, x.2)

/-- The same leaves with the same dotted paths. -/
def LEq (xs ys : List (List Step × Leaf F)) : Prop := xs.map leafSig = ys.map leafSig

theorem LEq.append {a b c d : List (List Step × Leaf F)} (h1 : LEq a b) (h2 : LEq c d) : LEq (a ++ c) (b ++ d) := by
  unfold LEq at *
  rw [List.map_append, List.map_append, h1, h2]

/-- A step put in front. -/
def under (s : Step) (l : List (List Step × Leaf F)) : List (List Step × Leaf F) := l.map fun x => (s :: x.1, x.2)

theorem sig_under (s : Step) (l : List (List Step × Leaf F)) :
    (under s l).map leafSig = (l.map leafSig).map fun x => (renderStep true s ++ x.2.1, renderStep false s ++ x.2.1, x.2.2) := by
  induction l with
  | nil => rfl
  | cons x l ih =>
    simp only [under, List.map_cons] at ih ⊢
    rw [ih]
    rfl

theorem LEq.under {a b : List (List Step × Leaf F)} (s : Step) (h : LEq a b) : LEq (under s a) (under s b) := by
  unfold LEq at *
  rw [sig_under, sig_under, h]

theorem leavesEntries_cons (k : Str) (v : Json F) (es : List (Str × Json F)) :
    leavesEntries ((k, v) :: es) = under (.key k) (leaves v) ++ leavesEntries es := by
  rw [leavesEntries]; rfl

theorem leavesItems_cons (i : Nat) (v : Json F) (vs : List (Json F)) :
    leavesItems i (v :: vs) = under (.index i) (leaves v) ++ leavesItems (i + 1) vs := by
  rw [leavesItems]; rfl

theorem leq_obj {xs ys : List (Str × Json F)} (h : LEq (leavesEntries xs) (leavesEntries ys)) (he : xs = [] ↔ ys = []) :
    LEq (leaves (.obj xs)) (leaves (.obj ys)) := by
  match xs, ys with
  | [], [] => rfl
  | x :: xs, y :: ys => rw [leaves, leaves]; exact h
  | [], y :: ys => simp at he
  | x :: xs, [] => simp at he

theorem leq_arr {xs ys : List (Json F)} (h : LEq (leavesItems 0 xs) (leavesItems 0 ys)) (he : xs = [] ↔ ys = []) :
    LEq (leaves (.arr xs)) (leaves (.arr ys)) := by
  match xs, ys with
  | [], [] => rfl
  | x :: xs, y :: ys => rw [leaves, leaves]; exact h
  | [], y :: ys => simp at he
  | x :: xs, [] => simp at he

theorem renderPath_dotted (b : Bool) (segs : List Str) (k : Str) (p : List Step) :
    renderPath b (.key (joinWith '.' (k :: segs)) :: p) = renderPath b (.key k :: (segs.map Step.key ++ p)) := by
  induction segs generalizing b k with
  | nil => rfl
  | cons s segs ih =>
    rw [joinWith_cons_ne]
    have := ih false s
    simp only [renderPath, renderStep, List.map_cons, List.cons_append] at this ⊢
    simp only [Bool.false_eq_true, if_false, List.cons_append, List.cons.injEq, true_and] at this
    cases b
    · simp only [Bool.false_eq_true, if_false, List.cons_append, List.append_assoc]
      rw [this]
    · simp only [if_true, Bool.false_eq_true, if_false, List.cons_append, List.append_assoc]
      rw [this]

theorem chain_leaves (budget : Nat) (v : Json F) :
    leaves (canon true v) = (leaves (canon true (collectChain budget v).2)).map
      fun x => ((collectChain budget v).1.map Step.key ++ x.1, x.2) := by
  fun_induction collectChain budget v with
  | case1 v => simp
  | case2 budget k v segs leaf hc ih =>
    simp only [hc] at ih ⊢
    rw [canon]
    simp only [canonEntries, leaves, leavesEntries, List.append_nil, ih, List.map_map]
    rfl
  | case3 => simp

theorem canonItems_nil {items : List (Json F)} : canonItems items = [] ↔ items = [] := by
  cases items <;> simp [canonItems]

theorem shapeItems_nil {opts : EncOpts} {items : List (Json F)} : shapeItems opts items = [] ↔ items = [] := by
  cases items with
  | nil => rw [shapeItems]
  | cons v vs => rw [shapeItems]; simp

theorem shapeEntries_nil {opts : EncOpts} {sib : List Str} {rlk : Option (List Str)} {pp : Option Str} {fd : Nat}
    {es : List (Str × Json F)} {depth : Nat} : shapeEntries opts sib rlk pp fd es depth = [] ↔ es = [] := by
  cases es with
  | nil => rw [shapeEntries]
  | cons v vs => obtain ⟨k, v⟩ := v; rw [shapeEntries]; simp

theorem canonEntries_nil {es : List (Str × Json F)} : canonEntries es = [] ↔ es = [] := by
  cases es with
  | nil => simp [canonEntries]
  | cons e es => obtain ⟨k, v⟩ := e; simp [canonEntries]

mutual
theorem fl_object {opts : EncOpts} (entries : List (Str × Json F)) (depth : Nat) (rlk : Option (List Str))
    (pp : Option Str) (rem : Option Nat) :
    LEq (leaves (.obj (shapeObject opts entries depth rlk pp rem))) (leaves (.obj (canonEntries entries))) := by
  rw [shapeObject]
  exact leq_obj (fl_entries _ _ _ _ entries depth) (by rw [shapeEntries_nil, canonEntries_nil])
termination_by (sizeOf entries, 3)

theorem fl_entries {opts : EncOpts} (siblings : List Str) (rlk : Option (List Str))
    (pp : Option Str) (fd : Nat) (entries : List (Str × Json F)) (depth : Nat) :
    LEq (leavesEntries (shapeEntries opts siblings rlk pp fd entries depth)) (leavesEntries (canonEntries entries)) := by
  match entries with
  | [] => rw [shapeEntries]; rfl
  | (k, v) :: rest =>
    rw [shapeEntries, shapeKeyValue_eq]
    simp only [canonEntries]
    rw [leavesEntries_cons]
    rcases hr : tryFold k v siblings opts rlk pp fd with _ | r
    · simp only
      rw [leavesEntries_cons]
      exact ((fl_entry rlk _ fd v depth).under _).append (fl_entries siblings rlk pp fd rest depth)
    · simp only
      rw [leavesEntries_cons]
      refine LEq.append ?_ (fl_entries siblings rlk pp fd rest depth)
      have hlt := tryFold_size hr
      obtain ⟨_, _, _, _, _, hfk, hlf, _, _, _⟩ := tryFold_some hr
      have hc := chain_leaves (fd - 1) v
      rw [← hlf] at hc
      rw [hc, hfk]
      have := (fl_entry (opts := opts) rlk (extendPath pp r.foldedKey) (fd - r.segmentCount) r.leaf depth).under
        (.key (joinWith '.' (k :: (collectChain (fd - 1) v).1)))
      rw [← hfk] at this ⊢
      refine Eq.trans this ?_
      rw [hfk]
      simp only [under, List.map_map]
      apply List.map_congr_left
      intro x _
      simp only [Function.comp, leafSig, renderPath_dotted]
termination_by (sizeOf entries, 2)

theorem fl_entry {opts : EncOpts} (rlk : Option (List Str)) (path : Str) (fd : Nat)
    (value : Json F) (depth : Nat) :
    LEq (leaves (shapeEntry opts rlk path fd value depth)) (leaves (canon true value)) := by
  match value with
  | .prim p => simp only [shapeEntry, canon]; rfl
  | .arr items =>
    rw [canon_arr]
    simp only [shapeEntry]
    exact fl_array items
  | .obj es =>
    simp only [shapeEntry, canon]
    exact fl_object es (depth + 1) rlk (some path) (some fd)
termination_by (sizeOf value, 0)

theorem fl_array {opts : EncOpts} (items : List (Json F)) :
    LEq (leaves (.arr (shapeArray opts items))) (leaves (.arr (canonArr items))) := by
  rw [shapeArray, canonArr]
  split
  · rename_i h
    rw [tableHeader_prims h]
    simp only [canonItems_prims h]
    rfl
  · cases ht : tableHeader items with
    | some cols => rfl
    | none => exact leq_arr (fl_items 0 items) (by rw [shapeItems_nil, canonItems_nil])
termination_by (sizeOf items, 4)

theorem fl_items {opts : EncOpts} (i : Nat) (items : List (Json F)) :
    LEq (leavesItems i (shapeItems opts items)) (leavesItems i (canonItems items)) := by
  match items with
  | [] => rw [shapeItems]; rfl
  | v :: vs =>
    rw [shapeItems]
    simp only [canonItems]
    rw [leavesItems_cons, leavesItems_cons]
    exact ((fl_item v).under _).append (fl_items (i + 1) vs)
termination_by (sizeOf items, 3)

theorem fl_item {opts : EncOpts} (value : Json F) :
    LEq (leaves (shapeItem opts value)) (leaves (canon false value)) := by
  match value with
  | .prim p => rw [shapeItem, canon]; rfl
  | .arr items =>
    rw [shapeItem, canon]
    simp only [Bool.false_eq_true, if_false]
    split
    · rename_i h
      rw [canonItems_prims h]
      rfl
    · exact leq_arr (fl_items 0 items) (by rw [shapeItems_nil, canonItems_nil])
  | .obj es =>
    rw [shapeItem, canon]
    exact fl_objectItem es
termination_by (sizeOf value, 1)

theorem fl_objectItem {opts : EncOpts} (entries : List (Str × Json F)) :
    LEq (leaves (.obj (shapeObjectItem opts entries))) (leaves (.obj (canonEntries entries))) := by
  match entries with
  | [] => rw [shapeObjectItem]; rfl
  | (k, v) :: rest =>
    rw [shapeObjectItem.eq_def]
    refine leq_obj ?_ (by rw [canonEntries_nil]; simp)
    simp only [canonEntries]
    rw [leavesEntries_cons, leavesEntries_cons, shapeObject]
    refine LEq.append (LEq.under _ ?_) (fl_entries _ _ _ _ rest 1)
    cases v with
    | prim p => rw [canon]; rfl
    | arr items => rw [canon_arr]; exact fl_array items
    | obj es => rw [canon]; exact fl_object es 1 none none none
termination_by (sizeOf entries, 0)
end

theorem leq_dotLeaves {v w : Json F} (h : LEq (leaves v) (leaves w)) : dotLeaves v = dotLeaves w := by
  unfold LEq at h
  have := congrArg (List.map fun (x : Str × Str × Leaf F) => (x.1, x.2.2)) h
  simp only [List.map_map] at this
  exact this

theorem shape_dotLeaves (opts : EncOpts) (v : Json F) : dotLeaves (shape opts v) = dotLeaves (canon true v) := by
  apply leq_dotLeaves
  match v with
  | .prim p => simp only [shape, canon]; rfl
  | .arr items => rw [canon_arr]; simp only [shape]; exact fl_array items
  | .obj es => simp only [shape, canon]; exact fl_object es 0 none none none

/-! ## Leaves of values equal up to the order of keys -/

theorem leavesItems_append (i : Nat) (xs ys : List (Json F)) :
    leavesItems i (xs ++ ys) = leavesItems i xs ++ leavesItems (i + xs.length) ys := by
  induction xs generalizing i with
  | nil => simp [leavesItems]
  | cons x xs ih =>
    rw [List.cons_append, leavesItems_cons, leavesItems_cons, ih]
    simp only [List.length_cons, List.append_assoc]
    congr 3
    omega

theorem leavesEntries_append (xs ys : List (Str × Json F)) :
    leavesEntries (xs ++ ys) = leavesEntries xs ++ leavesEntries ys := by
  induction xs with
  | nil => simp [leavesEntries]
  | cons x xs ih =>
    obtain ⟨k, v⟩ := x
    rw [List.cons_append, leavesEntries_cons, leavesEntries_cons, ih, List.append_assoc]

theorem leaves_arr {items : List (Json F)} (h : items ≠ []) : leaves (.arr items) = leavesItems 0 items := by
  cases items with
  | nil => exact absurd rfl h
  | cons v vs => rw [leaves]

theorem leaves_obj {es : List (Str × Json F)} (h : es ≠ []) : leaves (.obj es) = leavesEntries es := by
  cases es with
  | nil => exact absurd rfl h
  | cons v vs => rw [leaves]

theorem leavesEntries_perm {xs ys : List (Str × Json F)} (h : xs.Perm ys) : (leavesEntries xs).Perm (leavesEntries ys) := by
  induction h with
  | nil => exact .refl _
  | cons x _ ih => obtain ⟨k, v⟩ := x; rw [leavesEntries_cons, leavesEntries_cons]; exact ih.append_left _
  | swap x y l =>
    obtain ⟨k, v⟩ := x
    obtain ⟨k', v'⟩ := y
    simp only [leavesEntries_cons]
    rw [← List.append_assoc, ← List.append_assoc]
    exact List.perm_append_comm.append_right _
  | trans _ _ h1 h2 => exact h1.trans h2

theorem equiv_leaves {v w : Json F} (h : v ≃ w) : (leaves v).Perm (leaves w) := by
  induction h with
  | refl => exact .refl _
  | trans _ _ h1 h2 => exact h1.trans h2
  | @arr pre post a b _ ih =>
    rw [leaves_arr (by simp), leaves_arr (by simp), leavesItems_append, leavesItems_append, leavesItems_cons, leavesItems_cons]
    exact (((ih.map _).append_right _).append_left _)
  | @obj pre post k a b _ ih =>
    rw [leaves_obj (by simp), leaves_obj (by simp), leavesEntries_append, leavesEntries_append, leavesEntries_cons,
      leavesEntries_cons]
    exact (((ih.map _).append_right _).append_left _)
  | @perm es es' hp =>
    cases es with
    | nil => rw [List.nil_perm.mp hp]
    | cons e es =>
      have hne : es' ≠ [] := by
        intro he; subst he
        exact absurd hp (by simp)
      rw [leaves_obj (by simp), leaves_obj hne]
      exact leavesEntries_perm hp

end

end Toon
