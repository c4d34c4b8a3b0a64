import Verif.Lemmas.FoldLeaves

/-! The keys of the value denoted by a folded encoding. -/

namespace Toon

section
variable {F : Type}

/-! ## Distinct keys -/

/-- A key written for the entry `k`: itself, or a dotted path starting with it that is no sibling. -/
def OutKey (siblings : List Str) (k r : Str) : Prop :=
  r = k ∨ ∃ segs : List Str, segs ≠ [] ∧ (∀ s ∈ k :: segs, isIdentifierSegment s = true) ∧ r = joinWith '.' (k :: segs) ∧ r ∉ siblings

theorem outKey_kv (opts : EncOpts) (siblings : List Str) (rlk : Option (List Str)) (pp : Option Str) (fd : Nat)
    (k : Str) (v : Json F) (depth : Nat) :
    OutKey siblings k (shapeKeyValue opts siblings rlk pp fd k v depth).1 := by
  rw [shapeKeyValue_eq]
  rcases hr : tryFold k v siblings opts rlk pp fd with _ | r
  · exact Or.inl rfl
  · obtain ⟨_, _, _, hid, hne, hfk, _, _, hns, _⟩ := tryFold_some hr
    exact Or.inr ⟨_, hne, hid, hfk, hns⟩

theorem outKey_ne {siblings : List Str} {k k' r r' : Str} (hk : k ∈ siblings) (hk' : k' ∈ siblings) (hne : k ≠ k')
    (h : OutKey siblings k r) (h' : OutKey siblings k' r') : r ≠ r' := by
  rintro rfl
  rcases h with rfl | ⟨segs, _, hid, hr, hns⟩
  · rcases h' with rfl | ⟨segs', _, _, _, hns'⟩
    · exact hne rfl
    · exact hns' hk
  · rcases h' with rfl | ⟨segs', _, hid', hr', _⟩
    · exact hns hk'
    · rw [hr] at hr'
      have h1 := splitOn_joinWith (c := '.') (ws := k :: segs) (by simp) (all_nodot hid)
      have h2 := splitOn_joinWith (c := '.') (ws := k' :: segs') (by simp) (all_nodot hid')
      rw [hr', h2] at h1
      simp only [List.cons.injEq] at h1
      exact hne h1.1.symm

theorem outKey_dotted {siblings : List Str} {k r : Str} (h : OutKey siblings k r) : r = k ∨ DottedPath r := by
  rcases h with h | ⟨segs, hne, hid, hr, _⟩
  · exact Or.inl h
  · refine Or.inr ⟨k :: segs, ?_, fun s hs => by rw [identifier_eq]; exact hid s hs, by rw [dotted_eq]; exact hr⟩
    have := List.length_pos_iff.mpr hne
    simp only [List.length_cons]; omega

theorem shapeEntries_outKeys (opts : EncOpts) (siblings : List Str) (rlk : Option (List Str)) (pp : Option Str) (fd : Nat)
    (entries : List (Str × Json F)) (depth : Nat) :
    ∀ r ∈ (shapeEntries opts siblings rlk pp fd entries depth).map Prod.fst,
      ∃ k ∈ entries.map Prod.fst, OutKey siblings k r := by
  induction entries with
  | nil => rw [shapeEntries]; simp
  | cons e es ih =>
    obtain ⟨k, v⟩ := e
    rw [shapeEntries]
    intro r hr
    rcases List.mem_cons.mp hr with rfl | hr
    · exact ⟨k, by simp, outKey_kv opts siblings rlk pp fd k v depth⟩
    · obtain ⟨k', hk', h⟩ := ih r hr
      exact ⟨k', List.mem_cons_of_mem _ hk', h⟩

theorem shapeEntries_nodup (opts : EncOpts) (siblings : List Str) (rlk : Option (List Str)) (pp : Option Str) (fd : Nat)
    (entries : List (Str × Json F)) (depth : Nat) (hs : ∀ k ∈ entries.map Prod.fst, k ∈ siblings)
    (hn : (entries.map Prod.fst).Nodup) :
    ((shapeEntries opts siblings rlk pp fd entries depth).map Prod.fst).Nodup := by
  induction entries with
  | nil => rw [shapeEntries]; simp
  | cons e es ih =>
    obtain ⟨k, v⟩ := e
    rw [shapeEntries]
    simp only [List.map_cons, List.nodup_cons] at hn ⊢
    refine ⟨fun hm => ?_, ih (fun k' hk' => hs k' (List.mem_cons_of_mem _ hk')) hn.2⟩
    obtain ⟨k', hk', h'⟩ := shapeEntries_outKeys opts siblings rlk pp fd es depth _ hm
    refine outKey_ne (hs k (by simp)) (hs k' (List.mem_cons_of_mem _ hk')) ?_ (outKey_kv opts siblings rlk pp fd k v depth) h' rfl
    rintro rfl
    exact hn.1 hk'

theorem collectChain_first {P : Str → Prop} (budget : Nat) (v : Json F) (h : ItemFirstKeys P v) :
    ItemFirstKeys P (collectChain budget v).2 := by
  fun_induction collectChain budget v with
  | case1 v => exact h
  | case2 budget k v segs leaf hc ih =>
    simp only [hc] at ih ⊢
    simp only [ItemFirstKeys, ItemFirstKeysEntries] at h
    exact ih h.1
  | case3 => exact h

theorem collectChain_distinct (budget : Nat) (v : Json F) (h : DistinctKeys v) : DistinctKeys (collectChain budget v).2 := by
  fun_induction collectChain budget v with
  | case1 v => exact h
  | case2 budget k v segs leaf hc ih =>
    simp only [hc] at ih ⊢
    simp only [DistinctKeys, DistinctKeysEntries] at h
    exact ih h.2.1
  | case3 => exact h

theorem tableRows_distinct {items : List (Json F)} {cols : List Str} (h : tableHeader items = some cols)
    (hd : DistinctKeysItems items) : DistinctKeysItems (tableRows items cols) := by
  obtain ⟨_, _, es, rest, rfl, rfl⟩ := tableHeader_some h
  simp only [DistinctKeysItems, DistinctKeys] at hd
  refine distinctItems_of fun r hr => ?_
  rw [tableRows_eq] at hr
  obtain ⟨ps, _, rfl⟩ := List.mem_map.mp hr
  exact ⟨(zipRow_sublist _ ps).nodup hd.1.1, distinct_of_prims (zipRow_prims _ ps)⟩

mutual
theorem fd_object {opts : EncOpts} (entries : List (Str × Json F)) (depth : Nat) (rlk : Option (List Str))
    (pp : Option Str) (rem : Option Nat) (hd : DistinctKeys (.obj entries))
    (hf : ItemFirstKeysEntries (fun k => ¬ DottedPath k) entries) :
    DistinctKeys (.obj (shapeObject opts entries depth rlk pp rem)) := by
  rw [shapeObject]
  simp only [DistinctKeys] at hd ⊢
  exact ⟨shapeEntries_nodup _ _ _ _ _ _ _ (fun _ h => h) hd.1, fd_entries _ _ _ _ entries depth hd.2 hf⟩
termination_by (sizeOf entries, 3)

theorem fd_entries {opts : EncOpts} (siblings : List Str) (rlk : Option (List Str))
    (pp : Option Str) (fd : Nat) (entries : List (Str × Json F)) (depth : Nat)
    (hd : DistinctKeysEntries entries) (hf : ItemFirstKeysEntries (fun k => ¬ DottedPath k) entries) :
    DistinctKeysEntries (shapeEntries opts siblings rlk pp fd entries depth) := by
  match entries with
  | [] => rw [shapeEntries]; trivial
  | (k, v) :: rest =>
    simp only [DistinctKeysEntries, ItemFirstKeysEntries] at hd hf
    rw [shapeEntries, shapeKeyValue_eq]
    have hrest := fd_entries (opts := opts) siblings rlk pp fd rest depth hd.2 hf.2
    rcases hr : tryFold k v siblings opts rlk pp fd with _ | r
    · exact ⟨fd_entry rlk _ fd v depth hd.1 hf.1, hrest⟩
    · have hlt := tryFold_size hr
      obtain ⟨_, _, _, _, _, _, hlf, _, _, _⟩ := tryFold_some hr
      refine ⟨fd_entry rlk _ _ r.leaf depth ?_ ?_, hrest⟩
      · rw [hlf]; exact collectChain_distinct _ _ hd.1
      · rw [hlf]; exact collectChain_first _ _ hf.1
termination_by (sizeOf entries, 2)

theorem fd_entry {opts : EncOpts} (rlk : Option (List Str)) (path : Str) (fd : Nat)
    (value : Json F) (depth : Nat) (hd : DistinctKeys value) (hf : ItemFirstKeys (fun k => ¬ DottedPath k) value) :
    DistinctKeys (shapeEntry opts rlk path fd value depth) := by
  match value with
  | .prim p => trivial
  | .arr items => exact fd_array items hd hf
  | .obj es => exact fd_object es (depth + 1) rlk (some path) (some fd) hd hf
termination_by (sizeOf value, 0)

theorem fd_array {opts : EncOpts} (items : List (Json F)) (hd : DistinctKeysItems items)
    (hf : ItemFirstKeysItems (fun k => ¬ DottedPath k) items) :
    DistinctKeysItems (shapeArray opts items) := by
  rw [shapeArray]
  split
  · exact hd
  · cases ht : tableHeader items with
    | some cols => exact tableRows_distinct ht hd
    | none => exact fd_items items hd hf
termination_by (sizeOf items, 4)

theorem fd_items {opts : EncOpts} (items : List (Json F)) (hd : DistinctKeysItems items)
    (hf : ItemFirstKeysItems (fun k => ¬ DottedPath k) items) :
    DistinctKeysItems (shapeItems opts items) := by
  match items with
  | [] => rw [shapeItems]; trivial
  | v :: vs =>
    simp only [DistinctKeysItems, ItemFirstKeysItems] at hd hf
    rw [shapeItems]
    exact ⟨fd_item v hd.1 hf.2.1 hf.1, fd_items vs hd.2 hf.2.2⟩
termination_by (sizeOf items, 3)

theorem fd_item {opts : EncOpts} (value : Json F) (hd : DistinctKeys value)
    (hf : ItemFirstKeys (fun k => ¬ DottedPath k) value) (h1 : FirstKey (fun k => ¬ DottedPath k) value) :
    DistinctKeys (shapeItem opts value) := by
  match value with
  | .prim p => rw [shapeItem]; trivial
  | .arr items =>
    rw [shapeItem]
    simp only [DistinctKeys] at hd ⊢
    split
    · exact hd
    · exact fd_items items hd hf
  | .obj es =>
    rw [shapeItem]
    exact fd_objectItem es hd hf h1
termination_by (sizeOf value, 1)

theorem fd_objectItem {opts : EncOpts} (entries : List (Str × Json F)) (hd : DistinctKeys (.obj entries))
    (hf : ItemFirstKeysEntries (fun k => ¬ DottedPath k) entries) (h1 : FirstKey (fun k => ¬ DottedPath k) (.obj entries)) :
    DistinctKeys (.obj (shapeObjectItem opts entries)) := by
  match entries with
  | [] => rw [shapeObjectItem]; exact hd
  | (k, v) :: rest =>
    simp only [DistinctKeys, DistinctKeysEntries, ItemFirstKeysEntries, FirstKey, List.map_cons, List.nodup_cons] at hd hf h1
    obtain ⟨⟨hd1, hd2⟩, hd3, hd4⟩ := hd
    have hr := fd_object (opts := opts) rest 1 none none none ⟨hd2, hd4⟩ hf.2
    rw [shapeObjectItem.eq_def]
    simp only [DistinctKeys, DistinctKeysEntries, List.map_cons, List.nodup_cons] at hr ⊢
    refine ⟨⟨fun hm => ?_, hr.1⟩, ?_, hr.2⟩
    · rw [shapeObject] at hm
      obtain ⟨k', hk', ho⟩ := shapeEntries_outKeys _ _ _ _ _ rest 1 _ hm
      rcases outKey_dotted ho with rfl | hdot
      · exact hd1 hk'
      · exact h1 hdot
    · obtain ⟨hf1, _⟩ := hf
      cases v with
      | prim p => trivial
      | arr items => exact fd_array items hd3 hf1
      | obj es => exact fd_object es 1 none none none hd3 hf1
termination_by (sizeOf entries, 0)
end

theorem shape_distinct {opts : EncOpts} (v : Json F) (hd : DistinctKeys v)
    (hf : ItemFirstKeys (fun k => ¬ DottedPath k) v) : DistinctKeys (shape opts v) := by
  match v with
  | .prim p => trivial
  | .arr items => exact fd_array items hd hf
  | .obj es => exact fd_object es 0 none none none hd hf

/-! ## Where the keys come from -/

theorem collectChain_keys {K : Str → Prop} (budget : Nat) (v : Json F) (h : AllKeys K v) :
    AllKeys K (collectChain budget v).2 ∧ (∀ s ∈ (collectChain budget v).1, K s) ∧ (collectChain budget v).1.length ≤ budget := by
  fun_induction collectChain budget v with
  | case1 v => exact ⟨h, by simp, by simp⟩
  | case2 budget k v segs leaf hc ih =>
    simp only [hc] at ih ⊢
    simp only [AllKeys, AllKeysEntries] at h
    obtain ⟨h1, h2, h3⟩ := ih h.2.1
    refine ⟨h1, ?_, by simp only [List.length_cons]; omega⟩
    intro s hs
    rcases List.mem_cons.mp hs with rfl | hs
    · exact h.1
    · exact h2 s hs
  | case3 => exact ⟨h, by simp, by simp⟩

mutual
theorem allKeys_mono {P Q : Str → Prop} (hPQ : ∀ k, P k → Q k) (v : Json F) (h : AllKeys P v) : AllKeys Q v := by
  match v with
  | .prim p => trivial
  | .arr items => exact allKeysItems_mono hPQ items h
  | .obj es => exact allKeysEntries_mono hPQ es h
theorem allKeysItems_mono {P Q : Str → Prop} (hPQ : ∀ k, P k → Q k) (vs : List (Json F)) (h : AllKeysItems P vs) :
    AllKeysItems Q vs := by
  match vs with
  | [] => trivial
  | v :: vs => exact ⟨allKeys_mono hPQ v h.1, allKeysItems_mono hPQ vs h.2⟩
theorem allKeysEntries_mono {P Q : Str → Prop} (hPQ : ∀ k, P k → Q k) (es : List (Str × Json F)) (h : AllKeysEntries P es) :
    AllKeysEntries Q es := by
  match es with
  | [] => trivial
  | (k, v) :: es => exact ⟨hPQ k h.1, allKeys_mono hPQ v h.2.1, allKeysEntries_mono hPQ es h.2.2⟩
end

theorem tableRows_keys {P : Str → Prop} {items : List (Json F)} {cols : List Str} (h : tableHeader items = some cols)
    (hk : AllKeysItems P items) : AllKeysItems P (tableRows items cols) := by
  obtain ⟨_, _, es, rest, rfl, rfl⟩ := tableHeader_some h
  simp only [AllKeysItems, AllKeys] at hk
  refine allKeysItems_of fun r hr => ?_
  rw [tableRows_eq] at hr
  obtain ⟨ps, _, rfl⟩ := List.mem_map.mp hr
  exact allKeys_of_prims (zipRow_prims _ ps) (fun k hk' => mem_keys_allKeys hk.1 k ((zipRow_sublist _ ps).subset hk'))

theorem foldedFrom_base {K : Str → Prop} {n : Nat} : ∀ k, K k → FoldedFrom K n k := fun _ h => Or.inl h

mutual
theorem fk_object {opts : EncOpts} {K : Str → Prop} (entries : List (Str × Json F)) (depth : Nat) (rlk : Option (List Str))
    (pp : Option Str) (rem : Option Nat) (hk : AllKeysEntries K entries) (hr : rem.getD opts.flattenDepth ≤ opts.flattenDepth) :
    AllKeysEntries (FoldedFrom K opts.flattenDepth) (shapeObject opts entries depth rlk pp rem) := by
  rw [shapeObject]
  exact fk_entries _ _ _ _ entries depth hk hr
termination_by (sizeOf entries, 3)

theorem fk_entries {opts : EncOpts} {K : Str → Prop} (siblings : List Str) (rlk : Option (List Str))
    (pp : Option Str) (fd : Nat) (entries : List (Str × Json F)) (depth : Nat)
    (hk : AllKeysEntries K entries) (hfd : fd ≤ opts.flattenDepth) :
    AllKeysEntries (FoldedFrom K opts.flattenDepth) (shapeEntries opts siblings rlk pp fd entries depth) := by
  match entries with
  | [] => rw [shapeEntries]; trivial
  | (k, v) :: rest =>
    simp only [AllKeysEntries] at hk
    rw [shapeEntries, shapeKeyValue_eq]
    have hrest := fk_entries (opts := opts) siblings rlk pp fd rest depth hk.2.2 hfd
    rcases hr : tryFold k v siblings opts rlk pp fd with _ | r
    · exact ⟨Or.inl hk.1, fk_entry rlk _ fd v depth hk.2.1 hfd, hrest⟩
    · have hlt := tryFold_size hr
      obtain ⟨_, _, h2, hid, hne, hfk, hlf, _, _, _⟩ := tryFold_some hr
      obtain ⟨hc1, hc2, hc3⟩ := collectChain_keys (fd - 1) v hk.2.1
      refine ⟨Or.inr ⟨_, ?_, ?_, ?_, by rw [dotted_eq]; exact hfk⟩, fk_entry rlk _ _ r.leaf depth ?_ (by omega), hrest⟩
      · have := List.length_pos_iff.mpr hne
        simp only [List.length_cons]; omega
      · simp only [List.length_cons]; omega
      · intro s hs
        refine ⟨by rw [identifier_eq]; exact hid s hs, ?_⟩
        rcases List.mem_cons.mp hs with rfl | hs
        · exact hk.1
        · exact hc2 s hs
      · rw [hlf]; exact hc1
termination_by (sizeOf entries, 2)

theorem fk_entry {opts : EncOpts} {K : Str → Prop} (rlk : Option (List Str)) (path : Str) (fd : Nat)
    (value : Json F) (depth : Nat) (hk : AllKeys K value) (hfd : fd ≤ opts.flattenDepth) :
    AllKeys (FoldedFrom K opts.flattenDepth) (shapeEntry opts rlk path fd value depth) := by
  match value with
  | .prim p => trivial
  | .arr items => exact fk_array items hk
  | .obj es => exact fk_object es (depth + 1) rlk (some path) (some fd) hk hfd
termination_by (sizeOf value, 0)

theorem fk_array {opts : EncOpts} {K : Str → Prop} (items : List (Json F)) (hk : AllKeysItems K items) :
    AllKeysItems (FoldedFrom K opts.flattenDepth) (shapeArray opts items) := by
  rw [shapeArray]
  split
  · exact allKeysItems_mono foldedFrom_base items hk
  · cases ht : tableHeader items with
    | some cols => exact allKeysItems_mono foldedFrom_base _ (tableRows_keys ht hk)
    | none => exact fk_items items hk
termination_by (sizeOf items, 4)

theorem fk_items {opts : EncOpts} {K : Str → Prop} (items : List (Json F)) (hk : AllKeysItems K items) :
    AllKeysItems (FoldedFrom K opts.flattenDepth) (shapeItems opts items) := by
  match items with
  | [] => rw [shapeItems]; trivial
  | v :: vs =>
    simp only [AllKeysItems] at hk
    rw [shapeItems]
    exact ⟨fk_item v hk.1, fk_items vs hk.2⟩
termination_by (sizeOf items, 3)

theorem fk_item {opts : EncOpts} {K : Str → Prop} (value : Json F) (hk : AllKeys K value) :
    AllKeys (FoldedFrom K opts.flattenDepth) (shapeItem opts value) := by
  match value with
  | .prim p => rw [shapeItem]; trivial
  | .arr items =>
    rw [shapeItem]
    simp only [AllKeys] at hk ⊢
    split
    · exact allKeysItems_mono foldedFrom_base items hk
    · exact fk_items items hk
  | .obj es =>
    rw [shapeItem]
    exact fk_objectItem es hk
termination_by (sizeOf value, 1)

theorem fk_objectItem {opts : EncOpts} {K : Str → Prop} (entries : List (Str × Json F)) (hk : AllKeysEntries K entries) :
    AllKeysEntries (FoldedFrom K opts.flattenDepth) (shapeObjectItem opts entries) := by
  match entries with
  | [] => rw [shapeObjectItem]; trivial
  | (k, v) :: rest =>
    simp only [AllKeysEntries] at hk
    have hr := fk_object (opts := opts) rest 1 none none none hk.2.2 (Nat.le_refl _)
    rw [shapeObjectItem.eq_def]
    simp only [AllKeysEntries]
    refine ⟨Or.inl hk.1, ?_, hr⟩
    obtain ⟨_, hk, _⟩ := hk
    cases v with
    | prim p => trivial
    | arr items => exact fk_array items hk
    | obj es => exact fk_object es 1 none none none hk (Nat.le_refl _)
termination_by (sizeOf entries, 0)
end

theorem shape_keys {opts : EncOpts} {K : Str → Prop} (v : Json F) (hk : AllKeys K v) :
    AllKeys (FoldedFrom K opts.flattenDepth) (shape opts v) := by
  match v with
  | .prim p => trivial
  | .arr items => exact fk_array items hk
  | .obj es => exact fk_object es 0 none none none hk (Nat.le_refl _)

end

end Toon
