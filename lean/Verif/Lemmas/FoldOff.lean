import Verif.Lemmas.FoldShape

/-! Folding with a flatten depth below 2 has no effect; a whole chain is folded into one key. -/

namespace Toon

section
variable {F : Type}

mutual
theorem allKeys_keysOf {L : List Str} (v : Json F) (h : ∀ k ∈ keysOf v, k ∈ L) : AllKeys (· ∈ L) v := by
  match v with
  | .prim p => trivial
  | .arr items => exact allKeysItems_keysOf items h
  | .obj es => exact allKeysEntries_keysOf es h
theorem allKeysItems_keysOf {L : List Str} (vs : List (Json F)) (h : ∀ k ∈ keysOfItems vs, k ∈ L) : AllKeysItems (· ∈ L) vs := by
  match vs with
  | [] => trivial
  | v :: vs =>
    simp only [keysOfItems, List.mem_append] at h
    exact ⟨allKeys_keysOf v (fun k hk => h k (Or.inl hk)), allKeysItems_keysOf vs (fun k hk => h k (Or.inr hk))⟩
theorem allKeysEntries_keysOf {L : List Str} (es : List (Str × Json F)) (h : ∀ k ∈ keysOfEntries es, k ∈ L) :
    AllKeysEntries (· ∈ L) es := by
  match es with
  | [] => trivial
  | (k, v) :: es =>
    simp only [keysOfEntries, List.mem_cons, List.mem_append] at h
    exact ⟨h k (Or.inl rfl), allKeys_keysOf v (fun k hk => h k (Or.inr (Or.inl hk))),
      allKeysEntries_keysOf es (fun k hk => h k (Or.inr (Or.inr hk)))⟩
end

end

section
variable {F : Type} [F64 F]

omit [F64 F] in
theorem tryFold_shallow {fd : Nat} (h : fd < 2) (key : Str) (value : Json F) (siblings : List Str) (opts : EncOpts)
    (rlk : Option (List Str)) (pp : Option Str) : tryFold key value siblings opts rlk pp fd = none := by
  unfold tryFold
  split
  · rfl
  · split
    · rfl
    · rfl

/-- Folding with flatten depth below 2, and no folding. -/
structure NoFold (o1 o2 : EncOpts) : Prop where
  delim : o1.delim = o2.delim
  indent : o1.indent = o2.indent
  shallow : o1.flattenDepth < 2
  off : o2.fold = false

mutual
theorem fo_object {o1 o2 : EncOpts} (ho : NoFold o1 o2) (entries : List (Str × Json F)) (depth : Nat)
    (rlk rlk' : Option (List Str)) (pp pp' : Option Str) (rem rem' : Option Nat) (hr : rem.getD o1.flattenDepth < 2) :
    encodeObject o1 entries depth rlk pp rem = encodeObject o2 entries depth rlk' pp' rem' := by
  rw [encodeObject, encodeObject]
  exact fo_entries ho _ _ _ _ _ _ _ _ entries depth hr
termination_by (sizeOf entries, 3)

theorem fo_entries {o1 o2 : EncOpts} (ho : NoFold o1 o2) (sib sib' : List Str) (rlk rlk' : Option (List Str))
    (pp pp' : Option Str) (fd fd' : Nat) (entries : List (Str × Json F)) (depth : Nat) (hfd : fd < 2) :
    encodeEntries o1 sib rlk pp fd entries depth = encodeEntries o2 sib' rlk' pp' fd' entries depth := by
  match entries with
  | [] => rw [encodeEntries, encodeEntries]
  | (k, v) :: rest =>
    rw [encodeEntries, encodeEntries, encodeKeyValue_eq, encodeKeyValue_eq, tryFold_shallow hfd, tryFold_off ho.off]
    simp only
    rw [fo_entry ho rlk rlk' (extendPath pp k) (extendPath pp' k) fd fd' k v depth hfd,
      fo_entries ho sib sib' rlk rlk' pp pp' fd fd' rest depth hfd]
termination_by (sizeOf entries, 2)

theorem fo_entry {o1 o2 : EncOpts} (ho : NoFold o1 o2) (rlk rlk' : Option (List Str)) (path path' : Str) (fd fd' : Nat)
    (key : Str) (value : Json F) (depth : Nat) (hfd : fd < 2) :
    writeEntry o1 rlk path fd key value depth = writeEntry o2 rlk' path' fd' key value depth := by
  match value with
  | .prim p => simp only [writeEntry, ho.delim]
  | .arr items => simp only [writeEntry]; rw [fo_array ho (some key) items depth]
  | .obj es =>
    simp only [writeEntry]
    rw [fo_object ho es (depth + 1) rlk rlk' (some path) (some path') (some fd) (some fd') hfd]
termination_by (sizeOf value, 0)

theorem fo_array {o1 o2 : EncOpts} (ho : NoFold o1 o2) (key : Option Str) (items : List (Json F)) (depth : Nat) :
    encodeArray o1 key items depth = encodeArray o2 key items depth := by
  rw [encodeArray, encodeArray]
  rw [fo_items ho items (depth + 1)]
  simp only [ho.delim]
termination_by (sizeOf items, 4)

theorem fo_items {o1 o2 : EncOpts} (ho : NoFold o1 o2) (items : List (Json F)) (depth : Nat) :
    encodeItems o1 items depth = encodeItems o2 items depth := by
  match items with
  | [] => rw [encodeItems, encodeItems]
  | v :: vs =>
    rw [encodeItems, encodeItems, fo_item ho v depth, fo_items ho vs depth]
termination_by (sizeOf items, 3)

theorem fo_item {o1 o2 : EncOpts} (ho : NoFold o1 o2) (value : Json F) (depth : Nat) :
    encodeItem o1 value depth = encodeItem o2 value depth := by
  match value with
  | .prim p => rw [encodeItem, encodeItem, ho.delim]
  | .arr items =>
    rw [encodeItem, encodeItem, ho.delim, fo_items ho items (depth + 1)]
  | .obj es =>
    rw [encodeItem, encodeItem]
    exact fo_objectItem ho es depth
termination_by (sizeOf value, 1)

theorem fo_objectItem {o1 o2 : EncOpts} (ho : NoFold o1 o2) (entries : List (Str × Json F)) (depth : Nat) :
    encodeObjectItem o1 entries depth = encodeObjectItem o2 entries depth := by
  match entries with
  | [] => rw [encodeObjectItem, encodeObjectItem]
  | (k, v) :: rest =>
    rw [encodeObjectItem.eq_def, encodeObjectItem.eq_def]
    simp only
    rw [fo_object ho rest (depth + 1) none none none none none none ho.shallow]
    congr 1
    cases v with
    | prim p => simp only [ho.delim]
    | arr items =>
      simp only
      rw [fo_items ho items (depth + 2)]
      simp only [ho.delim]
    | obj es =>
      simp only
      rw [fo_object ho es (depth + 2) none none none none none none ho.shallow]
termination_by (sizeOf entries, 0)
end

theorem encode_shallow {o1 o2 : EncOpts} (ho : NoFold o1 o2) (v : Json F) : encode o1 v = encode o2 v := by
  unfold encode encodeLines encodeJsonValue
  have : encodeValue o1 (normalize v) = encodeValue o2 (normalize v) := by
    cases normalize v with
    | prim p => simp only [encodeValue, ho.delim]
    | arr items => simp only [encodeValue]; exact fo_array ho none items 0
    | obj es => simp only [encodeValue]; exact fo_object ho es 0 none none none none none none ho.shallow
  rw [this, ho.indent]

/-! ## A whole chain -/

/-- Not an object with exactly one entry. -/
def ChainEnd (v : Json F) : Prop := ∀ k w, v ≠ .obj [(k, w)]

omit [F64 F] in
theorem collectChain_nested (segs : List Str) (v : Json F) (hv : ChainEnd v) : ∀ budget, segs.length ≤ budget →
    collectChain budget (nested segs v) = (segs, v) := by
  induction segs with
  | nil =>
    intro budget _
    rw [nested]
    unfold collectChain
    split
    · rfl
    · exact absurd rfl (hv _ _)
    · rfl
  | cons s ss ih =>
    intro budget hb
    cases budget with
    | zero => simp at hb
    | succ b =>
      rw [nested, collectChain, ih b (by simp at hb; omega)]

omit [F64 F] in
theorem tryFold_nested {opts : EncOpts} (hf : opts.fold = true) (k s : Str) (ss : List Str) (v : Json F) (hv : ChainEnd v)
    (hid : ∀ x ∈ k :: s :: ss, isIdentifierSegment x = true) (siblings : List Str) (rlk : Option (List Str)) (pp : Option Str)
    (fd : Nat) (hfd : ss.length + 2 ≤ fd) (hs : joinWith '.' (k :: s :: ss) ∉ siblings)
    (hr : ∀ ks, rlk = some ks → extendPath pp (joinWith '.' (k :: s :: ss)) ∉ ks) :
    tryFold k (nested (s :: ss) v) siblings opts rlk pp fd = some ⟨joinWith '.' (k :: s :: ss), v, ss.length + 2⟩ := by
  unfold tryFold
  have hc := collectChain_nested (s :: ss) v hv (fd - 1) (by simp only [List.length_cons]; omega)
  rw [if_neg (by simp [hf]), if_neg (by simp [nested, Json.isObj]), if_neg (by omega)]
  simp only [hc]
  rw [if_neg (by simp), if_neg (by simpa using hid), if_neg (by simpa using hs)]
  split
  · rename_i ks
    rw [if_neg (by simpa using hr ks rfl)]
    rfl
  · rfl

/-! ## Normalization keeps the keys -/

mutual
theorem allKeys_normalize (P : Str → Prop) (v : Json F) : AllKeys P (normalize v) ↔ AllKeys P v := by
  match v with
  | .prim p => simp [normalize, AllKeys]
  | .arr items => simp only [normalize, AllKeys, allKeysItems_normalize P items]
  | .obj es => simp only [normalize, AllKeys, allKeysEntries_normalize P es]
theorem allKeysItems_normalize (P : Str → Prop) (vs : List (Json F)) : AllKeysItems P (normalizeItems vs) ↔ AllKeysItems P vs := by
  match vs with
  | [] => simp [normalizeItems, AllKeysItems]
  | v :: vs => simp only [normalizeItems, AllKeysItems, allKeys_normalize P v, allKeysItems_normalize P vs]
theorem allKeysEntries_normalize (P : Str → Prop) (es : List (Str × Json F)) :
    AllKeysEntries P (normalizeEntries es) ↔ AllKeysEntries P es := by
  match es with
  | [] => simp [normalizeEntries, AllKeysEntries]
  | (k, v) :: es => simp only [normalizeEntries, AllKeysEntries, allKeys_normalize P v, allKeysEntries_normalize P es]
end

theorem firstKey_normalize (P : Str → Prop) (v : Json F) : FirstKey P (normalize v) ↔ FirstKey P v := by
  match v with
  | .prim p => simp [normalize, FirstKey]
  | .arr items => simp [normalize, FirstKey]
  | .obj [] => simp [normalize, normalizeEntries, FirstKey]
  | .obj ((k, v) :: es) => simp [normalize, normalizeEntries, FirstKey]

mutual
theorem itemFirst_normalize (P : Str → Prop) (v : Json F) : ItemFirstKeys P (normalize v) ↔ ItemFirstKeys P v := by
  match v with
  | .prim p => simp [normalize, ItemFirstKeys]
  | .arr items => simp only [normalize, ItemFirstKeys, itemFirstItems_normalize P items]
  | .obj es => simp only [normalize, ItemFirstKeys, itemFirstEntries_normalize P es]
theorem itemFirstItems_normalize (P : Str → Prop) (vs : List (Json F)) :
    ItemFirstKeysItems P (normalizeItems vs) ↔ ItemFirstKeysItems P vs := by
  match vs with
  | [] => simp [normalizeItems, ItemFirstKeysItems]
  | v :: vs =>
    simp only [normalizeItems, ItemFirstKeysItems, firstKey_normalize, itemFirst_normalize P v, itemFirstItems_normalize P vs]
theorem itemFirstEntries_normalize (P : Str → Prop) (es : List (Str × Json F)) :
    ItemFirstKeysEntries P (normalizeEntries es) ↔ ItemFirstKeysEntries P es := by
  match es with
  | [] => simp [normalizeEntries, ItemFirstKeysEntries]
  | (k, v) :: es =>
    simp only [normalizeEntries, ItemFirstKeysEntries, itemFirst_normalize P v, itemFirstEntries_normalize P es]
end

theorem normalize_nested (segs : List Str) (v : Json F) : normalize (nested segs v) = nested segs (normalize v) := by
  induction segs with
  | nil => rfl
  | cons s ss ih => simp only [nested, normalize, normalizeEntries, ih]

theorem encodeEntries_mem {opts : EncOpts} {sib : List Str} {rlk : Option (List Str)} {pp : Option Str} {fd : Nat}
    {es : List (Str × Json F)} {depth : Nat} {k : Str} {v : Json F} (h : (k, v) ∈ es) {l : OutLine}
    (hl : l ∈ encodeKeyValue opts sib rlk pp fd k v depth) : l ∈ encodeEntries opts sib rlk pp fd es depth := by
  induction es with
  | nil => simp at h
  | cons e es ih =>
    obtain ⟨k', v'⟩ := e
    rw [encodeEntries]
    rcases List.mem_cons.mp h with h | h
    · cases h; exact List.mem_append.mpr (Or.inl hl)
    · exact List.mem_append.mpr (Or.inr (ih h))

/-- A chain of identifiers that ends in a primitive is written on one line. -/
theorem chain_line {opts : EncOpts} (hf : opts.fold = true) (es : List (Str × Json F)) (k s : Str) (ss : List Str) (p : Prim F)
    (hid : ∀ x ∈ k :: s :: ss, isIdentifierSegment x = true) (hfd : ss.length + 2 ≤ opts.flattenDepth)
    (hm : (k, nested (s :: ss) (.prim p)) ∈ es) (hk : joinWith '.' (k :: s :: ss) ∉ es.map Prod.fst) :
    encode { opts with fold := false } (.obj [(joinWith '.' (k :: s :: ss), .prim p)]) ∈ encodeLines opts (.obj es) := by
  have h1 : encode { opts with fold := false } (.obj [(joinWith '.' (k :: s :: ss), .prim p)]) =
      renderLine opts.indent ⟨0, encodeKey (joinWith '.' (k :: s :: ss)) ++ ':' :: ' ' :: encodePrimitive (normPrim p) opts.delim⟩ := by
    unfold encode encodeLines encodeJsonValue
    simp only [normalize, normalizeEntries, encodeValue]
    rw [encodeObject, encodeEntries, encodeEntries, encodeKeyValue_eq, tryFold_off rfl]
    rfl
  rw [h1]
  unfold encodeLines encodeJsonValue
  apply List.mem_map_of_mem
  simp only [normalize, encodeValue]
  rw [encodeObject]
  have hm' : (k, nested (s :: ss) (.prim (normPrim p))) ∈ normalizeEntries es := by
    rw [normalizeEntries_eq_map]
    have := List.mem_map_of_mem (f := fun e : Str × Json F => (e.1, normalize e.2)) hm
    simpa only [normalize_nested, normalize] using this
  refine encodeEntries_mem hm' ?_
  rw [normalizeEntries_keys, encodeKeyValue_eq, Option.getD_none]
  rw [tryFold_nested hf k s ss _ (by intro k w h; cases h) hid _ _ _ _ hfd hk ?_]
  · simp [writeEntry]
  · intro ks hks
    simp only [rootLiterals, Option.isNone_none, decide_true, Bool.and_self, if_true, Option.some.injEq] at hks
    subst hks
    intro hmem
    exact hk (List.mem_filter.mp hmem).1

end

end Toon
