import Verif.Lemmas.RoundTrip

/-!
# The canonical value

Without key folding the value denoted by the encoding does not depend on the options, and it has
the same encoding as the value itself.
-/

namespace Toon

section
variable {F : Type}

mutual
/-- The value with the rows of tables in column order. -/
def canon (tbl : Bool) : Json F → Json F
  | .prim p => .prim p
  | .arr items =>
    match (if tbl then tableHeader items else none) with
    | some cols => .arr (tableRows items cols)
    | none => .arr (canonItems items)
  | .obj es => .obj (canonEntries es)
def canonItems : List (Json F) → List (Json F)
  | [] => []
  | v :: vs => canon false v :: canonItems vs
def canonEntries : List (Str × Json F) → List (Str × Json F)
  | [] => []
  | (k, v) :: es => (k, canon true v) :: canonEntries es
end

theorem canonItems_prims {items : List (Json F)} (h : isArrayOfPrims items = true) : canonItems items = items := by
  induction items with
  | nil => rfl
  | cons v vs ih =>
    simp only [isArrayOfPrims, List.all_cons, Bool.and_eq_true] at h
    cases v with
    | prim p => simp only [canonItems, canon]; rw [ih h.2]
    | arr _ => simp [Json.isPrim] at h
    | obj _ => simp [Json.isPrim] at h

theorem tableHeader_prims {items : List (Json F)} (h : isArrayOfPrims items = true) : tableHeader items = none := by
  cases ht : tableHeader items with
  | none => rfl
  | some cols =>
    obtain ⟨_, _, es, rest, rfl, _⟩ := tableHeader_some ht
    simp [isArrayOfPrims, Json.isPrim] at h

/-- The items of a canonical array at a place where a table is possible. -/
def canonArr (items : List (Json F)) : List (Json F) :=
  match tableHeader items with
  | some cols => tableRows items cols
  | none => canonItems items

theorem canon_arr (items : List (Json F)) : canon true (.arr items) = .arr (canonArr items) := by
  rw [canon, canonArr]
  simp only [if_true]
  split <;> rename_i h <;> simp [h]

mutual
theorem shapeObject_canon {opts : EncOpts} (hf : opts.fold = false) (entries : List (Str × Json F)) (depth : Nat)
    (rlk : Option (List Str)) (pp : Option Str) (rem : Option Nat) :
    shapeObject opts entries depth rlk pp rem = canonEntries entries := by
  rw [shapeObject]
  exact shapeEntries_canon hf _ _ _ _ entries depth
termination_by (sizeOf entries, 3)

theorem shapeEntries_canon {opts : EncOpts} (hf : opts.fold = false) (siblings : List Str) (rlk : Option (List Str))
    (pp : Option Str) (fd : Nat) (entries : List (Str × Json F)) (depth : Nat) :
    shapeEntries opts siblings rlk pp fd entries depth = canonEntries entries := by
  match entries with
  | [] => rw [shapeEntries]; rfl
  | (k, v) :: rest =>
    rw [shapeEntries, shapeKeyValue_eq, tryFold_off hf]
    simp only [canonEntries]
    rw [shapeEntry_canon hf rlk _ fd v depth, shapeEntries_canon hf siblings rlk pp fd rest depth]
termination_by (sizeOf entries, 2)

theorem shapeEntry_canon {opts : EncOpts} (hf : opts.fold = false) (rlk : Option (List Str)) (path : Str) (fd : Nat)
    (value : Json F) (depth : Nat) :
    shapeEntry opts rlk path fd value depth = canon true value := by
  match value with
  | .prim p => simp only [shapeEntry, canon]
  | .arr items => rw [canon_arr]; simp only [shapeEntry]; rw [shapeArray_canon hf items]
  | .obj es => simp only [shapeEntry, canon]; rw [shapeObject_canon hf es]
termination_by (sizeOf value, 0)

theorem shapeArray_canon {opts : EncOpts} (hf : opts.fold = false) (items : List (Json F)) :
    shapeArray opts items = canonArr items := by
  rw [shapeArray, canonArr]
  split
  · rename_i h
    rw [tableHeader_prims h]
    exact (canonItems_prims h).symm
  · cases ht : tableHeader items with
    | some cols => rfl
    | none => exact shapeItems_canon hf items
termination_by (sizeOf items, 4)

theorem shapeItems_canon {opts : EncOpts} (hf : opts.fold = false) (items : List (Json F)) :
    shapeItems opts items = canonItems items := by
  match items with
  | [] => rw [shapeItems]; rfl
  | v :: vs =>
    rw [shapeItems]
    simp only [canonItems]
    rw [shapeItem_canon hf v, shapeItems_canon hf vs]
termination_by (sizeOf items, 3)

theorem shapeItem_canon {opts : EncOpts} (hf : opts.fold = false) (value : Json F) :
    shapeItem opts value = canon false value := by
  match value with
  | .prim p => rw [shapeItem, canon]
  | .arr items =>
    rw [shapeItem, canon]
    simp only [Bool.false_eq_true, if_false]
    split
    · rename_i h; rw [canonItems_prims h]
    · rw [shapeItems_canon hf items]
  | .obj es =>
    rw [shapeItem, canon]
    rw [shapeObjectItem_canon hf es]
termination_by (sizeOf value, 1)

theorem shapeObjectItem_canon {opts : EncOpts} (hf : opts.fold = false) (entries : List (Str × Json F)) :
    shapeObjectItem opts entries = canonEntries entries := by
  match entries with
  | [] => rw [shapeObjectItem]; rfl
  | (k, v) :: rest =>
    rw [shapeObjectItem.eq_def]
    simp only [canonEntries]
    rw [shapeObject_canon hf rest]
    match v with
    | .prim p => simp only [canon]
    | .arr items => simp only [canon_arr]; rw [shapeArray_canon hf items]
    | .obj es => simp only [canon]; rw [shapeObject_canon hf es]
termination_by (sizeOf entries, 0)
end

theorem shape_canon {opts : EncOpts} (hf : opts.fold = false) (v : Json F) : shape opts v = canon true v := by
  match v with
  | .prim p => simp only [shape, canon]
  | .arr items => rw [canon_arr]; simp only [shape]; rw [shapeArray_canon hf items]
  | .obj es => simp only [shape, canon]; rw [shapeObject_canon hf es]

/-! ## The canonical value has the same layout -/

theorem canon_isPrim (tbl : Bool) (v : Json F) : (canon tbl v).isPrim = v.isPrim := by
  cases v with
  | prim p => simp only [canon]
  | arr items => rw [canon]; split <;> rfl
  | obj es => simp only [canon]; rfl

theorem canon_isObj (tbl : Bool) (v : Json F) : (canon tbl v).isObj = v.isObj := by
  cases v with
  | prim p => simp only [canon]
  | arr items => rw [canon]; split <;> rfl
  | obj es => simp only [canon]; rfl

theorem canonEntries_keys (es : List (Str × Json F)) : (canonEntries es).map Prod.fst = es.map Prod.fst := by
  induction es with
  | nil => rfl
  | cons e es ih => obtain ⟨k, v⟩ := e; simp [canonEntries, ih]

theorem canonEntries_length (es : List (Str × Json F)) : (canonEntries es).length = es.length := by
  have := congrArg List.length (canonEntries_keys es)
  simpa using this

theorem canonItems_length (vs : List (Json F)) : (canonItems vs).length = vs.length := by
  induction vs with
  | nil => rfl
  | cons v vs ih => simp [canonItems, ih]

theorem objGet_canon (es : List (Str × Json F)) (k : Str) : objGet (canonEntries es) k = (objGet es k).map (canon true) := by
  induction es with
  | nil => rfl
  | cons e es ih =>
    obtain ⟨k', v⟩ := e
    simp only [canonEntries, objGet]
    split
    · rfl
    · exact ih

theorem isTabularRow_canon (cols : List Str) (v : Json F) : isTabularRow cols (canon false v) = isTabularRow cols v := by
  cases v with
  | prim p => simp only [canon]
  | arr items =>
    rw [canon]
    split <;> rfl
  | obj es =>
    simp only [canon, isTabularRow, canonEntries_length, objGet_canon]
    congr 2
    funext k
    cases objGet es k with
    | none => rfl
    | some v => exact canon_isPrim true v

theorem all_canon {f : Json F → Bool} (h : ∀ v, f (canon false v) = f v) (items : List (Json F)) :
    (canonItems items).all f = items.all f := by
  induction items with
  | nil => rfl
  | cons v vs ih => simp [canonItems, h, ih]

theorem tableHeader_canonItems (items : List (Json F)) : tableHeader (canonItems items) = tableHeader items := by
  unfold tableHeader isArrayOfObjs
  rw [all_canon (canon_isObj false)]
  split
  · cases items with
    | nil => rfl
    | cons v vs =>
      cases v with
      | prim p => simp only [canonItems, canon, extractTabularHeader]
      | arr xs =>
        rw [canonItems, canon]
        simp only [Bool.false_eq_true, if_false, extractTabularHeader]
      | obj es =>
        have h1 := all_canon (fun v => isTabularRow_canon (es.map Prod.fst) v) (.obj es :: vs)
        simp only [canonItems, canon, extractTabularHeader, isTabularArray, canonEntries_keys] at h1 ⊢
        rw [h1]
        cases es <;> rfl
  · rfl

theorem rowPrims_zip (es es' : List (Str × Json F)) {cols : List Str} {ps : List (Prim F)}
    (h : ∀ c ∈ cols, objGet es' c = objGet es c) (hr : rowPrims es cols = .ok ps) : rowPrims es' cols = .ok ps := by
  induction cols generalizing ps with
  | nil => simpa [rowPrims] using hr
  | cons c cols ih =>
    rw [rowPrims] at hr ⊢
    rw [h c (by simp)]
    cases hg : objGet es c with
    | none => simp [hg] at hr
    | some v =>
      rw [hg] at hr
      cases v with
      | arr _ => simp at hr
      | obj _ => simp at hr
      | prim p =>
        simp only at hr ⊢
        cases hr' : rowPrims es cols with
        | error e => simp [hr'] at hr
        | ok qs =>
          rw [hr'] at hr
          rw [ih (fun c hc => h c (by simp [hc])) hr']
          exact hr

theorem objGet_zipRow {es : List (Str × Json F)} {cols : List Str} {ps : List (Prim F)}
    (h : rowPrims es cols = .ok ps) : ∀ c ∈ cols, objGet (zipRow cols ps) c = objGet es c := by
  induction cols generalizing ps with
  | nil => simp
  | cons c cols ih =>
    rw [rowPrims] at h
    cases hg : objGet es c with
    | none => simp [hg] at h
    | some v =>
      rw [hg] at h
      cases v with
      | arr _ => simp at h
      | obj _ => simp at h
      | prim p =>
        simp only at h
        cases hr : rowPrims es cols with
        | error e => simp [hr] at h
        | ok qs =>
          simp only [hr, Except.ok.injEq] at h
          subst h
          intro k hk
          simp only [zipRow, objGet]
          split
          · rename_i hck; rw [← hck, hg]
          · rename_i hck
            rcases List.mem_cons.mp hk with rfl | hk
            · exact absurd rfl hck
            · exact ih hr k hk

theorem rowValues_zipRow {es : List (Str × Json F)} {cols : List Str} (hr : isTabularRow cols (.obj es) = true) :
    rowValues (zipRow cols (rowValues es cols)) cols = rowValues es cols := by
  simp only [isTabularRow, Bool.and_eq_true, beq_iff_eq] at hr
  obtain ⟨ps, e1, e2, _⟩ := rowPrims_ok hr.2
  simp only [rowValues, e1]
  rw [rowPrims_zip _ _ (objGet_zipRow e1) e1]

theorem isTabularRow_zipRow {es : List (Str × Json F)} {cols : List Str} (hr : isTabularRow cols (.obj es) = true) :
    isTabularRow cols (.obj (zipRow cols (rowValues es cols))) = true := by
  simp only [isTabularRow, Bool.and_eq_true, beq_iff_eq] at hr ⊢
  obtain ⟨ps, e1, e2, _⟩ := rowPrims_ok hr.2
  simp only [rowValues, e1]
  constructor
  · have := congrArg List.length (zipRow_keys e2)
    simpa using this
  · apply List.all_eq_true.mpr
    intro c hc
    rw [objGet_zipRow e1 c hc]
    exact List.all_eq_true.mp hr.2 c hc

theorem tableRows_cons (es : List (Str × Json F)) (vs : List (Json F)) (cols : List Str) :
    tableRows (.obj es :: vs) cols = .obj (zipRow cols (rowValues es cols)) :: tableRows vs cols := rfl

theorem tableRows_tabular {items : List (Json F)} {cols : List Str} (h : isTabularArray items cols = true) :
    isTabularArray (tableRows items cols) cols = true ∧ (tableRows items cols).length = items.length ∧
      isArrayOfObjs (tableRows items cols) = true := by
  induction items with
  | nil => exact ⟨rfl, rfl, rfl⟩
  | cons v vs ih =>
    simp only [isTabularArray, List.all_cons, Bool.and_eq_true] at h
    cases v with
    | prim _ => simp [isTabularRow] at h
    | arr _ => simp [isTabularRow] at h
    | obj es =>
      obtain ⟨h1, h2, h3⟩ := ih h.2
      rw [tableRows_cons]
      refine ⟨?_, by simp [h2], ?_⟩
      · simp only [isTabularArray, List.all_cons, Bool.and_eq_true]
        exact ⟨isTabularRow_zipRow h.1, h1⟩
      · simp only [isArrayOfObjs, List.all_cons, Bool.and_eq_true]
        exact ⟨rfl, h3⟩

theorem tableHeader_tableRows {items : List (Json F)} {cols : List Str} (h : tableHeader items = some cols) :
    tableHeader (tableRows items cols) = some cols := by
  obtain ⟨hc, ht, es, rest, rfl, hk⟩ := tableHeader_some h
  obtain ⟨h1, h2, h3⟩ := tableRows_tabular ht
  have hrow : isTabularRow cols (.obj es) = true := (List.all_eq_true.mp ht) _ (by simp)
  have hkeys : (zipRow cols (rowValues es cols)).map Prod.fst = cols := by
    simp only [isTabularRow, Bool.and_eq_true, beq_iff_eq] at hrow
    obtain ⟨ps, e1, e2, _⟩ := rowPrims_ok hrow.2
    simp only [rowValues, e1]
    exact zipRow_keys e2
  unfold tableHeader
  rw [h3]
  simp only [if_true]
  rw [tableRows_cons] at h1 ⊢
  unfold extractTabularHeader
  simp only
  rw [if_neg]
  · simp only [hkeys, h1, if_true]
  · intro he
    rw [List.isEmpty_iff.mp he] at hkeys
    simp at hkeys
    exact hc hkeys

theorem tableHeader_canonArr (items : List (Json F)) : tableHeader (canonArr items) = tableHeader items := by
  unfold canonArr
  split
  · rename_i h; rw [tableHeader_tableRows h, h]
  · exact tableHeader_canonItems items

theorem canonArr_length (items : List (Json F)) : (canonArr items).length = items.length := by
  unfold canonArr
  split
  · rename_i h
    obtain ⟨_, ht, _⟩ := tableHeader_some h
    exact (tableRows_tabular ht).2.1
  · exact canonItems_length items

theorem isArrayOfPrims_canonItems (items : List (Json F)) : isArrayOfPrims (canonItems items) = isArrayOfPrims items :=
  all_canon (canon_isPrim false) items

theorem isArrayOfPrims_canonArr (items : List (Json F)) : isArrayOfPrims (canonArr items) = isArrayOfPrims items := by
  unfold canonArr
  split
  · rename_i cols h
    obtain ⟨_, ht, es, rest, rfl, _⟩ := tableHeader_some h
    rw [tableRows_cons]
    simp [isArrayOfPrims, Json.isPrim]
  · exact isArrayOfPrims_canonItems items

end

section
variable {F : Type} [F64 F]

theorem tabularRows_tableRows {items : List (Json F)} {cols : List Str} (depth : Nat) (d : Char)
    (h : isTabularArray items cols = true) :
    tabularRows (tableRows items cols) cols depth d = tabularRows items cols depth d := by
  induction items with
  | nil => rfl
  | cons v vs ih =>
    simp only [isTabularArray, List.all_cons, Bool.and_eq_true] at h
    cases v with
    | prim _ => simp [isTabularRow] at h
    | arr _ => simp [isTabularRow] at h
    | obj es =>
      rw [tableRows_cons]
      simp only [tabularRows, List.filterMap_cons] at ih ⊢
      rw [ih h.2, rowValues_zipRow h.1]

mutual
theorem encodeObject_canon {opts : EncOpts} (hf : opts.fold = false) (entries : List (Str × Json F)) (depth : Nat)
    (rlk rlk' : Option (List Str)) (pp pp' : Option Str) (rem rem' : Option Nat) :
    encodeObject opts (canonEntries entries) depth rlk pp rem = encodeObject opts entries depth rlk' pp' rem' := by
  rw [encodeObject, encodeObject]
  exact encodeEntries_canon hf _ _ _ _ _ _ _ _ entries depth
termination_by (sizeOf entries, 3)

theorem encodeEntries_canon {opts : EncOpts} (hf : opts.fold = false) (sib sib' : List Str) (rlk rlk' : Option (List Str))
    (pp pp' : Option Str) (fd fd' : Nat) (entries : List (Str × Json F)) (depth : Nat) :
    encodeEntries opts sib rlk pp fd (canonEntries entries) depth = encodeEntries opts sib' rlk' pp' fd' entries depth := by
  match entries with
  | [] => rw [canonEntries, encodeEntries, encodeEntries]
  | (k, v) :: rest =>
    rw [canonEntries, encodeEntries, encodeEntries, encodeKeyValue_eq, encodeKeyValue_eq, tryFold_off hf, tryFold_off hf]
    simp only
    rw [writeEntry_canon hf rlk rlk' _ (extendPath pp' k) fd fd' k v depth,
      encodeEntries_canon hf sib sib' rlk rlk' pp pp' fd fd' rest depth]
termination_by (sizeOf entries, 2)

theorem writeEntry_canon {opts : EncOpts} (hf : opts.fold = false) (rlk rlk' : Option (List Str)) (path path' : Str)
    (fd fd' : Nat) (key : Str) (value : Json F) (depth : Nat) :
    writeEntry opts rlk path fd key (canon true value) depth = writeEntry opts rlk' path' fd' key value depth := by
  match value with
  | .prim p => simp only [canon, writeEntry]
  | .arr items =>
    rw [canon_arr]
    simp only [writeEntry, encodeArray_head_tail]
    rw [arrayHead_canon opts (some key) items, arrayTail_canon hf items depth]
  | .obj es =>
    simp only [canon, writeEntry]
    rw [encodeObject_canon hf es (depth + 1) rlk rlk' (some path) (some path') (some fd) (some fd')]
termination_by (sizeOf value, 0)

theorem arrayHead_canon (opts : EncOpts) (key : Option Str) (items : List (Json F)) :
    arrayHead opts key (canonArr items) = arrayHead opts key items := by
  unfold arrayHead
  rw [isArrayOfPrims_canonArr, tableHeader_canonArr, canonArr_length]
  split
  · rename_i h
    unfold canonArr
    rw [tableHeader_prims h]
    simp only
    rw [canonItems_prims h]
  · rfl
termination_by (sizeOf items, 4)

theorem arrayTail_canon {opts : EncOpts} (hf : opts.fold = false) (items : List (Json F)) (depth : Nat) :
    arrayTail opts (canonArr items) depth = arrayTail opts items depth := by
  unfold arrayTail
  rw [isArrayOfPrims_canonArr, tableHeader_canonArr]
  split
  · rfl
  · unfold canonArr
    cases ht : tableHeader items with
    | some cols =>
      simp only
      exact tabularRows_tableRows _ _ (tableHeader_some ht).2.1
    | none => exact encodeItems_canon hf items (depth + 1)
termination_by (sizeOf items, 4)

theorem encodeItems_canon {opts : EncOpts} (hf : opts.fold = false) (items : List (Json F)) (depth : Nat) :
    encodeItems opts (canonItems items) depth = encodeItems opts items depth := by
  match items with
  | [] => rw [canonItems]
  | v :: vs =>
    rw [canonItems, encodeItems, encodeItems, encodeItem_canon hf v depth, encodeItems_canon hf vs depth]
termination_by (sizeOf items, 3)

theorem encodeItem_canon {opts : EncOpts} (hf : opts.fold = false) (value : Json F) (depth : Nat) :
    encodeItem opts (canon false value) depth = encodeItem opts value depth := by
  match value with
  | .prim p => rw [canon]
  | .arr items =>
    rw [canon]
    simp only [Bool.false_eq_true, if_false]
    rw [encodeItem, encodeItem, isArrayOfPrims_canonItems, canonItems_length]
    split
    · rename_i h; rw [canonItems_prims h]
    · rw [encodeItems_canon hf items (depth + 1)]
  | .obj es =>
    rw [canon, encodeItem, encodeItem]
    match es with
    | [] => rw [canonEntries]
    | (k, v) :: rest =>
      rw [canonEntries, encodeObjectItem_cons, encodeObjectItem_cons,
        encodeObject_canon hf rest (depth + 1) none none none none none none]
      match v with
      | .prim p => simp only [canon]
      | .arr items =>
        simp only [canon_arr]
        rw [arrayHead_canon opts (some k) items, arrayTail_canon hf items (depth + 1)]
      | .obj es' =>
        simp only [canon]
        rw [encodeObject_canon hf es' (depth + 2) none none none none none none]
termination_by (sizeOf value, 1)
end

theorem encodeValue_canon {opts : EncOpts} (hf : opts.fold = false) (v : Json F) :
    encodeValue opts (canon true v) = encodeValue opts v := by
  cases v with
  | prim p => rw [canon]
  | arr items =>
    rw [canon_arr]
    simp only [encodeValue, encodeArray_head_tail]
    rw [arrayHead_canon opts none items, arrayTail_canon hf items 0]
  | obj es =>
    rw [canon]
    exact encodeObject_canon hf es 0 none none none none none none

end

theorem Json.Equiv.symm {F : Type} {a b : Json F} (h : a ≃ b) : b ≃ a := by
  induction h with
  | refl v => exact .refl v
  | trans _ _ ih1 ih2 => exact .trans ih2 ih1
  | arr pre post _ ih => exact .arr pre post ih
  | obj pre post k _ ih => exact .obj pre post k ih
  | perm h => exact .perm h.symm

end Toon
