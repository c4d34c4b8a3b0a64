import Verif.Spec.Values
import Verif.Lemmas.Header

/-!
# The value a document stands for

`shape*` mirror the encoder and give the value that the written lines denote: folded keys, and the
rows of tables in column order.
-/

namespace Toon

section
variable {F : Type}

/-- The columns when the encoder writes a table. -/
def tableHeader (items : List (Json F)) : Option (List Str) :=
  if isArrayOfObjs items then extractTabularHeader items else none

/-- An object from column names and values. -/
def zipRow : List Str → List (Prim F) → List (Str × Json F)
  | k :: ks, p :: ps => (k, .prim p) :: zipRow ks ps
  | _, _ => []

/-- The rows of a table, in column order. -/
def tableRows (items : List (Json F)) (header : List Str) : List (Json F) :=
  items.filterMap fun row =>
    match row with
    | .obj entries => some (.obj (zipRow header (rowValues entries header)))
    | _ => none

mutual

def shapeObject (opts : EncOpts) (entries : List (Str × Json F)) (depth : Nat)
    (rlk : Option (List Str)) (pp : Option Str) (remaining : Option Nat) : List (Str × Json F) :=
  let keys := entries.map Prod.fst
  shapeEntries opts keys (rootLiterals depth rlk keys) pp (remaining.getD opts.flattenDepth)
    entries depth
termination_by (sizeOf entries, 3)

def shapeEntries (opts : EncOpts) (siblings : List Str) (rlk : Option (List Str))
    (pp : Option Str) (fd : Nat) (entries : List (Str × Json F)) (depth : Nat) : List (Str × Json F) :=
  match entries with
  | [] => []
  | (k, v) :: rest =>
    shapeKeyValue opts siblings rlk pp fd k v depth :: shapeEntries opts siblings rlk pp fd rest depth
termination_by (sizeOf entries, 2)

def shapeKeyValue (opts : EncOpts) (siblings : List Str) (rlk : Option (List Str))
    (pp : Option Str) (fd : Nat) (key : Str) (value : Json F) (depth : Nat) : Str × Json F :=
  match hf : tryFold key value siblings opts rlk pp fd with
  | some folded =>
    match _hl : folded.leaf with
    | .prim p => (folded.foldedKey, .prim p)
    | .arr items => (folded.foldedKey, .arr (shapeArray opts items))
    | .obj entries =>
      (folded.foldedKey, .obj (shapeObject opts entries (depth + 1) rlk
        (some (extendPath pp folded.foldedKey)) (some (fd - folded.segmentCount))))
  | none =>
    match value with
    | .prim p => (key, .prim p)
    | .arr items => (key, .arr (shapeArray opts items))
    | .obj entries => (key, .obj (shapeObject opts entries (depth + 1) rlk (some (extendPath pp key)) (some fd)))
termination_by (sizeOf value, 0)
decreasing_by
  all_goals simp_wf
  · have := tryFold_size hf
    rw [_hl] at this
    simp at this
    apply Prod.Lex.left
    omega
  · have := tryFold_size hf
    rw [_hl] at this
    simp at this
    apply Prod.Lex.left
    omega
  · apply Prod.Lex.left; omega
  · apply Prod.Lex.left; omega

def shapeArray (opts : EncOpts) (items : List (Json F)) : List (Json F) :=
  if isArrayOfPrims items then items
  else
    match tableHeader items with
    | some header => tableRows items header
    | none => shapeItems opts items
termination_by (sizeOf items, 4)

def shapeItems (opts : EncOpts) (items : List (Json F)) : List (Json F) :=
  match items with
  | [] => []
  | v :: vs => shapeItem opts v :: shapeItems opts vs
termination_by (sizeOf items, 3)

def shapeItem (opts : EncOpts) (value : Json F) : Json F :=
  match value with
  | .prim p => .prim p
  | .arr items => .arr (if isArrayOfPrims items then items else shapeItems opts items)
  | .obj entries => .obj (shapeObjectItem opts entries)
termination_by (sizeOf value, 1)

def shapeObjectItem (opts : EncOpts) (entries : List (Str × Json F)) : List (Str × Json F) :=
  match entries with
  | [] => []
  | (k, v) :: rest =>
    (k, match v with
      | .prim p => .prim p
      | .arr items => .arr (shapeArray opts items)
      | .obj es => .obj (shapeObject opts es 1 none none none)) ::
    shapeObject opts rest 1 none none none
termination_by (sizeOf entries, 0)

end

/-- The value denoted by the encoding of `v`. -/
def shape (opts : EncOpts) (v : Json F) : Json F :=
  match v with
  | .prim p => .prim p
  | .arr items => .arr (shapeArray opts items)
  | .obj es => .obj (shapeObject opts es 0 none none none)

/-! The depth is used only to recognise the root. -/

theorem rootLiterals_pos {d : Nat} (h : d ≠ 0) (rlk : Option (List Str)) (keys : List Str) :
    rootLiterals d rlk keys = rlk := by
  simp [rootLiterals, h]

mutual
theorem shapeObject_depth (opts : EncOpts) (entries : List (Str × Json F)) {d d' : Nat}
    (hd : d ≠ 0) (hd' : d' ≠ 0) (rlk : Option (List Str)) (pp : Option Str) (rem : Option Nat) :
    shapeObject opts entries d rlk pp rem = shapeObject opts entries d' rlk pp rem := by
  rw [shapeObject, shapeObject]
  simp only [rootLiterals_pos hd, rootLiterals_pos hd']
  exact shapeEntries_depth opts _ _ _ _ entries d d'
termination_by (sizeOf entries, 3)

theorem shapeEntries_depth (opts : EncOpts) (siblings : List Str) (rlk : Option (List Str))
    (pp : Option Str) (fd : Nat) (entries : List (Str × Json F)) (d d' : Nat) :
    shapeEntries opts siblings rlk pp fd entries d = shapeEntries opts siblings rlk pp fd entries d' := by
  cases entries with
  | nil => rw [shapeEntries, shapeEntries]
  | cons kv rest =>
    obtain ⟨k, v⟩ := kv
    rw [shapeEntries, shapeEntries, shapeKeyValue_depth opts siblings rlk pp fd k v d d',
      shapeEntries_depth opts siblings rlk pp fd rest d d']
termination_by (sizeOf entries, 2)

theorem shapeKeyValue_depth (opts : EncOpts) (siblings : List Str) (rlk : Option (List Str))
    (pp : Option Str) (fd : Nat) (key : Str) (value : Json F) (d d' : Nat) :
    shapeKeyValue opts siblings rlk pp fd key value d = shapeKeyValue opts siblings rlk pp fd key value d' := by
  rw [shapeKeyValue, shapeKeyValue]
  split
  · rename_i folded hf
    split
    · rfl
    · rfl
    · rename_i es hl
      have hlt : sizeOf es < sizeOf value := by
        have := tryFold_size hf
        rw [hl] at this
        simp at this
        omega
      rw [shapeObject_depth opts es (d := d + 1) (d' := d' + 1) (by omega) (by omega)]
  · cases value with
    | prim p => rfl
    | arr items => rfl
    | obj es =>
      simp only
      rw [shapeObject_depth opts es (d := d + 1) (d' := d' + 1) (by omega) (by omega)]
termination_by (sizeOf value, 0)
decreasing_by
  · apply Prod.Lex.left; exact hlt
  · simp_wf
    apply Prod.Lex.left; omega
end

theorem shapeItems_length (opts : EncOpts) (items : List (Json F)) :
    (shapeItems opts items).length = items.length := by
  induction items with
  | nil => rw [shapeItems]
  | cons v vs ih => rw [shapeItems]; simp [ih]

/-! ## The encoder, simplified -/

end

section
variable {F : Type} [F64 F]

omit [F64 F] in
theorem primsOf_all {items : List (Json F)} (h : isArrayOfPrims items = true) :
    items = (primsOf items).map .prim := by
  induction items with
  | nil => rfl
  | cons v vs ih =>
    simp only [isArrayOfPrims, List.all_cons, Bool.and_eq_true] at h
    cases v with
    | prim p => simp only [primsOf, List.map_cons]; rw [← ih h.2]
    | arr _ => simp [Json.isPrim] at h
    | obj _ => simp [Json.isPrim] at h

theorem encodeItems_arrays (opts : EncOpts) (items : List (Json F)) (depth : Nat)
    (h : items.all (fun item => match item with
        | .arr xs => isArrayOfPrims xs
        | _ => false) = true) :
    encodeItems opts items depth = items.filterMap (fun item => match item with
        | .arr xs => some ⟨depth, dash (encodeInlineArrayLine xs opts.delim none)⟩
        | _ => none) := by
  induction items with
  | nil => rw [encodeItems]; rfl
  | cons v vs ih =>
    simp only [List.all_cons, Bool.and_eq_true] at h
    rw [encodeItems, ih h.2]
    cases v with
    | prim _ => simp at h
    | obj _ => simp at h
    | arr xs =>
      simp only at h
      rw [encodeItem]
      simp [h.1]

theorem encodeArray_eq (opts : EncOpts) (key : Option Str) (items : List (Json F)) (depth : Nat) :
    encodeArray opts key items depth =
      if isArrayOfPrims items then [⟨depth, encodeInlineArrayLine items opts.delim key⟩]
      else
        match tableHeader items with
        | some header =>
          ⟨depth, formatHeader items.length key (some header) opts.delim⟩ ::
            tabularRows items header (depth + 1) opts.delim
        | none =>
          ⟨depth, formatHeader items.length key none opts.delim⟩ ::
            encodeItems opts items (depth + 1) := by
  rw [encodeArray]
  split
  · rename_i h
    simp only [List.isEmpty_iff] at h
    subst h
    simp [isArrayOfPrims, encodeInlineArrayLine, primsOf]
  · rename_i hne
    split
    · rfl
    · rename_i hnp
      split
      · rename_i ha
        simp only [Bool.and_eq_true] at ha
        have : tableHeader items = none := by
          unfold tableHeader
          rw [if_neg]
          intro ho
          cases items with
          | nil => simp at hne
          | cons v vs =>
            simp only [isArrayOfObjs, isArrayOfArrays, List.all_cons, Bool.and_eq_true] at ha ho
            cases v <;> simp [Json.isObj, Json.isArr] at ha ho
        simp only [this]
        rw [encodeItems_arrays opts items (depth + 1) ha.2]
        congr 2
      · unfold tableHeader; rfl

theorem keyText_formatHeader (k : Str) (n : Nat) (d : Char) :
    encodeKey k ++ formatHeader n none none d = formatHeader n (some k) none d := by
  rw [formatHeader_eq, formatHeader_eq]
  simp [keyText]

theorem keyText_inline (k : Str) (items : List (Json F)) (d : Char) :
    encodeKey k ++ encodeInlineArrayLine items d none = encodeInlineArrayLine items d (some k) := by
  unfold encodeInlineArrayLine
  simp only
  split
  · exact keyText_formatHeader k _ d
  · rw [← keyText_formatHeader k]; simp

/-- The content of the first line of `encodeArray`, and the lines below it. -/
def arrayHead (opts : EncOpts) (key : Option Str) (items : List (Json F)) : Str :=
  if isArrayOfPrims items then encodeInlineArrayLine items opts.delim key
  else formatHeader items.length key (tableHeader items) opts.delim

def arrayTail (opts : EncOpts) (items : List (Json F)) (depth : Nat) : List OutLine :=
  if isArrayOfPrims items then []
  else
    match tableHeader items with
    | some header => tabularRows items header (depth + 1) opts.delim
    | none => encodeItems opts items (depth + 1)

theorem encodeArray_head_tail (opts : EncOpts) (key : Option Str) (items : List (Json F)) (depth : Nat) :
    encodeArray opts key items depth = ⟨depth, arrayHead opts key items⟩ :: arrayTail opts items depth := by
  rw [encodeArray_eq, arrayHead, arrayTail]
  split
  · rfl
  · split <;> simp [*]

theorem encodeObjectItem_cons (opts : EncOpts) (k : Str) (v : Json F) (rest : List (Str × Json F)) (depth : Nat) :
    encodeObjectItem opts ((k, v) :: rest) depth =
      (match v with
      | .prim p => [⟨depth, dash (encodeKey k ++ ':' :: ' ' :: encodePrimitive p opts.delim)⟩]
      | .arr items => ⟨depth, dash (arrayHead opts (some k) items)⟩ :: arrayTail opts items (depth + 1)
      | .obj es => ⟨depth, dash (encodeKey k ++ [':'])⟩ :: encodeObject opts es (depth + 2) none none none) ++
      encodeObject opts rest (depth + 1) none none none := by
  have hrest : (if rest.isEmpty then [] else encodeObject opts rest (depth + 1) none none none) =
      encodeObject opts rest (depth + 1) none none none := by
    cases rest with
    | nil => rw [encodeObject, encodeEntries]; rfl
    | cons => rfl
  rw [encodeObjectItem.eq_def]
  simp only [hrest]
  cases v with
  | prim p => rfl
  | arr items =>
    simp only
    congr 1
    change (match tableHeader items with
      | some header => _
      | none => _) = _
    unfold arrayHead arrayTail
    cases ht : tableHeader items with
    | some header =>
      have : isArrayOfPrims items = false := by
        unfold tableHeader extractTabularHeader at ht
        split at ht
        · cases items with
          | nil => simp at ht
          | cons v vs =>
            cases v with
            | prim p => simp at ht
            | arr p => simp at ht
            | obj p => simp [isArrayOfPrims, Json.isPrim]
        · contradiction
      simp [this]
    | none =>
      simp only
      by_cases he : items = []
      · subst he
        simp [isArrayOfPrims, encodeInlineArrayLine, primsOf, keyText_formatHeader]
      · have : items.isEmpty = false := by simpa using he
        rw [this]
        simp only [Bool.false_eq_true, if_false]
        split
        · rw [keyText_inline]
        · rw [keyText_formatHeader]
  | obj es =>
    simp only
    cases es with
    | nil => rw [encodeObject, encodeEntries]; rfl
    | cons => rfl

theorem encodeObject_nil (opts : EncOpts) (depth : Nat) (rlk : Option (List Str)) (pp : Option Str) (rem : Option Nat) :
    encodeObject (F := F) opts [] depth rlk pp rem = [] := by
  rw [encodeObject, encodeEntries]

theorem ifEmpty_encodeObject (opts : EncOpts) (es : List (Str × Json F)) (depth : Nat) (rlk : Option (List Str))
    (pp : Option Str) (rem : Option Nat) :
    (if es.isEmpty then [] else encodeObject opts es depth rlk pp rem) = encodeObject opts es depth rlk pp rem := by
  cases es with
  | nil => rw [encodeObject_nil]; rfl
  | cons => rfl

/-- Writing one entry without looking for a fold. -/
def writeEntry (opts : EncOpts) (rlk : Option (List Str)) (path : Str) (fd : Nat) (key : Str) (value : Json F)
    (depth : Nat) : List OutLine :=
  match value with
  | .prim p => [⟨depth, encodeKey key ++ ':' :: ' ' :: encodePrimitive p opts.delim⟩]
  | .arr items => encodeArray opts (some key) items depth
  | .obj entries => ⟨depth, encodeKey key ++ [':']⟩ :: encodeObject opts entries (depth + 1) rlk (some path) (some fd)

omit [F64 F] in
/-- The value denoted by one entry without looking for a fold. -/
def shapeEntry (opts : EncOpts) (rlk : Option (List Str)) (path : Str) (fd : Nat) (value : Json F)
    (depth : Nat) : Json F :=
  match value with
  | .prim p => .prim p
  | .arr items => .arr (shapeArray opts items)
  | .obj entries => .obj (shapeObject opts entries (depth + 1) rlk (some path) (some fd))

theorem encodeKeyValue_eq (opts : EncOpts) (siblings : List Str) (rlk : Option (List Str)) (pp : Option Str) (fd : Nat)
    (key : Str) (value : Json F) (depth : Nat) :
    encodeKeyValue opts siblings rlk pp fd key value depth =
      match tryFold key value siblings opts rlk pp fd with
      | some r => writeEntry opts rlk (extendPath pp r.foldedKey) (fd - r.segmentCount) r.foldedKey r.leaf depth
      | none => writeEntry opts rlk (extendPath pp key) fd key value depth := by
  rw [encodeKeyValue]
  split
  · rename_i r hf
    rw [hf]
    simp only
    unfold writeEntry
    split
    · rename_i h; simp [h]
    · rename_i h; simp [h]
    · rename_i h; simp only [h, ifEmpty_encodeObject]
  · rename_i hf
    cases value with
    | prim p => simp only; rw [hf]; rfl
    | arr p => simp only; rw [hf]; rfl
    | obj es => simp only; rw [hf]; simp only [ifEmpty_encodeObject, writeEntry]

omit [F64 F] in
theorem shapeKeyValue_eq (opts : EncOpts) (siblings : List Str) (rlk : Option (List Str)) (pp : Option Str) (fd : Nat)
    (key : Str) (value : Json F) (depth : Nat) :
    shapeKeyValue opts siblings rlk pp fd key value depth =
      match tryFold key value siblings opts rlk pp fd with
      | some r => (r.foldedKey, shapeEntry opts rlk (extendPath pp r.foldedKey) (fd - r.segmentCount) r.leaf depth)
      | none => (key, shapeEntry opts rlk (extendPath pp key) fd value depth) := by
  rw [shapeKeyValue]
  split
  · rename_i r hf
    rw [hf]
    simp only
    unfold shapeEntry
    split
    · rename_i h; simp [h]
    · rename_i h; simp [h]
    · rename_i h; simp [h]
  · rename_i hf
    cases value with
    | prim p => simp only; rw [hf]; rfl
    | arr p => simp only; rw [hf]; rfl
    | obj es => simp only; rw [hf]; rfl

end

end Toon
