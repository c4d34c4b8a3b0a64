import Verif.Lemmas.Lines
import Verif.Lemmas.Output

/-! A flatten depth at least as large as the nesting of the value never stops a fold. -/

namespace Toon

section
variable {F : Type}

theorem collectChain_enough {b b' : Nat} {v : Json F} (h : height v ≤ b) (h' : height v ≤ b') :
    collectChain b v = collectChain b' v := by
  induction b generalizing b' v with
  | zero =>
    cases v with
    | prim p => cases b' <;> simp [collectChain]
    | arr items => simp [height] at h
    | obj es => simp [height] at h
  | succ b ih =>
    cases v with
    | prim p => cases b' <;> simp [collectChain]
    | arr items => cases b' <;> simp [collectChain]
    | obj es =>
      cases b' with
      | zero => simp [height] at h'
      | succ b' =>
        match es with
        | [] => simp [collectChain]
        | [(k, v)] =>
          simp only [height, heightEntries] at h h'
          simp only [collectChain]
          rw [ih (b' := b') (by omega) (by omega)]
        | e :: e' :: es => simp [collectChain]

theorem collectChain_length (b : Nat) (v : Json F) :
    (collectChain b v).1.length + height (collectChain b v).2 ≤ height v := by
  fun_induction collectChain b v with
  | case1 v => simp
  | case2 budget k v segs leaf hc ih =>
    simp only [hc] at ih ⊢
    simp only [height, heightEntries, List.length_cons]
    omega
  | case3 => simp

theorem tryFold_enough (opts : EncOpts) (d' : Nat) (key : Str) (value : Json F) (siblings : List Str)
    (rlk : Option (List Str)) (pp : Option Str) {fd fd' : Nat} (h : height value + 1 ≤ fd) (h' : height value + 1 ≤ fd') :
    tryFold key value siblings opts rlk pp fd = tryFold key value siblings { opts with flattenDepth := d' } rlk pp fd' := by
  unfold tryFold
  by_cases ho : value.isObj
  · have h1 : 1 ≤ height value := by
      cases value with
      | prim _ => simp [Json.isObj] at ho
      | arr _ => simp [Json.isObj] at ho
      | obj es => simp [height]
    have e1 : ¬ fd < 2 := by omega
    have e2 : ¬ fd' < 2 := by omega
    rw [collectChain_enough (b := fd - 1) (b' := fd' - 1) (by omega) (by omega)]
    simp only [e1, e2]
  · simp [ho]

theorem tryFold_fields {key : Str} {value : Json F} {siblings : List Str} {opts : EncOpts} {rlk : Option (List Str)}
    {pp : Option Str} {fd : Nat} {r : FoldResult F} (h : tryFold key value siblings opts rlk pp fd = some r) :
    r.leaf = (collectChain (fd - 1) value).2 ∧ r.segmentCount = (collectChain (fd - 1) value).1.length + 1 := by
  unfold tryFold at h
  split at h
  · cases h
  split at h
  · cases h
  split at h
  · cases h
  simp only at h
  split at h
  · cases h
  split at h
  · cases h
  split at h
  · cases h
  split at h
  · split at h
    · cases h
    · cases h; exact ⟨rfl, rfl⟩
  · cases h; exact ⟨rfl, rfl⟩

variable [F64 F]

mutual
theorem enough_object (opts : EncOpts) (d' : Nat) (entries : List (Str × Json F)) (depth : Nat) (rlk : Option (List Str))
    (pp : Option Str) (rem rem' : Option Nat) (h1 : heightEntries entries + 1 ≤ opts.flattenDepth)
    (h2 : heightEntries entries + 1 ≤ d') (h3 : heightEntries entries + 1 ≤ rem.getD opts.flattenDepth)
    (h4 : heightEntries entries + 1 ≤ rem'.getD d') :
    encodeObject opts entries depth rlk pp rem =
      encodeObject { opts with flattenDepth := d' } entries depth rlk pp rem' := by
  rw [encodeObject, encodeObject]
  exact enough_entries opts d' _ _ _ _ _ entries depth h1 h2 h3 h4
termination_by (sizeOf entries, 3)

theorem enough_entries (opts : EncOpts) (d' : Nat) (siblings : List Str) (rlk : Option (List Str)) (pp : Option Str)
    (fd fd' : Nat) (entries : List (Str × Json F)) (depth : Nat) (h1 : heightEntries entries + 1 ≤ opts.flattenDepth)
    (h2 : heightEntries entries + 1 ≤ d') (h3 : heightEntries entries + 1 ≤ fd) (h4 : heightEntries entries + 1 ≤ fd') :
    encodeEntries opts siblings rlk pp fd entries depth =
      encodeEntries { opts with flattenDepth := d' } siblings rlk pp fd' entries depth := by
  match entries with
  | [] => rw [encodeEntries, encodeEntries]
  | (k, v) :: rest =>
    simp only [heightEntries] at h1 h2 h3 h4
    rw [encodeEntries, encodeEntries, enough_keyValue opts d' siblings rlk pp fd fd' k v depth (by omega) (by omega) (by omega) (by omega),
      enough_entries opts d' siblings rlk pp fd fd' rest depth (by omega) (by omega) (by omega) (by omega)]
termination_by (sizeOf entries, 2)

theorem enough_keyValue (opts : EncOpts) (d' : Nat) (siblings : List Str) (rlk : Option (List Str)) (pp : Option Str)
    (fd fd' : Nat) (key : Str) (value : Json F) (depth : Nat) (h1 : height value ≤ opts.flattenDepth) (h2 : height value ≤ d')
    (h3 : height value + 1 ≤ fd) (h4 : height value + 1 ≤ fd') :
    encodeKeyValue opts siblings rlk pp fd key value depth =
      encodeKeyValue { opts with flattenDepth := d' } siblings rlk pp fd' key value depth := by
  rw [encodeKeyValue_eq, encodeKeyValue_eq, ← tryFold_enough opts d' key value siblings rlk pp h3 h4]
  cases hf : tryFold key value siblings opts rlk pp fd with
  | some r =>
    simp only
    have hlt := tryFold_size hf
    obtain ⟨e1, e2⟩ := tryFold_fields hf
    have hl := collectChain_length (fd - 1) value
    rw [← e1] at hl
    have e3 : (collectChain (fd - 1) value).1.length + height r.leaf ≤ height value := hl
    exact enough_entry opts d' rlk _ (fd - r.segmentCount) (fd' - r.segmentCount) r.foldedKey r.leaf depth (by omega)
      (by omega) (by omega) (by omega)
  | none =>
    simp only
    exact enough_entry opts d' rlk _ fd fd' key value depth h1 h2 (by omega) (by omega)
termination_by (sizeOf value, 1)
decreasing_by
  all_goals first
    | (apply Prod.Lex.left; assumption)
    | (apply Prod.Lex.right; decide)

theorem enough_entry (opts : EncOpts) (d' : Nat) (rlk : Option (List Str)) (path : Str) (fd fd' : Nat)
    (key : Str) (value : Json F) (depth : Nat) (h1 : height value ≤ opts.flattenDepth) (h2 : height value ≤ d')
    (h3 : height value ≤ fd) (h4 : height value ≤ fd') :
    writeEntry opts rlk path fd key value depth =
      writeEntry { opts with flattenDepth := d' } rlk path fd' key value depth := by
  match value with
  | .prim p => simp only [writeEntry]
  | .arr items =>
    simp only [height] at h1 h2
    simp only [writeEntry]
    rw [encodeArray_head_tail, encodeArray_head_tail, enough_tail opts d' items depth (by omega) (by omega)]
    rfl
  | .obj es =>
    simp only [height] at h1 h2 h3 h4
    simp only [writeEntry]
    rw [enough_object opts d' es (depth + 1) rlk (some path) (some fd) (some fd') h1 h2 h3 h4]
termination_by (sizeOf value, 0)

theorem enough_tail (opts : EncOpts) (d' : Nat) (items : List (Json F)) (depth : Nat)
    (h1 : heightItems items ≤ opts.flattenDepth) (h2 : heightItems items ≤ d') :
    arrayTail opts items depth = arrayTail { opts with flattenDepth := d' } items depth := by
  rw [arrayTail, arrayTail]
  split
  · rfl
  · cases tableHeader items with
    | some cols => rfl
    | none => exact enough_items opts d' items (depth + 1) h1 h2
termination_by (sizeOf items, 4)

theorem enough_items (opts : EncOpts) (d' : Nat) (items : List (Json F)) (depth : Nat)
    (h1 : heightItems items ≤ opts.flattenDepth) (h2 : heightItems items ≤ d') :
    encodeItems opts items depth = encodeItems { opts with flattenDepth := d' } items depth := by
  match items with
  | [] => rw [encodeItems, encodeItems]
  | v :: vs =>
    simp only [heightItems] at h1 h2
    rw [encodeItems, encodeItems, enough_item opts d' v depth (by omega) (by omega),
      enough_items opts d' vs depth (by omega) (by omega)]
termination_by (sizeOf items, 3)

theorem enough_item (opts : EncOpts) (d' : Nat) (value : Json F) (depth : Nat)
    (h1 : height value ≤ opts.flattenDepth) (h2 : height value ≤ d') :
    encodeItem opts value depth = encodeItem { opts with flattenDepth := d' } value depth := by
  match value with
  | .prim p => rw [encodeItem, encodeItem]
  | .arr items =>
    simp only [height] at h1 h2
    rw [encodeItem, encodeItem, enough_items opts d' items (depth + 1) (by omega) (by omega)]
  | .obj es =>
    rw [encodeItem, encodeItem]
    exact enough_objectItem opts d' es depth h1 h2
termination_by (sizeOf value, 1)

theorem enough_objectItem (opts : EncOpts) (d' : Nat) (entries : List (Str × Json F)) (depth : Nat)
    (h1 : height (.obj entries) ≤ opts.flattenDepth) (h2 : height (.obj entries) ≤ d') :
    encodeObjectItem opts entries depth = encodeObjectItem { opts with flattenDepth := d' } entries depth := by
  match entries with
  | [] => rw [encodeObjectItem, encodeObjectItem]
  | (k, v) :: rest =>
    simp only [height, heightEntries] at h1 h2
    rw [encodeObjectItem_cons, encodeObjectItem_cons,
      enough_object opts d' rest (depth + 1) none none none none (by omega) (by omega) (by simp only [Option.getD_none]; omega)
        (by simp only [Option.getD_none]; omega)]
    match v with
    | .prim p => rfl
    | .arr items =>
      simp only [height] at h1 h2
      simp only
      rw [enough_tail opts d' items (depth + 1) (by omega) (by omega)]
      rfl
    | .obj es =>
      simp only [height] at h1 h2
      simp only
      rw [enough_object opts d' es (depth + 2) none none none none (by omega) (by omega) (by simp only [Option.getD_none]; omega)
        (by simp only [Option.getD_none]; omega)]
termination_by (sizeOf entries, 0)
end

theorem encodeLines_enough (opts : EncOpts) (d' : Nat) (v : Json F) (h1 : height v ≤ opts.flattenDepth) (h2 : height v ≤ d') :
    encodeLines opts v = encodeLines { opts with flattenDepth := d' } v := by
  unfold encodeLines encodeJsonValue
  rw [← height_normalize] at h1 h2
  congr 1
  cases hv : normalize v with
  | prim p => rfl
  | arr items =>
    rw [hv] at h1 h2
    simp only [height] at h1 h2
    simp only [encodeValue]
    rw [encodeArray_head_tail, encodeArray_head_tail, enough_tail opts d' items 0 (by omega) (by omega)]
    rfl
  | obj es =>
    rw [hv] at h1 h2
    simp only [height] at h1 h2
    simp only [encodeValue]
    exact enough_object opts d' es 0 none none none none h1 h2 h1 h2

end

end Toon
