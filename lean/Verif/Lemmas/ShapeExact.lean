import Verif.Lemmas.Brace

/-! When nothing is reordered, the rows of every table are in column order. -/

namespace Toon

section
variable {F : Type}

theorem alignedEntries_prims {es : List (Str × Json F)} (h : ∀ e ∈ es, ∃ p, e.2 = .prim p) : AlignedEntries es := by
  induction es with
  | nil => simp [AlignedEntries]
  | cons e es ih =>
    obtain ⟨k, v⟩ := e
    obtain ⟨p, hp⟩ := h (k, v) (by simp)
    simp only at hp
    subst hp
    simp only [AlignedEntries, Aligned, true_and]
    exact ih fun e he => h e (by simp [he])

theorem alignedItems_of {vs : List (Json F)} (h : ∀ v ∈ vs, Aligned false v) : AlignedItems vs := by
  induction vs with
  | nil => simp [AlignedItems]
  | cons v vs ih => exact ⟨h v (by simp), ih fun v hv => h v (by simp [hv])⟩

theorem alignedItems_prims {items : List (Json F)} (h : isArrayOfPrims items = true) : AlignedItems items := by
  rw [primsOf_all h]
  apply alignedItems_of
  intro v hv
  obtain ⟨p, _, rfl⟩ := List.mem_map.mp hv
  simp [Aligned]

variable [F64 F]

theorem rows_aligned {items : List (Json F)} {cols : List Str} (ht : tableHeader items = some cols)
    (h : tableRows items cols = items) : Aligned true (.arr items) := by
  obtain ⟨_, htab, _⟩ := tableHeader_some ht
  have hrow : ∀ v ∈ items, ∃ ps : List (Prim F), ps.length = cols.length ∧ v = .obj (zipRow cols ps) := by
    intro v hv
    rw [← h] at hv
    unfold tableRows at hv
    obtain ⟨v', hv', he⟩ := List.mem_filterMap.mp hv
    have hr := List.all_eq_true.mp htab v' hv'
    cases v' with
    | prim _ => simp [isTabularRow] at hr
    | arr _ => simp [isTabularRow] at hr
    | obj es =>
      simp only [isTabularRow, Bool.and_eq_true, beq_iff_eq] at hr
      obtain ⟨ps, e1, e2, _⟩ := rowPrims_ok hr.2
      simp only [Option.some.injEq] at he
      refine ⟨ps, e2, ?_⟩
      rw [← he]
      simp [rowValues, e1]
  simp only [Aligned]
  refine ⟨?_, alignedItems_of ?_⟩
  · intro _ cols' hc es hes
    have := header_of_isTable hc
    rw [ht] at this
    simp only [Option.some.injEq] at this
    subst this
    obtain ⟨ps, hl, he⟩ := hrow _ hes
    simp only [Json.obj.injEq] at he
    rw [he, zipRow_keys hl]
  · intro v hv
    obtain ⟨ps, hl, rfl⟩ := hrow v hv
    simp only [Aligned]
    exact alignedEntries_prims (zipRow_prims cols ps)

mutual
theorem object_aligned {opts : EncOpts} (hf : opts.fold = false) (entries : List (Str × Json F)) (depth : Nat)
    (rlk : Option (List Str)) (pp : Option Str) (rem : Option Nat)
    (h : shapeObject opts entries depth rlk pp rem = entries) : AlignedEntries entries := by
  rw [shapeObject] at h
  exact entries_aligned hf _ _ _ _ entries depth h
termination_by (sizeOf entries, 3)

theorem entries_aligned {opts : EncOpts} (hf : opts.fold = false) (siblings : List Str) (rlk : Option (List Str))
    (pp : Option Str) (fd : Nat) (entries : List (Str × Json F)) (depth : Nat)
    (h : shapeEntries opts siblings rlk pp fd entries depth = entries) : AlignedEntries entries := by
  match entries, h with
  | [], _ => simp [AlignedEntries]
  | (k, v) :: rest, h =>
    rw [shapeEntries, shapeKeyValue_eq, tryFold_off hf] at h
    simp only [List.cons.injEq, Prod.mk.injEq, true_and] at h
    simp only [AlignedEntries]
    exact ⟨entry_aligned hf rlk _ fd v depth h.1, entries_aligned hf siblings rlk pp fd rest depth h.2⟩
termination_by (sizeOf entries, 2)

theorem entry_aligned {opts : EncOpts} (hf : opts.fold = false) (rlk : Option (List Str)) (path : Str) (fd : Nat)
    (value : Json F) (depth : Nat) (h : shapeEntry opts rlk path fd value depth = value) : Aligned true value := by
  match value, h with
  | .prim p, _ => simp [Aligned]
  | .arr items, h =>
    simp only [shapeEntry, Json.arr.injEq] at h
    exact array_aligned hf items h
  | .obj es, h =>
    simp only [shapeEntry, Json.obj.injEq] at h
    simp only [Aligned]
    exact object_aligned hf es (depth + 1) rlk _ _ h
termination_by (sizeOf value, 0)

theorem array_aligned {opts : EncOpts} (hf : opts.fold = false) (items : List (Json F))
    (h : shapeArray opts items = items) : Aligned true (.arr items) := by
  rw [shapeArray] at h
  by_cases hp : isArrayOfPrims items = true
  · simp only [Aligned]
    refine ⟨?_, alignedItems_prims hp⟩
    rintro _ cols ⟨_, ⟨es, rest, h1, _⟩, _⟩
    subst h1
    simp [isArrayOfPrims, Json.isPrim] at hp
  · rw [if_neg hp] at h
    cases ht : tableHeader items with
    | some cols => simp only [ht] at h; exact rows_aligned ht h
    | none =>
      simp only [ht] at h
      simp only [Aligned]
      refine ⟨?_, items_aligned hf items h⟩
      intro _ cols hc
      rw [header_of_isTable hc] at ht
      simp at ht
termination_by (sizeOf items, 4)

theorem items_aligned {opts : EncOpts} (hf : opts.fold = false) (items : List (Json F))
    (h : shapeItems opts items = items) : AlignedItems items := by
  match items, h with
  | [], _ => simp [AlignedItems]
  | v :: vs, h =>
    rw [shapeItems] at h
    simp only [List.cons.injEq] at h
    exact ⟨item_aligned hf v h.1, items_aligned hf vs h.2⟩
termination_by (sizeOf items, 3)

theorem item_aligned {opts : EncOpts} (hf : opts.fold = false) (value : Json F)
    (h : shapeItem opts value = value) : Aligned false value := by
  match value, h with
  | .prim p, _ => simp [Aligned]
  | .arr items, h =>
    rw [shapeItem] at h
    simp only [Json.arr.injEq] at h
    simp only [Aligned]
    refine ⟨by simp, ?_⟩
    by_cases hp : isArrayOfPrims items = true
    · exact alignedItems_prims hp
    · rw [if_neg hp] at h
      exact items_aligned hf items h
  | .obj es, h =>
    rw [shapeItem] at h
    simp only [Json.obj.injEq] at h
    simp only [Aligned]
    exact objectItem_aligned hf es h
termination_by (sizeOf value, 1)

theorem objectItem_aligned {opts : EncOpts} (hf : opts.fold = false) (entries : List (Str × Json F))
    (h : shapeObjectItem opts entries = entries) : AlignedEntries entries := by
  match entries, h with
  | [], _ => simp [AlignedEntries]
  | (k, .prim p) :: rest, h =>
    rw [shapeObjectItem.eq_def] at h
    simp only [List.cons.injEq, true_and] at h
    simp only [AlignedEntries, Aligned, true_and]
    exact object_aligned hf rest 1 none none none h
  | (k, .arr items) :: rest, h =>
    rw [shapeObjectItem.eq_def] at h
    simp only [List.cons.injEq, Prod.mk.injEq, true_and, Json.arr.injEq] at h
    exact ⟨array_aligned hf items h.1, object_aligned hf rest 1 none none none h.2⟩
  | (k, .obj es) :: rest, h =>
    rw [shapeObjectItem.eq_def] at h
    simp only [List.cons.injEq, Prod.mk.injEq, true_and, Json.obj.injEq] at h
    simp only [AlignedEntries, Aligned]
    exact ⟨object_aligned hf es 1 none none none h.1, object_aligned hf rest 1 none none none h.2⟩
termination_by (sizeOf entries, 0)
end

theorem aligned_of_shape {opts : EncOpts} (hf : opts.fold = false) {v : Json F} (h : shape opts v = v) :
    Aligned true v := by
  cases v with
  | prim p => simp [Aligned]
  | arr items =>
    simp only [shape, Json.arr.injEq] at h
    exact array_aligned hf items h
  | obj es =>
    simp only [shape, Json.obj.injEq] at h
    simp only [Aligned]
    exact object_aligned hf es 0 none none none h

end

end Toon
