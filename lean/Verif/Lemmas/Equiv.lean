import Verif.Lemmas.Lines

/-! Without folding the denoted value is the encoded value, up to the order of keys. -/

namespace Toon

section
variable {F : Type}

/-! ## Congruences -/

/-- Pointwise related items. -/
def RelItems (R : Json F → Json F → Prop) : List (Json F) → List (Json F) → Prop
  | [], [] => True
  | a :: as, b :: bs => R a b ∧ RelItems R as bs
  | _, _ => False

/-- Pointwise related entries with equal keys. -/
def RelEntries (R : Json F → Json F → Prop) : List (Str × Json F) → List (Str × Json F) → Prop
  | [], [] => True
  | (k, a) :: as, (k', b) :: bs => k = k' ∧ R a b ∧ RelEntries R as bs
  | _, _ => False

/-- A congruence on JSON values. -/
structure IsCong (R : Json F → Json F → Prop) : Prop where
  refl : ∀ v, R v v
  arr : ∀ {xs ys}, RelItems R xs ys → R (.arr xs) (.arr ys)
  obj : ∀ {xs ys}, RelEntries R xs ys → R (.obj xs) (.obj ys)

theorem RelItems.refl {R : Json F → Json F → Prop} (h : ∀ v, R v v) (xs : List (Json F)) : RelItems R xs xs := by
  induction xs with
  | nil => trivial
  | cons x xs ih => exact ⟨h x, ih⟩

theorem RelItems.eq {xs ys : List (Json F)} (h : RelItems Eq xs ys) : xs = ys := by
  induction xs generalizing ys with
  | nil => cases ys with
    | nil => rfl
    | cons => exact h.elim
  | cons x xs ih => cases ys with
    | nil => exact h.elim
    | cons y ys => rw [h.1, ih h.2]

theorem RelEntries.eq {xs ys : List (Str × Json F)} (h : RelEntries Eq xs ys) : xs = ys := by
  induction xs generalizing ys with
  | nil => cases ys with
    | nil => rfl
    | cons => exact h.elim
  | cons x xs ih => cases ys with
    | nil => exact h.elim
    | cons y ys =>
      obtain ⟨k, v⟩ := x
      obtain ⟨k', v'⟩ := y
      obtain ⟨rfl, rfl, h⟩ := h
      rw [ih h]

theorem isCong_eq : IsCong (F := F) Eq :=
  ⟨fun _ => rfl, fun h => by rw [h.eq], fun h => by rw [h.eq]⟩

theorem equiv_items (pre : List (Json F)) {xs ys : List (Json F)} (h : RelItems Json.Equiv xs ys) :
    Json.Equiv (.arr (pre ++ xs)) (.arr (pre ++ ys)) := by
  induction xs generalizing ys pre with
  | nil => cases ys with
    | nil => exact .refl _
    | cons => exact h.elim
  | cons x xs ih => cases ys with
    | nil => exact h.elim
    | cons y ys =>
      refine .trans (.arr pre xs h.1) ?_
      have := ih (pre ++ [y]) h.2
      simpa using this

theorem equiv_entries (pre : List (Str × Json F)) {xs ys : List (Str × Json F)} (h : RelEntries Json.Equiv xs ys) :
    Json.Equiv (.obj (pre ++ xs)) (.obj (pre ++ ys)) := by
  induction xs generalizing ys pre with
  | nil => cases ys with
    | nil => exact .refl _
    | cons => exact h.elim
  | cons x xs ih => cases ys with
    | nil => exact h.elim
    | cons y ys =>
      obtain ⟨k, v⟩ := x
      obtain ⟨k', v'⟩ := y
      obtain ⟨rfl, hv, h⟩ := h
      refine .trans (.obj pre xs k hv) ?_
      have := ih (pre ++ [(k, v')]) h
      simpa using this

theorem isCong_equiv : IsCong (F := F) Json.Equiv :=
  ⟨.refl, fun h => equiv_items [] h, fun h => equiv_entries [] h⟩

/-! ## Rows -/

theorem perm_of_subset {α : Type} {l1 l2 : List α} (hn : l1.Nodup) (hs : ∀ x ∈ l1, x ∈ l2)
    (hl : l1.length = l2.length) : l1.Perm l2 := by
  induction l1 generalizing l2 with
  | nil =>
    rw [List.length_eq_zero_iff.mp hl.symm]
  | cons a l1 ih =>
    obtain ⟨s, t, rfl⟩ := List.append_of_mem (hs a (by simp))
    have hn' := List.nodup_cons.mp hn
    have : l1.Perm (s ++ t) := by
      apply ih hn'.2
      · intro x hx
        have := hs x (by simp [hx])
        simp only [List.mem_append, List.mem_cons] at this ⊢
        rcases this with h | h | h
        · exact Or.inl h
        · subst h; exact absurd hx hn'.1
        · exact Or.inr h
      · simp at hl ⊢; omega
    exact (this.cons a).trans List.perm_middle.symm

theorem objGet_mem {es : List (Str × Json F)} {k : Str} {v : Json F} (h : objGet es k = some v) : (k, v) ∈ es := by
  induction es with
  | nil => simp [objGet] at h
  | cons e es ih =>
    obtain ⟨k', v'⟩ := e
    simp only [objGet] at h
    split at h
    · rename_i hk
      simp at h
      subst h
      subst hk
      simp
    · simp [ih h]

theorem zipRow_mem {es : List (Str × Json F)} {cols : List Str} {ps : List (Prim F)}
    (h : rowPrims es cols = .ok ps) : ∀ e ∈ zipRow cols ps, e ∈ es := by
  induction cols generalizing ps with
  | nil => intro e he; simp [zipRow] at he
  | cons c cols ih =>
    rw [rowPrims] at h
    cases hg : objGet es c with
    | none => simp [hg] at h
    | some v =>
      rw [hg] at h
      cases v with
      | arr _ => simp at h
      | obj _ => simp at h
      | prim p =>
        simp only at h
        cases hr : rowPrims es cols with
        | error e => simp [hr] at h
        | ok qs =>
          simp only [hr, Except.ok.injEq] at h
          subst h
          intro e he
          simp only [zipRow, List.mem_cons] at he
          rcases he with rfl | he
          · exact objGet_mem hg
          · exact ih hr e he

theorem zipRow_keys {cols : List Str} {ps : List (Prim F)} (h : ps.length = cols.length) :
    (zipRow cols ps).map Prod.fst = cols := by
  induction cols generalizing ps with
  | nil => cases ps <;> simp [zipRow]
  | cons c cols ih =>
    cases ps with
    | nil => simp at h
    | cons p ps => simp only [zipRow, List.map_cons]; rw [ih (by simpa using h)]

theorem nodup_of_map {α β : Type} (f : α → β) {l : List α} (h : (l.map f).Nodup) : l.Nodup := by
  induction l with
  | nil => exact List.nodup_nil
  | cons a l ih =>
    simp only [List.map_cons, List.nodup_cons] at h ⊢
    exact ⟨fun ha => h.1 (List.mem_map_of_mem ha), ih h.2⟩

theorem row_perm {es : List (Str × Json F)} {cols : List Str} (hc : cols.Nodup)
    (hr : isTabularRow cols (.obj es) = true) : (zipRow cols (rowValues es cols)).Perm es := by
  simp only [isTabularRow, Bool.and_eq_true, beq_iff_eq] at hr
  obtain ⟨ps, e1, e2, _⟩ := rowPrims_ok hr.2
  simp only [rowValues, e1]
  apply perm_of_subset
  · apply nodup_of_map Prod.fst
    rw [zipRow_keys e2]
    exact hc
  · exact zipRow_mem e1
  · have := congrArg List.length (zipRow_keys e2)
    simp only [List.length_map] at this
    omega

theorem eq_of_keys {es es' : List (Str × Json F)} (hk : es.map Prod.fst = es'.map Prod.fst)
    (hn : (es'.map Prod.fst).Nodup) (hm : ∀ e ∈ es, e ∈ es') : es = es' := by
  induction es generalizing es' with
  | nil => cases es' with
    | nil => rfl
    | cons => simp at hk
  | cons e es ih => cases es' with
    | nil => simp at hk
    | cons e' es' =>
      simp only [List.map_cons, List.cons.injEq] at hk
      simp only [List.map_cons, List.nodup_cons] at hn
      have h0 : e = e' := by
        rcases List.mem_cons.mp (hm e (by simp)) with h | h
        · exact h
        · exact absurd (hk.1 ▸ List.mem_map_of_mem h) hn.1
      subst h0
      rw [ih hk.2 hn.2]
      intro x hx
      rcases List.mem_cons.mp (hm x (by simp [hx])) with h | h
      · subst h
        have : x.1 ∈ es.map Prod.fst := List.mem_map_of_mem hx
        rw [hk.2] at this
        exact absurd this hn.1
      · exact h

theorem row_eq {es : List (Str × Json F)} (hc : (es.map Prod.fst).Nodup)
    (hr : isTabularRow (es.map Prod.fst) (.obj es) = true) :
    zipRow (es.map Prod.fst) (rowValues es (es.map Prod.fst)) = es := by
  simp only [isTabularRow, Bool.and_eq_true, beq_iff_eq] at hr
  obtain ⟨ps, e1, e2, _⟩ := rowPrims_ok hr.2
  simp only [rowValues, e1]
  exact eq_of_keys (zipRow_keys e2) hc (zipRow_mem e1)

/-! ## The induction -/

theorem tryFold_off {opts : EncOpts} (h : opts.fold = false) (key : Str) (value : Json F) (siblings : List Str)
    (rlk : Option (List Str)) (pp : Option Str) (fd : Nat) : tryFold key value siblings opts rlk pp fd = none := by
  unfold tryFold
  simp [h]

theorem distinctItems_mem {vs : List (Json F)} (h : DistinctKeysItems vs) {v : Json F} (hv : v ∈ vs) :
    DistinctKeys v := by
  induction vs with
  | nil => simp at hv
  | cons w vs ih =>
    simp only [DistinctKeysItems] at h
    rcases List.mem_cons.mp hv with rfl | hv
    · exact h.1
    · exact ih h.2 hv

theorem tableRows_rel {R : Json F → Json F → Prop} {cols : List Str} {items : List (Json F)}
    (h : ∀ es, Json.obj es ∈ items → R (.obj (zipRow cols (rowValues es cols))) (.obj es))
    (ho : ∀ v ∈ items, ∃ es, v = .obj es) : RelItems R (tableRows items cols) items := by
  induction items with
  | nil => trivial
  | cons v vs ih =>
    obtain ⟨es, rfl⟩ := ho v (by simp)
    have : tableRows (.obj es :: vs) cols = .obj (zipRow cols (rowValues es cols)) :: tableRows vs cols := rfl
    rw [this]
    exact ⟨h es (by simp), ih (fun es' h' => h es' (by simp [h'])) (fun v' h' => ho v' (by simp [h']))⟩

/-- `al` says which of the two is used: rows in column order, or a relation that does not see the
order of keys. -/
theorem table_rel {R : Json F → Json F → Prop} {al : Bool} {items : List (Json F)} {cols : List Str}
    (hp : al = false → ∀ es es' : List (Str × Json F), es.Perm es' → R (.obj es) (.obj es'))
    (hr : ∀ v, R v v)
    (ht : tableHeader items = some cols) (hd : DistinctKeysItems items)
    (ha : al = true → Aligned true (.arr items)) : RelItems R (tableRows items cols) items := by
  obtain ⟨hc, htab, first, rest, hfirst, hkeys⟩ := tableHeader_some ht
  have htab' := List.all_eq_true.mp htab
  have hcn : cols.Nodup := by
    have := distinctItems_mem hd (v := .obj first) (by rw [hfirst]; simp)
    simp only [DistinctKeys] at this
    rw [← hkeys]
    exact this.1
  apply tableRows_rel
  · intro es hes
    cases al with
    | false => exact hp rfl _ _ (row_perm hcn (htab' _ hes))
    | true =>
      have := ha rfl
      simp only [Aligned, forall_const] at this
      have hk := this.1 cols (isTable_of_header ht) es hes
      have hrow := htab' _ hes
      rw [← hk] at hcn hrow ⊢
      rw [row_eq hcn hrow]
      exact hr _
  · intro v hv
    have := htab' v hv
    cases v with
    | prim _ => simp [isTabularRow] at this
    | arr _ => simp [isTabularRow] at this
    | obj es => exact ⟨es, rfl⟩

mutual
theorem shapeObject_rel {R : Json F → Json F → Prop} (hR : IsCong R) {al : Bool}
    (hp : al = false → ∀ es es' : List (Str × Json F), es.Perm es' → R (.obj es) (.obj es'))
    {opts : EncOpts} (hf : opts.fold = false) (entries : List (Str × Json F)) (depth : Nat)
    (rlk : Option (List Str)) (pp : Option Str) (rem : Option Nat) (hd : DistinctKeysEntries entries)
    (ha : al = true → AlignedEntries entries) :
    RelEntries R (shapeObject opts entries depth rlk pp rem) entries := by
  rw [shapeObject]
  exact shapeEntries_rel hR hp hf _ _ _ _ entries depth hd ha
termination_by (sizeOf entries, 3)

theorem shapeEntries_rel {R : Json F → Json F → Prop} (hR : IsCong R) {al : Bool}
    (hp : al = false → ∀ es es' : List (Str × Json F), es.Perm es' → R (.obj es) (.obj es'))
    {opts : EncOpts} (hf : opts.fold = false) (siblings : List Str) (rlk : Option (List Str))
    (pp : Option Str) (fd : Nat) (entries : List (Str × Json F)) (depth : Nat) (hd : DistinctKeysEntries entries)
    (ha : al = true → AlignedEntries entries) :
    RelEntries R (shapeEntries opts siblings rlk pp fd entries depth) entries := by
  match entries, hd, ha with
  | [], _, _ => rw [shapeEntries]; trivial
  | (k, v) :: rest, hd, ha =>
    simp only [DistinctKeysEntries] at hd
    simp only [AlignedEntries] at ha
    rw [shapeEntries, shapeKeyValue_eq, tryFold_off hf]
    exact ⟨rfl, shapeEntry_rel hR hp hf rlk _ fd v depth hd.1 (fun h => (ha h).1),
      shapeEntries_rel hR hp hf siblings rlk pp fd rest depth hd.2 (fun h => (ha h).2)⟩
termination_by (sizeOf entries, 2)

theorem shapeEntry_rel {R : Json F → Json F → Prop} (hR : IsCong R) {al : Bool}
    (hp : al = false → ∀ es es' : List (Str × Json F), es.Perm es' → R (.obj es) (.obj es'))
    {opts : EncOpts} (hf : opts.fold = false) (rlk : Option (List Str)) (path : Str) (fd : Nat)
    (value : Json F) (depth : Nat) (hd : DistinctKeys value) (ha : al = true → Aligned true value) :
    R (shapeEntry opts rlk path fd value depth) value := by
  match value, hd, ha with
  | .prim p, _, _ => exact hR.refl _
  | .arr items, hd, ha =>
    simp only [DistinctKeys] at hd
    exact hR.arr (shapeArray_rel hR hp hf items hd ha)
  | .obj es, hd, ha =>
    simp only [DistinctKeys] at hd
    simp only [Aligned] at ha
    exact hR.obj (shapeObject_rel hR hp hf es (depth + 1) rlk _ _ hd.2 ha)
termination_by (sizeOf value, 0)

theorem shapeArray_rel {R : Json F → Json F → Prop} (hR : IsCong R) {al : Bool}
    (hp : al = false → ∀ es es' : List (Str × Json F), es.Perm es' → R (.obj es) (.obj es'))
    {opts : EncOpts} (hf : opts.fold = false) (items : List (Json F)) (hd : DistinctKeysItems items)
    (ha : al = true → Aligned true (.arr items)) : RelItems R (shapeArray opts items) items := by
  rw [shapeArray]
  split
  · exact RelItems.refl hR.refl items
  · cases ht : tableHeader items with
    | some cols => exact table_rel hp hR.refl ht hd ha
    | none =>
      exact shapeItems_rel hR hp hf items hd (fun h => by have := ha h; simp only [Aligned] at this; exact this.2)
termination_by (sizeOf items, 4)

theorem shapeItems_rel {R : Json F → Json F → Prop} (hR : IsCong R) {al : Bool}
    (hp : al = false → ∀ es es' : List (Str × Json F), es.Perm es' → R (.obj es) (.obj es'))
    {opts : EncOpts} (hf : opts.fold = false) (items : List (Json F)) (hd : DistinctKeysItems items)
    (ha : al = true → AlignedItems items) : RelItems R (shapeItems opts items) items := by
  match items, hd, ha with
  | [], _, _ => rw [shapeItems]; trivial
  | v :: vs, hd, ha =>
    simp only [DistinctKeysItems] at hd
    simp only [AlignedItems] at ha
    rw [shapeItems]
    exact ⟨shapeItem_rel hR hp hf v hd.1 (fun h => (ha h).1), shapeItems_rel hR hp hf vs hd.2 (fun h => (ha h).2)⟩
termination_by (sizeOf items, 3)

theorem shapeItem_rel {R : Json F → Json F → Prop} (hR : IsCong R) {al : Bool}
    (hp : al = false → ∀ es es' : List (Str × Json F), es.Perm es' → R (.obj es) (.obj es'))
    {opts : EncOpts} (hf : opts.fold = false) (value : Json F) (hd : DistinctKeys value)
    (ha : al = true → Aligned false value) : R (shapeItem opts value) value := by
  match value, hd, ha with
  | .prim p, _, _ => rw [shapeItem]; exact hR.refl _
  | .arr items, hd, ha =>
    rw [shapeItem]
    simp only [DistinctKeys] at hd
    simp only [Aligned] at ha
    split
    · exact hR.refl _
    · exact hR.arr (shapeItems_rel hR hp hf items hd (fun h => (ha h).2))
  | .obj es, hd, ha =>
    rw [shapeItem]
    simp only [DistinctKeys] at hd
    simp only [Aligned] at ha
    exact hR.obj (shapeObjectItem_rel hR hp hf es hd.2 ha)
termination_by (sizeOf value, 1)

theorem shapeObjectItem_rel {R : Json F → Json F → Prop} (hR : IsCong R) {al : Bool}
    (hp : al = false → ∀ es es' : List (Str × Json F), es.Perm es' → R (.obj es) (.obj es'))
    {opts : EncOpts} (hf : opts.fold = false) (entries : List (Str × Json F)) (hd : DistinctKeysEntries entries)
    (ha : al = true → AlignedEntries entries) : RelEntries R (shapeObjectItem opts entries) entries := by
  match entries, hd, ha with
  | [], _, _ => rw [shapeObjectItem]; trivial
  | (k, v) :: rest, hd, ha =>
    rw [shapeObjectItem.eq_def]
    simp only [DistinctKeysEntries] at hd
    simp only [AlignedEntries] at ha
    refine ⟨rfl, ?_, shapeObject_rel hR hp hf rest 1 none none none hd.2 (fun h => (ha h).2)⟩
    match v, hd, ha with
    | .prim p, _, _ => exact hR.refl _
    | .arr items, hd, ha =>
      have := hd.1
      simp only [DistinctKeys] at this
      exact hR.arr (shapeArray_rel hR hp hf items this (fun h => (ha h).1))
    | .obj es, hd, ha =>
      have h1 := hd.1
      simp only [DistinctKeys] at h1
      simp only [Aligned] at ha
      exact hR.obj (shapeObject_rel hR hp hf es 1 none none none h1.2 (fun h => (ha h).1))
termination_by (sizeOf entries, 0)
end

theorem shape_rel {R : Json F → Json F → Prop} (hR : IsCong R) {al : Bool}
    (hp : al = false → ∀ es es' : List (Str × Json F), es.Perm es' → R (.obj es) (.obj es'))
    {opts : EncOpts} (hf : opts.fold = false) (v : Json F) (hd : DistinctKeys v)
    (ha : al = true → Aligned true v) : R (shape opts v) v := by
  cases v with
  | prim p => exact hR.refl _
  | arr items =>
    simp only [DistinctKeys] at hd
    exact hR.arr (shapeArray_rel hR hp hf items hd ha)
  | obj es =>
    simp only [DistinctKeys] at hd
    simp only [Aligned] at ha
    exact hR.obj (shapeObject_rel hR hp hf es 0 none none none hd.2 ha)

theorem shape_equiv {opts : EncOpts} (hf : opts.fold = false) {v : Json F} (hd : DistinctKeys v) :
    Json.Equiv (shape opts v) v :=
  shape_rel isCong_equiv (al := false) (fun _ _ _ h => .perm h) hf v hd (by simp)

theorem shape_eq {opts : EncOpts} (hf : opts.fold = false) {v : Json F} (hd : DistinctKeys v)
    (ha : Aligned true v) : shape opts v = v :=
  shape_rel isCong_eq (al := true) (by simp) hf v hd (fun _ => ha)

end

/-! ## Normalization keeps the conditions -/

section
variable {F : Type} [F64 F]

theorem normPrim_str {p : Prim F} {s : Str} : normPrim p = .str s ↔ p = .str s := by
  cases p with
  | num x =>
    simp only [normPrim]
    split
    · simp
    · split <;> simp
  | _ => simp [normPrim]

theorem normalize_str {v : Json F} {s : Str} : normalize v = .prim (.str s) ↔ v = .prim (.str s) := by
  cases v with
  | prim p => simp [normalize, normPrim_str]
  | arr _ => simp [normalize]
  | obj _ => simp [normalize]

theorem normalizeItems_length (vs : List (Json F)) : (normalizeItems vs).length = vs.length := by
  induction vs with
  | nil => rfl
  | cons v vs ih => simp [normalizeItems, ih]

theorem normalizeItems_eq_map (vs : List (Json F)) : normalizeItems vs = vs.map normalize := by
  induction vs with
  | nil => rfl
  | cons v vs ih => simp [normalizeItems, ih]

theorem normalizeEntries_eq_map (es : List (Str × Json F)) :
    normalizeEntries es = es.map fun e => (e.1, normalize e.2) := by
  induction es with
  | nil => rfl
  | cons e es ih => obtain ⟨k, v⟩ := e; simp [normalizeEntries, ih]

theorem normalizeEntries_keys (es : List (Str × Json F)) : (normalizeEntries es).map Prod.fst = es.map Prod.fst := by
  rw [normalizeEntries_eq_map]; simp

theorem lookup_normalize (k : Str) (es : List (Str × Json F)) :
    lookupKey k (normalizeEntries es) = (lookupKey k es).map normalize := by
  induction es with
  | nil => rfl
  | cons e es ih =>
    obtain ⟨k', v⟩ := e
    simp only [normalizeEntries, lookupKey]
    split
    · rfl
    · exact ih

theorem isTable_normalize {items : List (Json F)} {cols : List Str} :
    IsTable (normalizeItems items) cols ↔ IsTable items cols := by
  constructor
  · rintro ⟨h1, ⟨es, rest, h2, h3⟩, h4⟩
    refine ⟨h1, ?_, ?_⟩
    · cases items with
      | nil => simp [normalizeItems] at h2
      | cons v vs =>
        simp only [normalizeItems, List.cons.injEq] at h2
        cases v with
        | prim _ => simp [normalize] at h2
        | arr _ => simp [normalize] at h2
        | obj es' =>
          simp only [normalize, Json.obj.injEq] at h2
          exact ⟨es', vs, rfl, by rw [← h3, ← h2.1, normalizeEntries_keys]⟩
    · intro item hi
      obtain ⟨es', he, hl, hk⟩ := h4 (normalize item) (by rw [normalizeItems_eq_map]; exact List.mem_map_of_mem hi)
      cases item with
      | prim _ => simp [normalize] at he
      | arr _ => simp [normalize] at he
      | obj es'' =>
        simp only [normalize, Json.obj.injEq] at he
        subst he
        refine ⟨es'', rfl, by rw [normalizeEntries_eq_map] at hl; simpa using hl, ?_⟩
        intro c hc
        obtain ⟨p, hp⟩ := hk c hc
        rw [lookup_normalize] at hp
        cases hl' : lookupKey c es'' with
        | none => simp [hl'] at hp
        | some v =>
          rw [hl'] at hp
          cases v with
          | prim q => exact ⟨q, rfl⟩
          | arr _ => simp [normalize] at hp
          | obj _ => simp [normalize] at hp
  · rintro ⟨h1, ⟨es, rest, rfl, h3⟩, h4⟩
    refine ⟨h1, ⟨normalizeEntries es, normalizeItems rest, by simp [normalizeItems, normalize],
      by rw [normalizeEntries_keys, h3]⟩, ?_⟩
    intro item hi
    rw [normalizeItems_eq_map] at hi
    obtain ⟨w, hw, rfl⟩ := List.mem_map.mp hi
    obtain ⟨es', rfl, hl, hk⟩ := h4 w hw
    refine ⟨normalizeEntries es', by simp [normalize], by rw [normalizeEntries_eq_map]; simpa using hl, ?_⟩
    intro c hc
    obtain ⟨p, hp⟩ := hk c hc
    exact ⟨normPrim p, by rw [lookup_normalize, hp]; simp [normalize]⟩

mutual
theorem writable_normalize (tbl : Bool) (v : Json F) : Writable tbl (normalize v) ↔ Writable tbl v := by
  match v with
  | .prim p => simp [normalize, Writable]
  | .arr items =>
    simp only [normalize, Writable, normalizeItems_length, isTable_normalize, writableItems_normalize items]
  | .obj es => simp only [normalize, Writable, writableEntries_normalize es]
theorem writableItems_normalize (vs : List (Json F)) : WritableItems (normalizeItems vs) ↔ WritableItems vs := by
  match vs with
  | [] => simp [normalizeItems, WritableItems]
  | v :: vs => simp only [normalizeItems, WritableItems, writable_normalize false v, writableItems_normalize vs]
theorem writableEntries_normalize (es : List (Str × Json F)) :
    WritableEntries (normalizeEntries es) ↔ WritableEntries es := by
  match es with
  | [] => simp [normalizeEntries, WritableEntries]
  | (k, v) :: es =>
    simp only [normalizeEntries, WritableEntries, writable_normalize true v, writableEntries_normalize es, normalize_str]
end

mutual
theorem distinct_normalize (v : Json F) : DistinctKeys (normalize v) ↔ DistinctKeys v := by
  match v with
  | .prim p => simp [normalize, DistinctKeys]
  | .arr items => simp only [normalize, DistinctKeys, distinctItems_normalize items]
  | .obj es => simp only [normalize, DistinctKeys, normalizeEntries_keys, distinctEntries_normalize es]
theorem distinctItems_normalize (vs : List (Json F)) : DistinctKeysItems (normalizeItems vs) ↔ DistinctKeysItems vs := by
  match vs with
  | [] => simp [normalizeItems, DistinctKeysItems]
  | v :: vs => simp only [normalizeItems, DistinctKeysItems, distinct_normalize v, distinctItems_normalize vs]
theorem distinctEntries_normalize (es : List (Str × Json F)) :
    DistinctKeysEntries (normalizeEntries es) ↔ DistinctKeysEntries es := by
  match es with
  | [] => simp [normalizeEntries, DistinctKeysEntries]
  | (k, v) :: es =>
    simp only [normalizeEntries, DistinctKeysEntries, distinct_normalize v, distinctEntries_normalize es]
end

theorem aligned_mem_normalize {items : List (Json F)} {cols : List Str} :
    (∀ es, .obj es ∈ normalizeItems items → es.map Prod.fst = cols) ↔
    (∀ es, .obj es ∈ items → es.map Prod.fst = cols) := by
  rw [normalizeItems_eq_map]
  constructor
  · intro h es hes
    have := h (normalizeEntries es) (List.mem_map.mpr ⟨_, hes, by simp [normalize]⟩)
    rwa [normalizeEntries_keys] at this
  · intro h es hes
    obtain ⟨w, hw, he⟩ := List.mem_map.mp hes
    cases w with
    | prim _ => simp [normalize] at he
    | arr _ => simp [normalize] at he
    | obj es' =>
      simp only [normalize, Json.obj.injEq] at he
      subst he
      rw [normalizeEntries_keys]
      exact h es' hw

mutual
theorem aligned_normalize (tbl : Bool) (v : Json F) : Aligned tbl (normalize v) ↔ Aligned tbl v := by
  match v with
  | .prim p => simp [normalize, Aligned]
  | .arr items =>
    simp only [normalize, Aligned, isTable_normalize, alignedItems_normalize items, aligned_mem_normalize]
  | .obj es => simp only [normalize, Aligned, alignedEntries_normalize es]
theorem alignedItems_normalize (vs : List (Json F)) : AlignedItems (normalizeItems vs) ↔ AlignedItems vs := by
  match vs with
  | [] => simp [normalizeItems, AlignedItems]
  | v :: vs => simp only [normalizeItems, AlignedItems, aligned_normalize false v, alignedItems_normalize vs]
theorem alignedEntries_normalize (es : List (Str × Json F)) :
    AlignedEntries (normalizeEntries es) ↔ AlignedEntries es := by
  match es with
  | [] => simp [normalizeEntries, AlignedEntries]
  | (k, v) :: es =>
    simp only [normalizeEntries, AlignedEntries, aligned_normalize true v, alignedEntries_normalize es]
end

end

end Toon
