import Verif.Lemmas.Compares
import Verif.Lemmas.FoldKeys

/-! How many keys the encoder compares, exactly, for tables and for objects of short chains. -/

namespace Toon

section
variable {F : Type}

theorem positions_sum (es : List (Str × Json F)) (h : (es.map Prod.fst).Nodup) :
    2 * ((es.map Prod.fst).map fun key => getCompares es key).sum = es.length * (es.length + 1) := by
  induction es with
  | nil => rfl
  | cons e es ih =>
    obtain ⟨k, v⟩ := e
    rw [List.map_cons, List.nodup_cons] at h
    have ih := ih h.2
    have hrest : ∀ ks : List Str, k ∉ ks → (ks.map fun key => getCompares ((k, v) :: es) key).sum =
        ks.length + (ks.map fun key => getCompares es key).sum := by
      intro ks hk
      induction ks with
      | nil => rfl
      | cons j js ihj =>
        rw [List.mem_cons, not_or] at hk
        rw [List.map_cons, List.sum_cons, ihj hk.2, getCompares, if_neg hk.1, List.map_cons, List.sum_cons, List.length_cons]
        omega
    rw [List.map_cons, List.map_cons, List.sum_cons, hrest _ h.1, getCompares, if_pos rfl, List.length_cons, List.length_map]
    have e : (es.length + 1) * (es.length + 1 + 1) = es.length * (es.length + 1) + 2 * (es.length + 1) := by
      rw [← Nat.add_mul, Nat.mul_comm]
    omega

theorem lookups_perm (es : List (Str × Json F)) {columns : List Str} (h : (es.map Prod.fst).Perm columns) (hn : columns.Nodup) :
    2 * (columns.map fun key => getCompares es key).sum = columns.length * (columns.length + 1) := by
  have h1 := positions_sum es (h.nodup_iff.2 hn)
  have h2 := (h.map fun key => getCompares es key).sum_nat
  have h3 := h.length_eq
  rw [List.length_map] at h3
  rw [← h2, h1, h3]

theorem objGet_found {es : List (Str × Json F)} {key : Str} (h : key ∈ es.map Prod.fst) : ∃ v, (key, v) ∈ es ∧ objGet es key = some v := by
  induction es with
  | nil => simp at h
  | cons e es ih =>
    obtain ⟨k, v⟩ := e
    rw [objGet]
    by_cases hk : k = key
    · subst hk
      exact ⟨v, by simp, by simp⟩
    · rw [if_neg hk]
      rw [List.map_cons, List.mem_cons] at h
      obtain ⟨w, h1, h2⟩ := ih (h.resolve_left (fun e => hk e.symm))
      exact ⟨w, by simp [h1], h2⟩

theorem rowCompares_all {es : List (Str × Json F)} {keys : List Str}
    (h : ∀ key ∈ keys, (objGet es key).any Json.isPrim = true) :
    rowCompares es keys = (keys.map fun key => getCompares es key).sum := by
  induction keys with
  | nil => rfl
  | cons k ks ih =>
    rw [rowCompares, h k (by simp), if_pos rfl, ih (fun key hk => h key (by simp [hk])), List.map_cons, List.sum_cons]

theorem IsRow.cells {columns : List Str} {es : List (Str × Json F)} (h : IsRow columns (.obj es)) :
    ∀ key ∈ columns, (objGet es key).any Json.isPrim = true := by
  obtain ⟨fs, he, hp, hv⟩ := h
  cases he
  intro key hk
  obtain ⟨v, h1, h2⟩ := objGet_found (hp.mem_iff.2 hk)
  obtain ⟨p, hp⟩ := hv _ h1
  simp only at hp
  rw [h2, hp]
  rfl

theorem IsRow.tabular {columns : List Str} {row : Json F} (h : IsRow columns row) : isTabularRow columns row = true := by
  obtain ⟨es, he, hp, hv⟩ := id h
  subst he
  have hc := h.cells
  have hl := hp.length_eq
  rw [List.length_map] at hl
  rw [isTabularRow, hl, beq_self_eq_true, Bool.true_and, List.all_eq_true]
  intro key hk
  have := hc key hk
  cases hg : objGet es key with
  | none => rw [hg] at this; simp at this
  | some v => rw [hg] at this; simpa using this

theorem IsRow.of_perm {a b : List Str} (hab : a.Perm b) {row : Json F} (h : IsRow a row) : IsRow b row := by
  obtain ⟨es, he, hp, hv⟩ := h
  exact ⟨es, he, hp.trans hab, hv⟩

theorem tableCompares_rows {columns : List Str} (hn : columns.Nodup) {rows : List (Json F)} (h : ∀ row ∈ rows, IsRow columns row) :
    2 * tableCompares columns rows = rows.length * (columns.length * (columns.length + 1)) := by
  induction rows with
  | nil => simp [tableCompares]
  | cons row rows ih =>
    have hr := h row (by simp)
    have ih := ih (fun r hr => h r (by simp [hr]))
    obtain ⟨es, he, hp, hv⟩ := id hr
    subst he
    have hl := hp.length_eq
    rw [List.length_map] at hl
    rw [tableCompares.eq_def]
    simp only
    rw [if_pos hl, if_pos hr.tabular, rowCompares_all hr.cells, Nat.mul_add, lookups_perm es hp hn, ih, List.length_cons, Nat.succ_mul]
    omega

theorem rowsCompares_rows {columns : List Str} (hn : columns.Nodup) {rows : List (Json F)} (h : ∀ row ∈ rows, IsRow columns row) :
    2 * rowsCompares columns rows = rows.length * (columns.length * (columns.length + 1)) := by
  induction rows with
  | nil => simp [rowsCompares]
  | cons row rows ih =>
    have hr := h row (by simp)
    have ih := ih (fun r hr => h r (by simp [hr]))
    obtain ⟨es, he, hp, hv⟩ := id hr
    subst he
    unfold rowsCompares at ih ⊢
    have := lookups_perm es hp hn
    rw [List.map_cons, List.sum_cons, Nat.mul_add, ih, List.length_cons]
    simp only
    rw [this, Nat.succ_mul]
    omega

theorem isArrayOfObjs_rows {columns : List Str} {rows : List (Json F)} (h : ∀ row ∈ rows, IsRow columns row) : isArrayOfObjs rows = true := by
  unfold isArrayOfObjs
  rw [List.all_eq_true]
  intro row hr
  obtain ⟨es, rfl, _⟩ := h row hr
  rfl

variable [F64 F] (opts : EncOpts)

omit [F64 F] in
/-- An array that begins with an object is not written as an array of primitives or of arrays. -/
theorem arrayCompares_objs (stack : Nat) {first : List (Str × Json F)} {rest : List (Json F)} (depth : Nat)
    (h : isArrayOfObjs (.obj first :: rest) = true) (hf : first ≠ []) (ht : isTabularArray (.obj first :: rest) (first.map Prod.fst) = true) :
    arrayCompares opts (stack + 1) (.obj first :: rest) depth =
      tableCompares (first.map Prod.fst) (.obj first :: rest) + rowsCompares (first.map Prod.fst) (.obj first :: rest) := by
  have hfe : first.isEmpty = false := by cases first <;> simp_all
  rw [arrayCompares]
  have h1 : isArrayOfPrims (.obj first :: rest) = false := by simp [isArrayOfPrims, Json.isPrim]
  have h2 : arraysOfPrims (.obj first :: rest) = false := by simp [arraysOfPrims, isArrayOfArrays, Json.isArr]
  rw [h1, h2]
  unfold testCompares extractTabularHeader
  simp only [List.isEmpty_cons, Bool.false_eq_true, if_false, h, if_true, hfe, ht]

theorem normalizeEntries_keys' (es : List (Str × Json F)) : (normalizeEntries es).map Prod.fst = es.map Prod.fst := by
  induction es with
  | nil => rfl
  | cons e es ih => obtain ⟨k, v⟩ := e; rw [normalizeEntries, List.map_cons, List.map_cons, ih]

theorem IsRow.normalize {columns : List Str} {row : Json F} (h : IsRow columns row) : IsRow columns (normalize row) := by
  obtain ⟨es, rfl, hp, hv⟩ := h
  refine ⟨normalizeEntries es, by rw [Toon.normalize], by rw [normalizeEntries_keys']; exact hp, ?_⟩
  clear hp
  induction es with
  | nil => intro e he; simp [normalizeEntries] at he
  | cons x es ih =>
    obtain ⟨k, v⟩ := x
    intro e he
    rw [normalizeEntries] at he
    rcases List.mem_cons.1 he with rfl | he
    · obtain ⟨p, hp⟩ := hv (k, v) (by simp)
      simp only at hp
      subst hp
      exact ⟨_, by rw [Toon.normalize]⟩
    · exact ih (fun e he => hv e (by simp [he])) e he

theorem normalizeItems_rows {columns : List Str} {rows : List (Json F)} (h : ∀ row ∈ rows, IsRow columns row) :
    (∀ row ∈ normalizeItems rows, IsRow columns row) ∧ (normalizeItems rows).length = rows.length := by
  induction rows with
  | nil => exact ⟨by simp [normalizeItems], rfl⟩
  | cons r rs ih =>
    obtain ⟨h1, h2⟩ := ih (fun r hr => h r (by simp [hr]))
    rw [normalizeItems]
    refine ⟨?_, by rw [List.length_cons, h2, List.length_cons]⟩
    intro row hr
    rcases List.mem_cons.1 hr with rfl | hr
    · exact (h r (by simp)).normalize
    · exact h1 row hr

theorem table_compares {columns : List Str} (hn : columns.Nodup) (hc : columns ≠ []) {rows : List (Json F)}
    (h : ∀ row ∈ rows, IsRow columns row) (stack : Nat) :
    encodeCompares opts (stack + 3) (.arr rows) = rows.length * (columns.length * (columns.length + 1)) := by
  rw [encodeCompares, Toon.normalize, valueCompares]
  obtain ⟨h1, h2⟩ := normalizeItems_rows h
  rw [← h2]
  generalize normalizeItems rows = rows at h1
  cases rows with
  | nil => rw [arrayCompares]; simp
  | cons row rest =>
    obtain ⟨first, rfl, hp, hv⟩ := id (h1 row (by simp))
    have hn' := hp.nodup_iff.2 hn
    have h3 : ∀ row ∈ (Json.obj first :: rest), IsRow (first.map Prod.fst) row := fun r hr => (h1 r hr).of_perm hp.symm
    have hf : first ≠ [] := by
      rintro rfl
      exact hc (by simpa using hp.symm)
    rw [arrayCompares_objs opts stack 0 (isArrayOfObjs_rows h3) hf
      (List.all_eq_true.2 fun r hr => (h3 r hr).tabular)]
    have e1 := tableCompares_rows hn' h3
    have e2 := rowsCompares_rows hn' h3
    rw [hp.length_eq] at e1 e2
    omega

omit [F64 F] in
theorem getCompares_first (w : Nat) (k : Str) (v : Json F) : getCompares (List.replicate (w + 1) (k, v)) k = 1 := by
  rw [List.replicate_succ, getCompares, if_pos rfl]

omit [F64 F] in
theorem getCompares_last {j k : Str} (h : j ≠ k) (v u : Json F) (w : Nat) :
    getCompares (List.replicate w (j, v) ++ [(k, u)]) k = w + 1 ∧ objGet (List.replicate w (j, v) ++ [(k, u)]) k = some u := by
  induction w with
  | zero => simp [getCompares, objGet]
  | succ w ih =>
    rw [List.replicate_succ, List.cons_append, getCompares, if_neg h, ih.1, objGet, if_neg h]
    exact ⟨by omega, ih.2⟩

omit [F64 F] in
theorem map_replicate_sum {α : Type} (f : α → Nat) (n : Nat) (a : α) : ((List.replicate n a).map f).sum = n * f a := by
  induction n with
  | zero => simp
  | succ n ih => rw [List.replicate_succ, List.map_cons, List.sum_cons, ih, Nat.succ_mul]; omega

omit [F64 F] in
/-- Rows that all fit and in which every column is found after `c` comparisons. -/
theorem tableCompares_each {header : List Str} {c : Json F → Nat} {rows : List (Json F)}
    (h : ∀ row ∈ rows, isTabularRow header row = true ∧ ∃ es, row = .obj es ∧ ∀ key ∈ header, getCompares es key = c row) :
    tableCompares header rows = (rows.map fun row => header.length * c row).sum ∧
      rowsCompares header rows = (rows.map fun row => header.length * c row).sum := by
  have hsum : ∀ (es : List (Str × Json F)) (n : Nat) (ks : List Str), (∀ key ∈ ks, getCompares es key = n) →
      (ks.map fun key => getCompares es key).sum = ks.length * n := by
    intro es n ks hk
    induction ks with
    | nil => simp
    | cons k ks ih =>
      rw [List.map_cons, List.sum_cons, ih (fun key h => hk key (by simp [h])), hk k (by simp), List.length_cons, Nat.succ_mul]
      omega
  induction rows with
  | nil => exact ⟨rfl, rfl⟩
  | cons row rows ih =>
    obtain ⟨h1, h2⟩ := ih (fun r hr => h r (by simp [hr]))
    obtain ⟨ht, es, rfl, he⟩ := h row (by simp)
    have hs := hsum es _ header he
    have ht' := ht
    rw [isTabularRow, Bool.and_eq_true, beq_iff_eq, List.all_eq_true] at ht'
    constructor
    · rw [tableCompares.eq_def]
      simp only
      rw [if_pos ht'.1, if_pos ht, h1, List.map_cons, List.sum_cons, rowCompares_all, hs]
      intro key hk
      have := ht'.2 key hk
      cases hg : objGet es key with
      | none => rw [hg] at this; simp at this
      | some v => rw [hg] at this; simpa using this
    · unfold rowsCompares at h2 ⊢
      rw [List.map_cons, List.sum_cons, h2, List.map_cons, List.sum_cons]
      simp only
      rw [hs]

omit [F64 F] in
theorem tableCompares_cons {header : List Str} {es : List (Str × Json F)} (h : isTabularRow header (.obj es) = true) (rows : List (Json F)) :
    tableCompares header (.obj es :: rows) = tableCompares header [.obj es] + tableCompares header rows := by
  rw [tableCompares.eq_def header (.obj es :: rows), tableCompares.eq_def header [.obj es]]
  simp only [h, if_true]
  rw [tableCompares.eq_def header []]
  rfl

omit [F64 F] in
theorem widthEntries_prims (es : List (Str × Json F)) (h : ∀ e ∈ es, ∃ p, e.2 = .prim p) : widthEntries es = 0 ∧ nodesEntries es = es.length := by
  induction es with
  | nil => exact ⟨rfl, rfl⟩
  | cons e es ih =>
    obtain ⟨h1, h2⟩ := ih (fun e he => h e (by simp [he]))
    obtain ⟨k, v⟩ := e
    obtain ⟨p, hp⟩ := h (k, v) (by simp)
    simp only at hp
    subst hp
    rw [widthEntries, nodesEntries, h1, h2, width, nodes, List.length_cons]
    exact ⟨rfl, by omega⟩

/-- The rows of `lateRows` after the first. -/
def lateRow (w : Nat) : List (Str × Json F) := List.replicate w (['x'], .prim .null) ++ [(['k'], .prim .null)]

omit [F64 F] in
theorem widthItems_same {rows : List (Json F)} {w n : Nat} (h : ∀ row ∈ rows, width row = w ∧ nodes row = n) :
    widthItems rows ≤ w ∧ nodesItems rows = rows.length * n := by
  induction rows with
  | nil => exact ⟨Nat.zero_le _, by simp [nodesItems]⟩
  | cons r rs ih =>
    obtain ⟨h1, h2⟩ := ih (fun r hr => h r (by simp [hr]))
    obtain ⟨h3, h4⟩ := h r (by simp)
    rw [widthItems, nodesItems, h2, h4, List.length_cons, Nat.succ_mul]
    exact ⟨by omega, by omega⟩

theorem normalizeEntries_null (es : List (Str × Json F)) (h : ∀ e ∈ es, e.2 = .prim .null) : normalizeEntries es = es := by
  induction es with
  | nil => rfl
  | cons e es ih =>
    obtain ⟨k, v⟩ := e
    have := h (k, v) (by simp)
    simp only at this
    subst this
    rw [normalizeEntries, ih (fun e he => h e (by simp [he])), normalize]
    rfl

theorem late_compares (w rows stack : Nat) :
    encodeCompares opts (stack + 3) (lateRows (w + 1) rows : Json F) = 2 * ((w + 1) + rows * ((w + 1) * (w + 1))) ∧
    width (lateRows (w + 1) rows : Json F) = w + 1 ∧ nodes (lateRows (w + 1) rows : Json F) = 1 + (rows + 1) * (w + 2) := by
  have hlist : (lateRows (w + 1) rows : Json F) =
      .arr (.obj (List.replicate (w + 1) (['k'], .prim .null)) :: List.replicate rows (.obj (lateRow w))) := rfl
  have hkeys : (List.replicate (w + 1) ((['k'], .prim .null) : Str × Json F)).map Prod.fst = List.replicate (w + 1) ['k'] := by
    rw [List.map_replicate]
  have hlate : ∀ e ∈ (lateRow w : List (Str × Json F)), e.2 = .prim .null := by
    intro e he
    unfold lateRow at he
    rcases List.mem_append.1 he with he | he
    · rw [List.eq_of_mem_replicate he]
    · rw [List.mem_singleton.1 he]
  have hfirst : ∀ e ∈ (List.replicate (w + 1) ((['k'], .prim .null) : Str × Json F)), e.2 = .prim .null := by
    intro e he
    rw [List.eq_of_mem_replicate he]
  have hlen : (lateRow w : List (Str × Json F)).length = w + 1 := by simp [lateRow]
  have hnorm : normalize (lateRows (w + 1) rows : Json F) = lateRows (w + 1) rows := by
    rw [hlist, normalize, normalizeItems, normalize, normalizeEntries_null _ hfirst]
    have : ∀ n, normalizeItems (List.replicate n (.obj (lateRow w) : Json F)) = List.replicate n (.obj (lateRow w)) := by
      intro n
      induction n with
      | zero => rfl
      | succ n ih => rw [List.replicate_succ, normalizeItems, normalize, normalizeEntries_null _ hlate, ih]
    rw [this]
  have hgetF : ∀ key ∈ List.replicate (w + 1) ['k'], getCompares (List.replicate (w + 1) ((['k'], .prim .null) : Str × Json F)) key = 1 := by
    intro key hk
    rw [List.eq_of_mem_replicate hk]
    exact getCompares_first w _ _
  have hgetL : ∀ key ∈ List.replicate (w + 1) ['k'], getCompares (lateRow w : List (Str × Json F)) key = w + 1 := by
    intro key hk
    rw [List.eq_of_mem_replicate hk]
    exact (getCompares_last (by decide) _ _ w).1
  have htF : isTabularRow (List.replicate (w + 1) ['k']) (.obj (List.replicate (w + 1) (['k'], .prim .null)) : Json F) = true := by
    rw [isTabularRow, Bool.and_eq_true, beq_iff_eq, List.all_eq_true]
    refine ⟨by simp, fun key hk => ?_⟩
    rw [List.eq_of_mem_replicate hk, List.replicate_succ, objGet, if_pos rfl]
    rfl
  have htL : isTabularRow (List.replicate (w + 1) ['k']) (.obj (lateRow w) : Json F) = true := by
    rw [isTabularRow, Bool.and_eq_true, beq_iff_eq, List.all_eq_true]
    refine ⟨by rw [hlen]; simp, fun key hk => ?_⟩
    have := (getCompares_last (F := F) (j := ['x']) (k := ['k']) (by decide) (.prim .null) (.prim .null) w).2
    rw [List.eq_of_mem_replicate hk]
    unfold lateRow
    rw [this]
    rfl
  have hsum : ∀ es : List (Str × Json F), (∀ e ∈ es, e.2 = .prim .null) → es.length = w + 1 → width (.obj es) = w + 1 ∧ nodes (.obj es) = w + 2 := by
    intro es he hl
    obtain ⟨h1, h2⟩ := widthEntries_prims es (fun e h => ⟨_, he e h⟩)
    rw [width, nodes, h1, h2, hl]
    exact ⟨by omega, by omega⟩
  refine ⟨?_, ?_, ?_⟩
  · rw [encodeCompares, hnorm, hlist, valueCompares]
    have hrows : ∀ row ∈ (Json.obj (List.replicate (w + 1) ((['k'], .prim .null) : Str × Json F)) :: List.replicate rows (.obj (lateRow w))),
        isTabularRow (List.replicate (w + 1) ['k']) row = true := by
      intro row hr
      rcases List.mem_cons.1 hr with rfl | hr
      · exact htF
      · rw [List.eq_of_mem_replicate hr]; exact htL
    rw [arrayCompares_objs opts stack 0 ?_ (by simp) (by rw [hkeys]; exact List.all_eq_true.2 hrows), hkeys]
    · have e1 := tableCompares_each (header := List.replicate (w + 1) ['k']) (c := fun _ => w + 1) (rows := List.replicate rows (.obj (lateRow w) : Json F))
        (fun row hr => by rw [List.eq_of_mem_replicate hr]; exact ⟨htL, _, rfl, hgetL⟩)
      have e2 := tableCompares_each (header := List.replicate (w + 1) ['k']) (c := fun _ => 1)
        (rows := [(.obj (List.replicate (w + 1) (['k'], .prim .null)) : Json F)])
        (fun row hr => by rw [List.mem_singleton.1 hr]; exact ⟨htF, _, rfl, hgetF⟩)
      have a1 : tableCompares (List.replicate (w + 1) ['k']) (.obj (List.replicate (w + 1) (['k'], .prim .null)) :: List.replicate rows (.obj (lateRow w) : Json F)) =
          tableCompares (List.replicate (w + 1) ['k']) [(.obj (List.replicate (w + 1) (['k'], .prim .null)) : Json F)] +
          tableCompares (List.replicate (w + 1) ['k']) (List.replicate rows (.obj (lateRow w) : Json F)) :=
        tableCompares_cons htF _
      have a2 : rowsCompares (List.replicate (w + 1) ['k']) (.obj (List.replicate (w + 1) (['k'], .prim .null)) :: List.replicate rows (.obj (lateRow w) : Json F)) =
          rowsCompares (List.replicate (w + 1) ['k']) [(.obj (List.replicate (w + 1) (['k'], .prim .null)) : Json F)] +
          rowsCompares (List.replicate (w + 1) ['k']) (List.replicate rows (.obj (lateRow w) : Json F)) := by
        unfold rowsCompares
        simp only [List.map_cons, List.sum_cons, List.map_nil, List.sum_nil, Nat.add_zero]
      rw [map_replicate_sum] at e1
      rw [a1, a2, e1.1, e1.2, e2.1, e2.2]
      simp only [List.map_cons, List.map_nil, List.sum_cons, List.sum_nil, List.length_replicate, Nat.mul_one, Nat.add_zero]
      omega
    · unfold isArrayOfObjs
      rw [List.all_eq_true]
      intro row hr
      rcases List.mem_cons.1 hr with rfl | hr
      · rfl
      · rw [List.eq_of_mem_replicate hr]; rfl
  · obtain ⟨h1, _⟩ := hsum _ hfirst (by simp)
    have := (widthItems_same (rows := List.replicate rows (.obj (lateRow w) : Json F)) (fun row hr => by
      rw [List.eq_of_mem_replicate hr]; exact hsum _ hlate hlen)).1
    rw [hlist, width, widthItems, h1]
    omega
  · obtain ⟨_, h1⟩ := hsum _ hfirst (by simp)
    have := (widthItems_same (rows := List.replicate rows (.obj (lateRow w) : Json F)) (fun row hr => by
      rw [List.eq_of_mem_replicate hr]; exact hsum _ hlate hlen)).2
    rw [hlist, nodes, nodesItems, h1, this, List.length_replicate, Nat.succ_mul]
    omega

theorem siblingCompares_none {siblings : List Str} {key : Str} (h : key ∉ siblings) : siblingCompares siblings key = siblings.length := by
  induction siblings with
  | nil => rfl
  | cons s rest ih =>
    rw [List.mem_cons, not_or] at h
    rw [siblingCompares, if_neg (fun e => h.1 e.symm), ih h.2, List.length_cons]
    omega

omit [F64 F] in
theorem foldCompares_pair (hf : opts.fold = true) {fd : Nat} (hd : 2 ≤ fd) {key j : Str} (hk : isIdentifierSegment key = true)
    (hj : isIdentifierSegment j = true) (p : Prim F) {siblings : List Str} (hs : ∀ s ∈ siblings, isIdentifierSegment s = true) :
    foldCompares opts key (.obj [(j, .prim p)]) siblings fd = siblings.length := by
  obtain ⟨n, rfl⟩ : ∃ n, fd = n + 2 := ⟨fd - 2, by omega⟩
  have hc : collectChain (n + 2 - 1) (.obj [(j, .prim p)] : Json F) = ([j], .prim p) := by
    show collectChain (n + 1) _ = _
    rw [collectChain]
    cases n <;> simp [collectChain]
  unfold foldCompares
  rw [hf, hc]
  have hall : ([key, j].all isIdentifierSegment) = true := by simp [hk, hj]
  simp only [hall, Json.isObj, Bool.not_true, Bool.false_eq_true, if_false]
  rw [if_neg (by omega), if_neg (by simp)]
  refine siblingCompares_none fun hm => ?_
  exact identifier_nodot (hs _ hm) sep_mem_joinWith

omit [F64 F] in
theorem prim_compares (stack : Nat) (siblings : List Str) (rlk : Option (List Str)) (pp : Option Str) (fd : Nat) (key : Str) (p : Prim F) (depth : Nat) :
    pairCompares opts stack siblings rlk pp fd key (.prim p) depth = 0 := by
  cases stack with
  | zero => rw [pairCompares]
  | succ s =>
    rw [pairCompares.eq_def]
    simp only
    rw [foldCompares_not_obj _ _ rfl]
    cases hf : tryFold key (.prim p : Json F) siblings opts rlk pp fd with
    | none => rfl
    | some r => have := (tryFold_leaf hf).2.1; simp [Json.isObj] at this

omit [F64 F] in
theorem pair_compares (hf : opts.fold = true) {fd : Nat} (hd : 2 ≤ fd) {key j : Str} (hk : isIdentifierSegment key = true)
    (hj : isIdentifierSegment j = true) (p : Prim F) {siblings : List Str} (hs : ∀ s ∈ siblings, isIdentifierSegment s = true)
    (stack : Nat) (rlk : Option (List Str)) (pp : Option Str) (depth : Nat) :
    pairCompares opts (stack + 1) siblings rlk pp fd key (.obj [(j, .prim p)]) depth = siblings.length := by
  rw [pairCompares.eq_def]
  simp only
  rw [foldCompares_pair opts hf hd hk hj p hs]
  cases ht : tryFold key (.obj [(j, .prim p)] : Json F) siblings opts rlk pp fd with
  | some r =>
    have hl := (tryFold_leaf ht).2.2.2
    obtain ⟨n, rfl⟩ : ∃ n, fd = n + 2 := ⟨fd - 2, by omega⟩
    have hc : collectChain (n + 2 - 1) (.obj [(j, .prim p)] : Json F) = ([j], .prim p) := by
      show collectChain (n + 1) _ = _
      rw [collectChain]
      cases n <;> simp [collectChain]
    rw [hc] at hl
    simp only [hl]
    rfl
  | none =>
    simp only [List.isEmpty_cons, Bool.false_eq_true, if_false]
    cases stack with
    | zero => rw [objectCompares]; rfl
    | succ s =>
      rw [objectCompares]
      simp only [List.map_cons, List.map_nil, List.sum_cons, List.sum_nil, prim_compares]
      rfl

theorem pairs_compares (hf : opts.fold = true) (hd : 2 ≤ opts.flattenDepth) {j : Str} (hj : isIdentifierSegment j = true)
    (keys : List Str) (hs : ∀ s ∈ keys, isIdentifierSegment s = true) (stack : Nat) :
    encodeCompares opts (stack + 4) (.obj (keys.map fun k => (k, .obj [(j, .prim .null)])) : Json F) = keys.length * keys.length := by
  have hn : ∀ ks : List Str, normalizeEntries (ks.map fun k => (k, (.obj [(j, .prim .null)] : Json F))) = ks.map fun k => (k, .obj [(j, .prim .null)]) := by
    intro ks
    induction ks with
    | nil => rfl
    | cons k ks ih => rw [List.map_cons, normalizeEntries, ih, normalize, normalizeEntries, normalize]; rfl
  have hkeys : (keys.map fun k => (k, (.obj [(j, .prim .null)] : Json F))).map Prod.fst = keys := by
    rw [List.map_map]; exact List.map_id keys
  rw [encodeCompares, normalize, hn, valueCompares, objectCompares]
  rw [hkeys, List.map_map]
  have : ∀ ks : List Str, (∀ s ∈ ks, isIdentifierSegment s = true) → ∀ rlk : Option (List Str),
      (ks.map ((fun e : Str × Json F => pairCompares opts (stack + 1) keys rlk none ((none : Option Nat).getD opts.flattenDepth) e.1 e.2 0) ∘
        fun k => (k, .obj [(j, .prim .null)]))).sum = ks.length * keys.length := by
    intro ks hks rlk
    induction ks with
    | nil => simp
    | cons k ks ih =>
      rw [List.map_cons, List.sum_cons, ih (fun s h => hks s (by simp [h])), List.length_cons, Nat.succ_mul]
      simp only [Function.comp]
      rw [pair_compares opts hf (by simpa using hd) (hks k (by simp)) hj .null hs]
      omega
  exact this keys hs _

end

end Toon
