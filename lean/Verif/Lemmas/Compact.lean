import Verif.Spec.Compact
import Verif.Lemmas.Size
import Verif.Lemmas.FoldSize
import Verif.Lemmas.DraftLayout

/-! The text with the most compact forms is the shortest: lemmas for C109. -/

namespace Toon

/-- No more lines, and no more characters, however wide a level is. -/
def Fewer (rs rs' : List Row) : Prop := rs.length ≤ rs'.length ∧ ∀ i, rowsSize i rs ≤ rowsSize i rs'

theorem Fewer.refl (rs : List Row) : Fewer rs rs := ⟨Nat.le_refl _, fun _ => Nat.le_refl _⟩

theorem Fewer.append {a a' b b' : List Row} (h : Fewer a a') (h' : Fewer b b') : Fewer (a ++ b) (a' ++ b') := by
  refine ⟨?_, fun i => ?_⟩
  · have := h.1; have := h'.1; simp only [List.length_append]; omega
  · have := h.2 i; have := h'.2 i; simp only [rowsSize_append]; omega

theorem Fewer.cons {r : Row} {b b' : List Row} (h' : Fewer b b') : Fewer (r :: b) (r :: b') :=
  Fewer.append (Fewer.refl [r]) h'

section
variable {F : Type} [F64 F]

mutual
/-- Every array has the most compact form its value allows. -/
def Draft.Tight : Draft F → Prop
  | .prim _ => True
  | .inline _ _ => True
  | .table _ cols rows => cols ≠ [] ∧ rows ≠ []
  | .list _ items => (¬ ∃ ps : List (Prim F), Draft.values items = ps.map .prim) ∧
      (¬ ∃ cols rows, cols ≠ [] ∧ rows ≠ [] ∧ (∀ r ∈ rows, r.length = cols.length) ∧ Draft.values items = rows.map (rowObject cols)) ∧
      Draft.TightItems items
  | .object es => Draft.TightEntries es
def Draft.TightItems : List (Draft F) → Prop
  | [] => True
  | v :: vs => v.Tight ∧ Draft.TightItems vs
def Draft.TightEntries : List (Str × Draft F) → Prop
  | [] => True
  | (_, v) :: es => v.Tight ∧ Draft.TightEntries es
end

/-! ## Rows as objects -/

omit [F64 F] in
theorem rowObject_inj {cols cols' : List Str} {r r' : List (Prim F)} (h : r.length = cols.length) (h' : r'.length = cols'.length)
    (e : rowObject cols r = rowObject cols' r') : cols = cols' ∧ r = r' := by
  simp only [rowObject, Json.obj.injEq] at e
  have e1 := congrArg (List.map Prod.fst) e
  have e2 := congrArg (List.map Prod.snd) e
  simp only [List.map_map, Function.comp_def] at e1 e2
  have z : ∀ {c : List Str} {x : List (Prim F)}, x.length = c.length → (c.zip x).map (fun a => a.1) = c := by
    intro c x hx
    exact List.map_fst_zip (by omega)
  have z2 : ∀ {c : List Str} {x : List (Prim F)}, x.length = c.length → (c.zip x).map (fun a => (.prim a.2 : Json F)) = x.map .prim := by
    intro c x hx
    have : (c.zip x).map (fun a => (.prim a.2 : Json F)) = ((c.zip x).map Prod.snd).map .prim := by
      rw [List.map_map]; rfl
    rw [this, List.map_snd_zip (by omega)]
  rw [z h, z h'] at e1
  rw [z2 h, z2 h'] at e2
  refine ⟨e1, ?_⟩
  exact List.map_inj_right (f := (Json.prim : Prim F → Json F)) (by intro a b hab; exact Json.prim.inj hab) |>.mp e2

omit [F64 F] in
theorem rowObjects_inj {cols cols' : List Str} : ∀ {rows rows' : List (List (Prim F))}, (∀ r ∈ rows, r.length = cols.length) →
    (∀ r ∈ rows', r.length = cols'.length) → rows ≠ [] → rows.map (rowObject cols) = rows'.map (rowObject cols') →
    cols = cols' ∧ rows = rows'
  | [], _, _, _, h, _ => absurd rfl h
  | r :: rows, [], _, _, _, e => by simp at e
  | r :: rows, r' :: rows', h, h', _, e => by
    simp only [List.map_cons, List.cons.injEq] at e
    obtain ⟨e1, e2⟩ := rowObject_inj (h r (by simp)) (h' r' (by simp)) e.1
    refine ⟨e1, ?_⟩
    cases rows with
    | nil =>
      have : rows' = [] := by
        have := e.2; simpa using this.symm
      rw [e2, this]
    | cons a rows =>
      obtain ⟨_, e4⟩ := rowObjects_inj (fun r hr => h r (List.mem_cons_of_mem _ hr)) (fun r hr => h' r (List.mem_cons_of_mem _ hr))
        (by simp) e.2
      rw [e2, e4]

omit [F64 F] in
theorem rowObject_lookup {c : Str} : ∀ {cols : List Str} {r : List (Prim F)}, r.length = cols.length → c ∈ cols →
    ∃ p, lookupKey c ((cols.zip r).map fun a => (a.1, (.prim a.2 : Json F))) = some (.prim p)
  | [], _, _, h => nomatch h
  | k :: cols, [], h, _ => by simp at h
  | k :: cols, p :: r, h, hc => by
    simp only [List.zip_cons_cons, List.map_cons, lookupKey]
    split
    · exact ⟨p, rfl⟩
    · rename_i hk
      refine rowObject_lookup (by simpa using h) ?_
      rcases List.mem_cons.mp hc with h0 | h0
      · exact absurd h0.symm (by simpa using hk)
      · exact h0

omit [F64 F] in
theorem rowObjects_table {cols : List Str} {rows : List (List (Prim F))} (hc : cols ≠ []) (hr : rows ≠ [])
    (h : ∀ r ∈ rows, r.length = cols.length) : IsTable (rows.map (rowObject cols)) cols := by
  refine ⟨hc, ?_, ?_⟩
  · cases rows with
    | nil => exact absurd rfl hr
    | cons r rows =>
      refine ⟨_, _, rfl, ?_⟩
      rw [List.map_map]
      exact List.map_fst_zip (by have := h r (by simp); omega)
  · intro item hi
    obtain ⟨r, hm, rfl⟩ := List.mem_map.mp hi
    refine ⟨_, rfl, ?_, fun c hcm => rowObject_lookup (h r hm) hcm⟩
    have := h r hm
    simp; omega

/-! ## The sizes of cells -/

theorem cellsText_size (d : Char) {ps : List (Prim F)} (h : ps ≠ []) :
    (cellsText d ps).length + 1 = (ps.map fun p => (tokenText d p).length + 1).sum := by
  rw [cellsText, separated_length _ _ (by simpa using h), totalLength, List.map_map, List.length_map]
  clear h
  induction ps with
  | nil => rfl
  | cons p ps ih => simp only [List.map_cons, List.sum_cons, List.length_cons, Function.comp_apply] at ih ⊢; omega

omit [F64 F] in
theorem prim_value {D : Draft F} {p : Prim F} (h : D.value = .prim p) : D = .prim p := by
  cases D <;> simp_all [Draft.value]

omit [F64 F] in
theorem prims_values : ∀ {items : List (Draft F)} {ps : List (Prim F)}, Draft.values items = ps.map .prim → items = ps.map .prim
  | [], [], _ => rfl
  | [], _ :: _, h => by simp [Draft.values] at h
  | _ :: _, [], h => by simp [Draft.values] at h
  | v :: vs, p :: ps, h => by
    simp only [Draft.values, List.map_cons, List.cons.injEq] at h
    rw [List.map_cons, prim_value h.1, prims_values h.2]

omit [F64 F] in
theorem row_value : ∀ {es : List (Str × Draft F)} {cs : List (Str × Prim F)},
    Draft.valueEntries es = cs.map (fun c => (c.1, .prim c.2)) → es = cs.map fun c => (c.1, .prim c.2)
  | [], [], _ => rfl
  | [], _ :: _, h => by simp [Draft.valueEntries] at h
  | _ :: _, [], h => by simp [Draft.valueEntries] at h
  | (k, v) :: vs, p :: ps, h => by
    simp only [Draft.valueEntries, List.map_cons, List.cons.injEq, Prod.mk.injEq] at h
    rw [List.map_cons, prim_value h.1.2, row_value h.2, h.1.1]

omit [F64 F] in
theorem rowObject_value {D : Draft F} {cols : List Str} {r : List (Prim F)} (h : D.value = rowObject cols r) :
    D = .object ((cols.zip r).map fun c => (c.1, .prim c.2)) := by
  cases D with
  | object es => simp only [Draft.value, rowObject, Json.obj.injEq] at h; rw [row_value h]
  | _ => simp [Draft.value, rowObject] at h

theorem primItems_size (i : Nat) (d : Char) (inner : Nat) (ps : List (Prim F)) :
    rowsSize i (Draft.itemsRows d inner (ps.map .prim)) = (ps.map fun p => i * inner + ((tokenText d p).length + 1) + 2).sum := by
  induction ps with
  | nil => rfl
  | cons p ps ih =>
    simp only [List.map_cons, Draft.itemsRows, Draft.itemRows, rowsSize_append, rowsSize_cons, rowsSize_nil, ih, rowSize, List.sum_cons,
      List.length_cons]
    omega

omit [F64 F] in
theorem sum_le {α : Type} {f g : α → Nat} (h : ∀ a, f a ≤ g a) (xs : List α) : (xs.map f).sum ≤ (xs.map g).sum := by
  induction xs with
  | nil => exact Nat.le_refl _
  | cons x xs ih => simp only [List.map_cons, List.sum_cons]; have := h x; omega

theorem rowEntries_size (i : Nat) (d : Char) (depth : Nat) : ∀ {cols : List Str} {r : List (Prim F)}, r.length = cols.length →
    (cols.map fun c => (keyTextOf c).length + 1).sum + (r.map fun p => (tokenText d p).length + 1).sum ≤
      rowsSize i (Draft.entriesRows d depth ((cols.zip r).map fun c => (c.1, .prim c.2)))
  | [], [], _ => Nat.le_refl _
  | [], _ :: _, h => by simp at h
  | _ :: _, [], h => by simp at h
  | c :: cols, p :: r, h => by
    have := rowEntries_size i d depth (cols := cols) (r := r) (by simpa using h)
    simp only [List.zip_cons_cons, List.map_cons, Draft.entriesRows, Draft.entryRows, rowsSize_append, rowsSize_cons, rowsSize_nil, rowSize,
      List.sum_cons, List.length_append, List.length_cons] at this ⊢
    omega

/-- An object behind a hyphen takes more than its row in a table and the names of the columns. -/
theorem rowItem_size (i : Nat) (d : Char) (depth : Nat) {cols : List Str} {r : List (Prim F)} (h : r.length = cols.length) (hc : cols ≠ []) :
    (cols.map fun c => (keyTextOf c).length + 1).sum + rowSize i (depth, cellsText d r) + 1 ≤
      rowsSize i ((Draft.object ((cols.zip r).map fun c => (c.1, .prim c.2))).itemRows d depth) := by
  match cols, r, h, hc with
  | c :: cols, p :: r, h, _ =>
    have h1 := rowEntries_size i d (depth + 1) (cols := cols) (r := r) (by simpa using h)
    have h2 := cellsText_size d (ps := p :: r) (by simp)
    simp only [List.zip_cons_cons, List.map_cons, Draft.itemRows, Draft.entryRows, rowsSize_append, rowsSize_cons, rowsSize_nil, rowSize,
      List.sum_cons, List.length_append, List.length_cons] at h1 h2 ⊢
    omega

theorem tableText_size (d : Char) {cols : List Str} (n : Nat) (h : cols ≠ []) :
    (tableText d cols n).length = (lengthMark d n).length + (cols.map fun c => (keyTextOf c).length + 1).sum + 2 := by
  have h1 := separated_length d (cols.map keyTextOf) (by simpa using h)
  have h2 : totalLength (cols.map keyTextOf) + (cols.map keyTextOf).length = (cols.map fun c => (keyTextOf c).length + 1).sum := by
    clear h1 h
    induction cols with
    | nil => rfl
    | cons c cs ih => simp only [totalLength, List.map_cons, List.sum_cons, List.length_cons] at ih ⊢; omega
  simp only [tableText, List.length_append, List.length_cons, List.length_nil]
  omega

omit [F64 F] in
theorem objects_values {cols : List Str} : ∀ {items : List (Draft F)} {rows : List (List (Prim F))},
    Draft.values items = rows.map (rowObject cols) → items = rows.map fun r => .object ((cols.zip r).map fun c => (c.1, .prim c.2))
  | [], [], _ => rfl
  | [], _ :: _, h => by simp [Draft.values] at h
  | _ :: _, [], h => by simp [Draft.values] at h
  | v :: vs, r :: rows, h => by
    simp only [Draft.values, List.map_cons, List.cons.injEq] at h
    rw [List.map_cons, rowObject_value h.1, objects_values h.2]

theorem rowItems_size (i : Nat) (d : Char) (depth : Nat) {cols : List Str} (hc : cols ≠ []) : ∀ {rows : List (List (Prim F))},
    (∀ r ∈ rows, r.length = cols.length) →
    rowsSize i (rows.map fun r => (depth, cellsText d r)) + rows.length * ((cols.map fun c => (keyTextOf c).length + 1).sum + 1) ≤
      rowsSize i (Draft.itemsRows d depth (rows.map fun r => .object ((cols.zip r).map fun c => (c.1, .prim c.2)))) ∧
    rows.length ≤ (Draft.itemsRows d depth (rows.map fun r => .object ((cols.zip r).map fun c => (c.1, .prim c.2)))).length
  | [], _ => by simp [Draft.itemsRows, rowsSize_nil]
  | r :: rows, h => by
    obtain ⟨h1, h2⟩ := rowItems_size i d depth hc (rows := rows) (fun r hr => h r (List.mem_cons_of_mem _ hr))
    have h3 := rowItem_size i d depth (h r (by simp)) hc
    have h4 : 1 ≤ ((Draft.object ((cols.zip r).map fun c => (c.1, .prim c.2))).itemRows d depth).length := by
      have := h r (by simp)
      match cols, r, this, hc with
      | c :: cols, p :: r, _, _ => simp [Draft.itemRows, Draft.entryRows]
    simp only [List.map_cons, Draft.itemsRows, rowsSize_cons, rowsSize_append, List.length_cons, List.length_append, Nat.succ_mul]
    omega

/-! ## The comparison -/

mutual

theorem entryRows_fewer (d : Char) (head : Str) (depth inner : Nat) (T D : Draft F) (ht : T.Tight) (hT : T.Honest) (hh : D.Honest)
    (hl : D.Legible) (hv : T.value = D.value) : Fewer (T.entryRows d head depth inner) (D.entryRows d head depth inner) := by
  match T with
  | .prim p =>
    rw [prim_value hv.symm]
    exact .refl _
  | .inline n ps =>
    cases D with
    | prim p => simp [Draft.value] at hv
    | object es => simp [Draft.value] at hv
    | inline m qs =>
      simp only [Draft.value, Json.arr.injEq] at hv
      have : ps = qs := List.map_inj_right (f := (Json.prim : Prim F → Json F)) (by intro a b hab; exact Json.prim.inj hab) |>.mp hv
      simp only [Draft.Honest] at hT hh
      rw [this] at hT ⊢
      rw [← hT, ← hh]
      exact .refl _
    | table m cols rows =>
      simp only [Draft.value, Json.arr.injEq] at hv
      have h0 : rows = [] := by
        cases rows with
        | nil => rfl
        | cons r rows => cases ps <;> simp [rowObject] at hv
      have h1 : ps = [] := by rw [h0] at hv; simpa using hv
      simp only [Draft.Honest, h0, h1, List.length_nil] at hT hh
      rw [← hT, ← hh.1, h0, h1]
      simp only [Draft.entryRows, declaredInline, tableText, List.map_nil, List.isEmpty_nil, if_true]
      refine ⟨Nat.le_refl _, fun i => ?_⟩
      simp only [rowsSize_cons, rowsSize_nil, rowSize, List.length_append, List.length_cons, List.length_nil]
      omega
    | list m items =>
      simp only [Draft.value, Json.arr.injEq] at hv
      have h0 := prims_values hv.symm
      simp only [Draft.Honest, h0, List.length_map] at hT hh
      rw [← hT, ← hh.1, h0]
      simp only [Draft.entryRows, declaredInline]
      refine ⟨by simp, fun i => ?_⟩
      rw [rowsSize_cons, rowsSize_cons, primItems_size, rowsSize_nil]
      cases ps with
      | nil => simp only [List.isEmpty_nil, if_true, rowSize, List.length_append, List.length_cons, List.length_nil, List.map_nil, List.sum_nil]; omega
      | cons p ps =>
        have h1 := cellsText_size d (ps := p :: ps) (by simp)
        have h2 := sum_le (f := fun q : Prim F => (tokenText d q).length + 1) (g := fun q => i * inner + ((tokenText d q).length + 1) + 2)
          (by intro a; omega) (p :: ps)
        simp only [List.isEmpty_cons, if_neg Bool.false_ne_true, rowSize, List.length_append, List.length_cons, List.length_nil]
        omega
  | .table n cols rows =>
    simp only [Draft.Tight] at ht
    simp only [Draft.Honest] at hT
    cases D with
    | prim p => simp [Draft.value] at hv
    | object es => simp [Draft.value] at hv
    | inline m qs =>
      simp only [Draft.value, Json.arr.injEq] at hv
      cases rows with
      | nil => exact absurd rfl ht.2
      | cons r rows => cases qs <;> simp [rowObject] at hv
    | table m cols' rows' =>
      simp only [Draft.value, Json.arr.injEq] at hv
      simp only [Draft.Honest] at hh
      obtain ⟨e1, e2⟩ := rowObjects_inj hT.2 hh.2 ht.2 hv
      rw [e2] at hT
      rw [e1, e2, ← hT.1, ← hh.1]
      exact .refl _
    | list m items =>
      simp only [Draft.value, Json.arr.injEq] at hv
      have h0 := objects_values hv.symm
      simp only [Draft.Honest, h0, List.length_map] at hh
      rw [← hT.1, ← hh.1, h0]
      simp only [Draft.entryRows]
      refine ⟨?_, fun i => ?_⟩
      · have := (rowItems_size 0 d inner ht.1 hT.2).2
        simp only [List.length_cons, List.length_map]; omega
      · have h1 := (rowItems_size i d inner ht.1 hT.2).1
        have h2 := tableText_size d rows.length ht.1
        have h3 : 1 * ((cols.map fun c => (keyTextOf c).length + 1).sum + 1) ≤
            rows.length * ((cols.map fun c => (keyTextOf c).length + 1).sum + 1) :=
          Nat.mul_le_mul_right _ (List.length_pos_iff.mpr ht.2)
        simp only [rowsSize_cons, rowSize, List.length_append, List.length_cons, List.length_nil]
        omega
  | .list n ts =>
    simp only [Draft.Tight] at ht
    simp only [Draft.Honest] at hT
    cases D with
    | prim p => simp [Draft.value] at hv
    | object es => simp [Draft.value] at hv
    | inline m qs =>
      simp only [Draft.value, Json.arr.injEq] at hv
      exact absurd ⟨qs, hv⟩ ht.1
    | table m cols rows =>
      simp only [Draft.value, Json.arr.injEq] at hv
      simp only [Draft.Honest] at hh
      simp only [Draft.Legible] at hl
      by_cases h0 : rows = []
      · exact absurd ⟨[], by rw [hv, h0]; rfl⟩ ht.1
      · exact absurd ⟨cols, rows, hl.2.1, h0, hh.2, hv⟩ ht.2.1
    | list m items =>
      simp only [Draft.value, Json.arr.injEq] at hv
      simp only [Draft.Honest] at hh
      simp only [Draft.Legible] at hl
      have e : n = m := by
        have := congrArg List.length hv
        rw [values_length, values_length] at this
        omega
      simp only [Draft.entryRows, e]
      exact .cons (itemsRows_fewer d inner ts items ht.2.2 hT.2 hh.2 hl.2.2 hv)
  | .object es =>
    simp only [Draft.Tight] at ht
    simp only [Draft.Honest] at hT
    cases D with
    | object es' =>
      simp only [Draft.value, Json.obj.injEq] at hv
      simp only [Draft.Honest] at hh
      simp only [Draft.Legible] at hl
      simp only [Draft.entryRows]
      exact .cons (entriesRows_fewer d inner es es' ht hT hh hl hv)
    | _ => simp [Draft.value] at hv
termination_by (sizeOf T, 0)

theorem entriesRows_fewer (d : Char) (depth : Nat) (es es' : List (Str × Draft F)) (ht : Draft.TightEntries es) (hT : Draft.HonestEntries es)
    (hh : Draft.HonestEntries es') (hl : Draft.LegibleEntries es') (hv : Draft.valueEntries es = Draft.valueEntries es') :
    Fewer (Draft.entriesRows d depth es) (Draft.entriesRows d depth es') := by
  match es, es' with
  | [], [] => exact .refl _
  | [], (_, _) :: _ => simp [Draft.valueEntries] at hv
  | (_, _) :: _, [] => simp [Draft.valueEntries] at hv
  | (k, T) :: es, (k', D) :: es' =>
    simp only [Draft.valueEntries, List.cons.injEq, Prod.mk.injEq] at hv
    simp only [Draft.TightEntries] at ht
    simp only [Draft.HonestEntries] at hT hh
    simp only [Draft.LegibleEntries] at hl
    simp only [Draft.entriesRows, hv.1.1]
    exact .append (entryRows_fewer d _ depth (depth + 1) T D ht.1 hT.1 hh.1 hl.2.1 hv.1.2)
      (entriesRows_fewer d depth es es' ht.2 hT.2 hh.2 hl.2.2 hv.2)
termination_by (sizeOf es, 0)

theorem itemRows_fewer (d : Char) (depth : Nat) (T D : Draft F) (ht : T.Tight) (hT : T.Honest) (hh : D.Honest)
    (hl : D.Legible) (hv : T.value = D.value) : Fewer (T.itemRows d depth) (D.itemRows d depth) := by
  have asEntry : ∀ {X : Draft F}, (∀ es, X ≠ .object es) → (∀ p, X ≠ .prim p) →
      X.itemRows d depth = X.entryRows d ['-', ' '] depth (depth + 1) := by
    intro X h1 h2
    cases X with
    | prim p => exact absurd rfl (h2 p)
    | object es => exact absurd rfl (h1 es)
    | inline n ps => simp [Draft.itemRows, Draft.entryRows]
    | table n cols rows => simp [Draft.itemRows, Draft.entryRows]
    | list n items => simp [Draft.itemRows, Draft.entryRows]
  match T with
  | .prim p => rw [prim_value hv.symm]; exact .refl _
  | .object [] =>
    cases D with
    | object es' =>
      cases es' with
      | nil => exact .refl _
      | cons e es' => simp [Draft.value, Draft.valueEntries] at hv
    | _ => simp [Draft.value] at hv
  | .object ((k, T) :: es) =>
    simp only [Draft.Tight, Draft.TightEntries] at ht
    simp only [Draft.Honest, Draft.HonestEntries] at hT
    cases D with
    | object es' =>
      cases es' with
      | nil => simp [Draft.value, Draft.valueEntries] at hv
      | cons e es' =>
        obtain ⟨k', D⟩ := e
        simp only [Draft.value, Draft.valueEntries, Json.obj.injEq, List.cons.injEq, Prod.mk.injEq] at hv
        simp only [Draft.Honest, Draft.HonestEntries] at hh
        simp only [Draft.Legible, Draft.LegibleEntries] at hl
        simp only [Draft.itemRows, hv.1.1]
        exact .append (entryRows_fewer d _ depth (depth + 2) T D ht.1 hT.1 hh.1 hl.2.1 hv.1.2)
          (entriesRows_fewer d (depth + 1) es es' ht.2 hT.2 hh.2 hl.2.2 hv.2)
    | _ => simp [Draft.value] at hv
  | .inline n ps =>
    have hD : (∀ es, D ≠ .object es) ∧ ∀ p, D ≠ .prim p :=
      ⟨fun es h => by rw [h] at hv; simp [Draft.value] at hv, fun p h => by rw [h] at hv; simp [Draft.value] at hv⟩
    rw [asEntry (by simp) (by simp), asEntry hD.1 hD.2]
    exact entryRows_fewer d _ depth (depth + 1) (.inline n ps) D ht hT hh hl hv
  | .table n cols rows =>
    have hD : (∀ es, D ≠ .object es) ∧ ∀ p, D ≠ .prim p :=
      ⟨fun es h => by rw [h] at hv; simp [Draft.value] at hv, fun p h => by rw [h] at hv; simp [Draft.value] at hv⟩
    rw [asEntry (by simp) (by simp), asEntry hD.1 hD.2]
    exact entryRows_fewer d _ depth (depth + 1) (.table n cols rows) D ht hT hh hl hv
  | .list n ts =>
    have hD : (∀ es, D ≠ .object es) ∧ ∀ p, D ≠ .prim p :=
      ⟨fun es h => by rw [h] at hv; simp [Draft.value] at hv, fun p h => by rw [h] at hv; simp [Draft.value] at hv⟩
    rw [asEntry (by simp) (by simp), asEntry hD.1 hD.2]
    exact entryRows_fewer d _ depth (depth + 1) (.list n ts) D ht hT hh hl hv
termination_by (sizeOf T, 1)

theorem itemsRows_fewer (d : Char) (depth : Nat) (ts items : List (Draft F)) (ht : Draft.TightItems ts) (hT : Draft.HonestItems ts)
    (hh : Draft.HonestItems items) (hl : Draft.LegibleItems items) (hv : Draft.values ts = Draft.values items) :
    Fewer (Draft.itemsRows d depth ts) (Draft.itemsRows d depth items) := by
  match ts, items with
  | [], [] => exact .refl _
  | [], _ :: _ => simp [Draft.values] at hv
  | _ :: _, [] => simp [Draft.values] at hv
  | T :: ts, D :: items =>
    simp only [Draft.values, List.cons.injEq] at hv
    simp only [Draft.TightItems] at ht
    simp only [Draft.HonestItems] at hT hh
    simp only [Draft.LegibleItems] at hl
    simp only [Draft.itemsRows]
    exact .append (itemRows_fewer d depth T D ht.1 hT.1 hh.1 hl.1 hv.1) (itemsRows_fewer d depth ts items ht.2 hT.2 hh.2 hl.2 hv.2)
termination_by (sizeOf ts, 0)

end

theorem documentRows_fewer (d : Char) (T D : Draft F) (ht : T.Tight) (hT : T.Honest) (hh : D.Honest)
    (hl : D.Legible) (hv : T.value = D.value) : Fewer (T.documentRows d) (D.documentRows d) := by
  cases T with
  | prim p => rw [prim_value hv.symm]; exact .refl _
  | object es =>
    cases D with
    | object es' =>
      simp only [Draft.Tight] at ht
      simp only [Draft.value, Json.obj.injEq] at hv
      simp only [Draft.Honest] at hT hh
      simp only [Draft.Legible] at hl
      exact entriesRows_fewer d 0 es es' ht hT hh hl hv
    | _ => simp [Draft.value] at hv
  | inline n ps =>
    have := entryRows_fewer d [] 0 1 (.inline n ps) D ht hT hh hl hv
    cases D with
    | prim p => simp [Draft.value] at hv
    | object es => simp [Draft.value] at hv
    | _ => exact this
  | table n cols rows =>
    have := entryRows_fewer d [] 0 1 (.table n cols rows) D ht hT hh hl hv
    cases D with
    | prim p => simp [Draft.value] at hv
    | object es => simp [Draft.value] at hv
    | _ => exact this
  | list n items =>
    have := entryRows_fewer d [] 0 1 (.list n items) D ht hT hh hl hv
    cases D with
    | prim p => simp [Draft.value] at hv
    | object es => simp [Draft.value] at hv
    | _ => exact this

/-! ## What the encoder writes is tight -/

omit [F64 F] in
/-- Where a value is read as a primitive, it is that primitive. -/
theorem value_prim {n : Nat} {taken path : List Str} {fd : Nat} {v : Json F} {l : Layout F} (h : ValueLayout false n taken path fd v l)
    {p : Prim F} (hp : l.draft.value = .prim p) : v = .prim p := by
  cases h <;> simp_all [Layout.draft, Draft.value]

omit [F64 F] in
theorem item_prim {n : Nat} {v : Json F} {l : Layout F} (h : ItemLayout false n v l) {p : Prim F} (hp : l.draft.value = .prim p) :
    v = .prim p := by
  cases h <;> simp_all [Layout.draft, Draft.value]

omit [F64 F] in
theorem items_prims {n : Nat} : ∀ {vs : List (Json F)} {ls : List (Layout F)}, ItemsLayout false n vs ls → ∀ {ps : List (Prim F)},
    Draft.values (Layout.drafts ls) = ps.map .prim → ArePrims vs ps
  | [], _, h, ps, hp => by
    cases h
    cases ps with
    | nil => rfl
    | cons _ _ => simp [Layout.drafts, Draft.values] at hp
  | v :: vs, _, h, ps, hp => by
    cases h with
    | cons h1 h2 =>
      cases ps with
      | nil => simp [Layout.drafts, Draft.values] at hp
      | cons p ps =>
        simp only [Layout.drafts, Draft.values, List.map_cons, List.cons.injEq] at hp
        have := items_prims h2 hp.2
        rw [ArePrims] at this ⊢
        rw [item_prim h1 hp.1, this, List.map_cons]

/-- Nothing but primitives under the keys. -/
def Flat (es : List (Str × Json F)) : Prop := ∀ e ∈ es, ∃ p, e.2 = .prim p

omit [F64 F] in
theorem entries_flat {n : Nat} {siblings taken path : List Str} {fd : Nat} : ∀ {es : List (Str × Json F)} {ls : List (Str × Layout F)},
    EntriesLayout false n siblings taken path fd es ls → Flat (Draft.valueEntries (Layout.draftEntries ls)) →
    Draft.valueEntries (Layout.draftEntries ls) = es
  | [], _, h, _ => by cases h; rfl
  | (k, v) :: es, _, h, hf => by
    cases h with
    | folded g => exact absurd g (by decide)
    | @plain _ _ _ _ _ _ l _ ls _ h1 h2 =>
      simp only [Layout.draftEntries, Draft.valueEntries] at hf ⊢
      obtain ⟨p, hp⟩ := hf _ List.mem_cons_self
      rw [entries_flat h2 (fun e he => hf e (List.mem_cons_of_mem _ he))]
      dsimp only at hp
      rw [hp, value_prim h1 hp]

omit [F64 F] in
theorem item_flat {n : Nat} {v : Json F} {l : Layout F} (h : ItemLayout false n v l) {es : List (Str × Json F)} (hf : Flat es)
    (hv : l.draft.value = .obj es) : v = .obj es := by
  cases h with
  | prim p => simp [Layout.draft, Draft.value] at hv
  | inline _ => simp [Layout.draft, Draft.value] at hv
  | list _ _ => simp [Layout.draft, Draft.value] at hv
  | empty => simp [Layout.draft, Layout.draftEntries, Draft.value, Draft.valueEntries] at hv; rw [hv]
  | @object k w l es' ls h1 h2 =>
    simp only [Layout.draft, Layout.draftEntries, Draft.value, Draft.valueEntries, Json.obj.injEq] at hv
    subst hv
    obtain ⟨p, hp⟩ := hf _ List.mem_cons_self
    dsimp only at hp
    rw [entries_flat h2 (fun e he => hf e (List.mem_cons_of_mem _ he)), hp, value_prim h1 hp]

omit [F64 F] in
theorem items_flat {n : Nat} : ∀ {vs : List (Json F)} {ls : List (Layout F)}, ItemsLayout false n vs ls →
    (∀ x ∈ Draft.values (Layout.drafts ls), ∃ es, x = .obj es ∧ Flat es) → Draft.values (Layout.drafts ls) = vs
  | [], _, h, _ => by cases h; rfl
  | v :: vs, _, h, hf => by
    cases h with
    | @cons _ l _ ls h1 h2 =>
      simp only [Layout.drafts, Draft.values] at hf ⊢
      obtain ⟨es, h3, h4⟩ := hf _ List.mem_cons_self
      rw [items_flat h2 (fun x hx => hf x (List.mem_cons_of_mem _ hx)), item_flat h1 h4 h3, h3]

omit [F64 F] in
mutual

theorem value_tight {n : Nat} {taken path : List Str} {fd : Nat} (v : Json F) {l : Layout F}
    (h : ValueLayout false n taken path fd v l) (hn : NoInnerTables v) : l.draft.Tight := by
  match v with
  | .prim p => cases h; simp [Layout.draft, Draft.Tight]
  | .arr items =>
    cases h with
    | inline h1 => simp [Layout.draft, Draft.Tight]
    | table h1 h2 =>
      simp only [Layout.draft, Draft.Tight]
      refine ⟨h1.1, ?_⟩
      intro h0
      obtain ⟨_, _, e, _⟩ := h1.2.1
      rw [e, h0] at h2
      cases h2
    | list h1 h2 h3 =>
      simp only [NoInnerTables] at hn
      exact list_tight items h3 h1 h2 hn
  | .obj es =>
    cases h with
    | object h1 =>
      simp only [NoInnerTables] at hn
      simp only [Layout.draft, Draft.Tight]
      exact entries_tight es h1 hn
termination_by (sizeOf v, 1)

theorem list_tight {n : Nat} (items : List (Json F)) {ls : List (Layout F)} (h3 : ItemsLayout false n items ls)
    (h1 : ¬ ∃ ps, ArePrims items ps) (h2 : ¬ ∃ cols, IsTable items cols) (hn : NoInnerTablesItems items) :
    (Layout.draft (.list ls)).Tight := by
  simp only [Layout.draft, Draft.Tight]
  refine ⟨fun ⟨ps, hp⟩ => h1 ⟨ps, items_prims h3 hp⟩, ?_, items_tight items h3 hn⟩
  rintro ⟨cols, rows, hc, hr, hl, hv⟩
  refine h2 ⟨cols, ?_⟩
  have : Draft.values (Layout.drafts ls) = items := by
    refine items_flat h3 ?_
    intro x hx
    rw [hv] at hx
    obtain ⟨r, _, rfl⟩ := List.mem_map.mp hx
    refine ⟨_, rfl, ?_⟩
    intro e he
    obtain ⟨c, _, rfl⟩ := List.mem_map.mp he
    exact ⟨_, rfl⟩
  rw [← this, hv]
  exact rowObjects_table hc hr hl
termination_by (sizeOf items, 1)

theorem entries_tight {n : Nat} {siblings taken path : List Str} {fd : Nat} (es : List (Str × Json F)) {ls : List (Str × Layout F)}
    (h : EntriesLayout false n siblings taken path fd es ls) (hn : NoInnerTablesEntries es) :
    Draft.TightEntries (Layout.draftEntries ls) := by
  match es with
  | [] => cases h; simp [Layout.draftEntries, Draft.TightEntries]
  | (k, v) :: es =>
    simp only [NoInnerTablesEntries] at hn
    cases h with
    | folded g => exact absurd g (by decide)
    | plain _ h1 h2 =>
      simp only [Layout.draftEntries, Draft.TightEntries]
      exact ⟨value_tight v h1 hn.1, entries_tight es h2 hn.2⟩
termination_by (sizeOf es, 0)

theorem item_tight {n : Nat} (v : Json F) {l : Layout F} (h : ItemLayout false n v l)
    (ht : ∀ xs, v = .arr xs → ¬ ∃ cols, IsTable xs cols) (hn : NoInnerTables v) : l.draft.Tight := by
  match v with
  | .prim p => cases h; simp [Layout.draft, Draft.Tight]
  | .arr items =>
    cases h with
    | inline h1 => simp [Layout.draft, Draft.Tight]
    | list h1 h3 =>
      simp only [NoInnerTables] at hn
      exact list_tight items h3 h1 (ht items rfl) hn
  | .obj [] => cases h; simp [Layout.draft, Layout.draftEntries, Draft.Tight, Draft.TightEntries]
  | .obj ((k, v) :: es) =>
    cases h with
    | object h1 h2 =>
      simp only [NoInnerTables, NoInnerTablesEntries] at hn
      simp only [Layout.draft, Layout.draftEntries, Draft.Tight, Draft.TightEntries]
      exact ⟨value_tight v h1 hn.1, entries_tight es h2 hn.2⟩
termination_by (sizeOf v, 1)

theorem items_tight {n : Nat} (vs : List (Json F)) {ls : List (Layout F)} (h : ItemsLayout false n vs ls)
    (hn : NoInnerTablesItems vs) : Draft.TightItems (Layout.drafts ls) := by
  match vs with
  | [] => cases h; simp [Layout.drafts, Draft.TightItems]
  | v :: vs =>
    simp only [NoInnerTablesItems] at hn
    cases h with
    | cons h1 h2 =>
      simp only [Layout.drafts, Draft.TightItems]
      exact ⟨item_tight v h1 hn.1 hn.2.1, items_tight vs h2 hn.2.2⟩
termination_by (sizeOf vs, 0)

end

end

end Toon
