import Verif.Spec.Size
import Verif.Lemmas.Layout
import Verif.Lemmas.Equiv
import Verif.Lemmas.ExpandMerge
import Verif.Model.JsonText

/-! Lengths of written texts (C62). -/

namespace Toon

/-! ## Digits -/

theorem natDigits_length_pos (n : Nat) (h : 0 < n) : (natDigits n).length ≤ n := by
  have key : ∀ fuel m, m < fuel → 0 < m → (natDigitsAux fuel m []).length ≤ m := by
    intro fuel
    induction fuel with
    | zero => intro m hm; omega
    | succ f ih =>
      intro m hm h0
      simp only [natDigitsAux]
      split
      · simp; omega
      · rw [natDigitsAux_acc]
        have := ih (m / 10) (by omega) (by omega)
        simp only [List.length_append, List.length_cons, List.length_nil]
        omega
  exact key (n + 1) n (by omega) h

theorem lengthMark_length (d : Char) (n : Nat) :
    (lengthMark d n).length = 2 + (natDigits n).length + (if d = ',' then 0 else 1) := by
  rw [lengthMark, ← natDigits_toString]
  split <;> simp <;> omega

/-! ## Strings -/

theorem flatMap_length_le {f g : Char → Str} (h : ∀ c, (f c).length ≤ (g c).length) (s : Str) :
    (s.flatMap f).length ≤ (s.flatMap g).length := by
  induction s with
  | nil => simp
  | cons c s ih => simp only [List.flatMap_cons, List.length_append]; have := h c; omega

theorem escapedChar_length_le (c : Char) : (escapedChar c).length ≤ (jsonEscapeChar c).length := by
  rw [escapedChar_eq, escapeChar, jsonEscapeChar]
  repeat' split
  all_goals simp_all

theorem length_le_jsonString (s : Str) : s.length + 2 ≤ (jsonString s).length := by
  have : s.length ≤ (s.flatMap jsonEscapeChar).length := by
    have := flatMap_length_le (f := fun c => [c]) (g := jsonEscapeChar) (by
      intro c; rw [jsonEscapeChar]; repeat' split
      all_goals simp) s
    simpa using this
  simp only [jsonString, List.length_cons, List.length_append, List.length_nil]; omega

theorem quotedText_length_le (s : Str) : (quotedText s).length ≤ (jsonString s).length := by
  have := flatMap_length_le escapedChar_length_le s
  simp only [jsonString, quotedText, List.length_cons, List.length_append, List.length_nil]; omega

theorem keyTextOf_length_le (k : Str) : (keyTextOf k).length ≤ (jsonString k).length := by
  rw [keyTextOf]
  split
  · have := length_le_jsonString k; omega
  · exact quotedText_length_le k

section
variable {F : Type} [F64 F]

theorem tokenText_str_length_le (d : Char) (s : Str) : (tokenText (F := F) d (.str s)).length ≤ (jsonString s).length := by
  rw [tokenText]
  split
  · have := length_le_jsonString s; omega
  · exact quotedText_length_le s

end

theorem separated_length (d : Char) : ∀ ws : List Str, ws ≠ [] → (separated d ws).length + 1 = totalLength ws + ws.length
  | [w], _ => by simp [separated, totalLength]
  | w :: w' :: ws, _ => by
    have := separated_length d (w' :: ws) (by simp)
    rw [separated]
    · simp only [totalLength, List.map_cons, List.sum_cons, List.length_append, List.length_cons] at this ⊢
      omega
    · simp

/-! ## Sizes of rows -/

/-- The characters of a row with its indentation and the line end. -/
def rowSize (i : Nat) (r : Row) : Nat := i * r.1 + r.2.length + 1

/-- The characters of several rows. -/
def rowsSize (i : Nat) (rs : List Row) : Nat := (rs.map (rowSize i)).sum

theorem rowsSize_append (i : Nat) (a b : List Row) : rowsSize i (a ++ b) = rowsSize i a + rowsSize i b := by
  simp [rowsSize]

theorem rowsSize_cons (i : Nat) (r : Row) (b : List Row) : rowsSize i (r :: b) = rowSize i r + rowsSize i b := by
  simp [rowsSize]

theorem rowsSize_nil (i : Nat) : rowsSize i [] = 0 := rfl

theorem separated_rows (i : Nat) (rs : List Row) (h : rs ≠ []) :
    (separated '\n' (rs.map (rowText i))).length + 1 = rowsSize i rs := by
  rw [separated_length _ _ (by simpa using h), totalLength, rowsSize, List.map_map, List.length_map]
  clear h
  induction rs with
  | nil => rfl
  | cons r rs ih =>
    simp only [List.map_cons, List.sum_cons, List.length_cons, Function.comp_apply, rowText, rowSize, List.length_append,
      List.length_replicate] at ih ⊢
    omega

/-! ## Sizes of JSON texts -/

section
variable {F : Type}

mutual
/-- The length of JSON text with `i` spaces per level, when the length of primitives is `g`. -/
def jsonLen (g : Prim F → Nat) (i e : Nat) : Json F → Nat
  | .prim p => g p
  | .arr vs => if vs.isEmpty then 2 else 1 + jsonLenItems g i e vs + (if i > 0 then 1 + e * i else 0) + 1
  | .obj es => if es.isEmpty then 2 else 1 + jsonLenEntries g i e es + (if i > 0 then 1 + e * i else 0) + 1
def jsonLenItems (g : Prim F → Nat) (i e : Nat) : List (Json F) → Nat
  | [] => 0
  | v :: vs => (if i > 0 then 1 + (e + 1) * i else 0) + jsonLen g i (e + 1) v + (if vs.isEmpty then 0 else 1) + jsonLenItems g i e vs
def jsonLenEntries (g : Prim F → Nat) (i e : Nat) : List (Str × Json F) → Nat
  | [] => 0
  | (k, v) :: es => (if i > 0 then 1 + (e + 1) * i else 0) + (jsonString k).length + (if i > 0 then 2 else 1) + jsonLen g i (e + 1) v +
      (if es.isEmpty then 0 else 1) + jsonLenEntries g i e es
end

mutual
theorem jsonStringify_length [F64 F] [JsonNum F] (i e : Nat) (v : Json F) :
    (jsonStringify i e v).length = jsonLen (fun p => (jsonPrimitive p).length) i e v := by
  match v with
  | .prim p => rw [jsonStringify, jsonLen]
  | .arr vs =>
    rw [jsonStringify, jsonLen]
    split
    · rfl
    · split
      · simp only [List.length_cons, List.length_append, jsonItems_length, jsonIndent, List.length_replicate, List.length_nil]; omega
      · simp only [List.length_cons, List.length_append, jsonItems_length, List.length_nil]; omega
  | .obj es =>
    rw [jsonStringify, jsonLen]
    split
    · rfl
    · split
      · simp only [List.length_cons, List.length_append, jsonEntries_length, jsonIndent, List.length_replicate, List.length_nil]; omega
      · simp only [List.length_cons, List.length_append, jsonEntries_length, List.length_nil]; omega
theorem jsonItems_length [F64 F] [JsonNum F] (i e : Nat) (vs : List (Json F)) :
    (jsonItems i e vs).length = jsonLenItems (fun p => (jsonPrimitive p).length) i e vs := by
  match vs with
  | [] => rfl
  | v :: vs =>
    rw [jsonItems, jsonLenItems]
    simp only [List.length_append, jsonStringify_length i (e + 1) v, jsonItems_length i e vs]
    split <;> split <;> simp [jsonIndent] <;> omega
theorem jsonEntries_length [F64 F] [JsonNum F] (i e : Nat) (es : List (Str × Json F)) :
    (jsonEntries i e es).length = jsonLenEntries (fun p => (jsonPrimitive p).length) i e es := by
  match es with
  | [] => rfl
  | (k, v) :: es =>
    rw [jsonEntries, jsonLenEntries]
    simp only [List.length_append, jsonStringify_length i (e + 1) v, jsonEntries_length i e es]
    split <;> split <;> simp [jsonIndent] <;> omega
end

mutual
theorem jsonLen_mono {g g' : Prim F → Nat} {i e e' : Nat} (he : e ≤ e') (v : Json F) (h : AllPrims (fun p => g p ≤ g' p) v) :
    jsonLen g i e v ≤ jsonLen g' i e' v := by
  have hm : e * i ≤ e' * i := Nat.mul_le_mul_right _ he
  match v with
  | .prim p => simpa only [jsonLen, AllPrims] using h
  | .arr vs =>
    have := jsonLenItems_mono (i := i) he vs h
    simp only [jsonLen]; repeat' split
    all_goals omega
  | .obj es =>
    have := jsonLenEntries_mono (i := i) he es h
    simp only [jsonLen]; repeat' split
    all_goals omega
theorem jsonLenItems_mono {g g' : Prim F → Nat} {i e e' : Nat} (he : e ≤ e') (vs : List (Json F))
    (h : AllPrimsItems (fun p => g p ≤ g' p) vs) : jsonLenItems g i e vs ≤ jsonLenItems g' i e' vs := by
  have hm : (e + 1) * i ≤ (e' + 1) * i := Nat.mul_le_mul_right _ (by omega)
  match vs with
  | [] => exact Nat.le_refl _
  | v :: vs =>
    simp only [AllPrimsItems] at h
    have h1 := jsonLen_mono (i := i) (Nat.add_le_add_right he 1) v h.1
    have h2 := jsonLenItems_mono (i := i) he vs h.2
    simp only [jsonLenItems]; repeat' split
    all_goals omega
theorem jsonLenEntries_mono {g g' : Prim F → Nat} {i e e' : Nat} (he : e ≤ e') (es : List (Str × Json F))
    (h : AllPrimsEntries (fun p => g p ≤ g' p) es) : jsonLenEntries g i e es ≤ jsonLenEntries g' i e' es := by
  have hm : (e + 1) * i ≤ (e' + 1) * i := Nat.mul_le_mul_right _ (by omega)
  match es with
  | [] => exact Nat.le_refl _
  | (k, v) :: es =>
    simp only [AllPrimsEntries] at h
    have h1 := jsonLen_mono (i := i) (Nat.add_le_add_right he 1) v h.1
    have h2 := jsonLenEntries_mono (i := i) he es h.2
    simp only [jsonLenEntries]; repeat' split
    all_goals omega
end

mutual
theorem jsonLen_mapPrims (g : Prim F → Nat) (f : Prim F → Prim F) (i e : Nat) (v : Json F) :
    jsonLen g i e (v.mapPrims f) = jsonLen (fun p => g (f p)) i e v := by
  match v with
  | .prim p => rfl
  | .arr vs =>
    simp only [Json.mapPrims, jsonLen, jsonLenItems_mapPrims g f i e vs]
    cases vs <;> simp [Json.mapPrimsItems]
  | .obj es =>
    simp only [Json.mapPrims, jsonLen, jsonLenEntries_mapPrims g f i e es]
    rcases es with _ | ⟨⟨_, _⟩, _⟩ <;> simp [Json.mapPrimsEntries]
theorem jsonLenItems_mapPrims (g : Prim F → Nat) (f : Prim F → Prim F) (i e : Nat) (vs : List (Json F)) :
    jsonLenItems g i e (Json.mapPrimsItems f vs) = jsonLenItems (fun p => g (f p)) i e vs := by
  match vs with
  | [] => rfl
  | v :: vs =>
    simp only [Json.mapPrimsItems, jsonLenItems, jsonLen_mapPrims g f i (e + 1) v, jsonLenItems_mapPrims g f i e vs]
    cases vs <;> simp [Json.mapPrimsItems]
theorem jsonLenEntries_mapPrims (g : Prim F → Nat) (f : Prim F → Prim F) (i e : Nat) (es : List (Str × Json F)) :
    jsonLenEntries g i e (Json.mapPrimsEntries f es) = jsonLenEntries (fun p => g (f p)) i e es := by
  match es with
  | [] => rfl
  | (k, v) :: es =>
    simp only [Json.mapPrimsEntries, jsonLenEntries, jsonLen_mapPrims g f i (e + 1) v, jsonLenEntries_mapPrims g f i e es]
    rcases es with _ | ⟨⟨_, _⟩, _⟩ <;> simp [Json.mapPrimsEntries]
end

mutual
theorem allPrims_of (P : Prim F → Prop) (h : ∀ p, P p) (v : Json F) : AllPrims P v := by
  match v with
  | .prim p => exact h p
  | .arr vs => exact allPrimsItems_of P h vs
  | .obj es => exact allPrimsEntries_of P h es
theorem allPrimsItems_of (P : Prim F → Prop) (h : ∀ p, P p) (vs : List (Json F)) : AllPrimsItems P vs := by
  match vs with
  | [] => trivial
  | v :: vs => exact ⟨allPrims_of P h v, allPrimsItems_of P h vs⟩
theorem allPrimsEntries_of (P : Prim F → Prop) (h : ∀ p, P p) (es : List (Str × Json F)) : AllPrimsEntries P es := by
  match es with
  | [] => trivial
  | (_, v) :: es => exact ⟨allPrims_of P h v, allPrimsEntries_of P h es⟩
end

theorem jsonLen_deeper (g : Prim F → Nat) (i : Nat) {e e' : Nat} (he : e ≤ e') (v : Json F) : jsonLen g i e v ≤ jsonLen g i e' v :=
  jsonLen_mono he v (allPrims_of _ (fun _ => Nat.le_refl _) v)

end

/-! ## Tables -/

section
variable {F : Type} [F64 F]

/-- The length of a primitive's token. -/
noncomputable def tokenLength (d : Char) (p : Prim F) : Nat := (tokenText d p).length

theorem cellsText_length (d : Char) (ps : List (Prim F)) (h : ps ≠ []) :
    (cellsText d ps).length + 1 = (ps.map (tokenLength d)).sum + ps.length := by
  rw [cellsText, separated_length _ _ (by simpa using h), totalLength, List.map_map, List.length_map]
  rfl

omit [F64 F] in
theorem pointwise_length {α β : Type} {R : α → β → Prop} {as : List α} {bs : List β} (h : Pointwise R as bs) :
    as.length = bs.length := by
  induction h with
  | nil => rfl
  | cons _ _ ih => simp [ih]

omit [F64 F] in
theorem cells_perm {cols : List Str} {es : List (Str × Json F)} {row : List (Prim F)} (hc : cols.Nodup)
    (hl : es.length = cols.length) (h : Pointwise (fun c p => lookupKey c es = some (.prim p)) cols row) :
    (zipRow cols row).Perm es := by
  have hlen := pointwise_length h
  have hk := zipRow_keys (cols := cols) (ps := row) hlen.symm
  apply perm_of_subset
  · exact nodup_of_map Prod.fst (by rw [hk]; exact hc)
  · clear hl hc hlen hk
    induction h with
    | nil => simp [zipRow]
    | cons h _ ih =>
      intro x hx
      simp only [zipRow, List.mem_cons] at hx
      rcases hx with rfl | hx
      · exact lookup_mem h
      · exact ih x hx
  · have := congrArg List.length hk
    simp only [List.length_map] at this
    omega

omit [F64 F] in
theorem jsonLenEntries_sum (g : Prim F → Nat) (i e : Nat) (es : List (Str × Json F)) (h : es ≠ []) :
    jsonLenEntries g i e es + 1 = (es.map fun x => (if i > 0 then 1 + (e + 1) * i else 0) + (jsonString x.1).length +
      (if i > 0 then 2 else 1) + jsonLen g i (e + 1) x.2).sum + es.length := by
  induction es with
  | nil => exact absurd rfl h
  | cons x es ih =>
    obtain ⟨k, v⟩ := x
    rw [jsonLenEntries]
    cases es with
    | nil => simp [jsonLenEntries]; try omega
    | cons y es =>
      have := ih (by simp)
      simp only [List.map_cons, List.sum_cons, List.length_cons, List.isEmpty_cons, Bool.false_eq_true, if_false] at this ⊢
      omega

/-- The length of the JSON text of an object of primitives with the keys of a table, without the primitives. -/
def rowJson (i e m kj : Nat) : Nat :=
  1 + m * ((if i > 0 then 1 + (e + 1) * i else 0) + (if i > 0 then 2 else 1)) + kj + m + (if i > 0 then 1 + e * i else 0)

omit [F64 F] in
theorem row_json (g : Prim F → Nat) (i e : Nat) {cols : List Str} {es : List (Str × Json F)} {row : List (Prim F)}
    (hne : cols ≠ []) (hc : cols.Nodup) (hl : es.length = cols.length)
    (h : Pointwise (fun c p => lookupKey c es = some (.prim p)) cols row) :
    jsonLen g i e (.obj es) = rowJson i e cols.length (totalLength (cols.map jsonString)) + (row.map g).sum := by
  have hp := cells_perm hc hl h
  have hes : es ≠ [] := by
    intro h0; subst h0
    exact hne (List.length_eq_zero_iff.mp hl.symm)
  have hs := jsonLenEntries_sum g i e es hes
  rw [← (hp.map _).sum_nat] at hs
  have hz : ∀ (c : Nat) {cols : List Str} {row : List (Prim F)}, cols.length = row.length →
      ((zipRow cols row).map fun x => (if i > 0 then 1 + (e + 1) * i else 0) + (jsonString x.1).length +
      (if i > 0 then 2 else 1) + jsonLen g i (e + 1) x.2).sum =
      cols.length * ((if i > 0 then 1 + (e + 1) * i else 0) + (if i > 0 then 2 else 1)) + totalLength (cols.map jsonString) + (row.map g).sum := by
    intro _
    generalize (if i > 0 then 1 + (e + 1) * i else 0) = a
    generalize (if i > 0 then 2 else 1) = b
    intro cols
    induction cols with
    | nil => intro row h; cases row with
      | nil => simp [zipRow, totalLength]
      | cons => simp at h
    | cons c cols ih =>
      intro row h
      cases row with
      | nil => simp at h
      | cons p row =>
        have := ih (row := row) (by simpa using h)
        simp only [zipRow, List.map_cons, List.sum_cons, this, totalLength, List.length_cons, jsonLen]
        have e1 : (cols.length + 1) * (a + b) = cols.length * (a + b) + (a + b) := Nat.succ_mul _ _
        omega
  rw [hz 0 (pointwise_length h)] at hs
  rw [jsonLen, if_neg (by simpa using hes), rowJson]
  omega

omit [F64 F] in
theorem table_json (g : Prim F → Nat) (i e : Nat) {cols : List Str} (hne : cols ≠ []) (hc : cols.Nodup)
    {items : List (Json F)} {rows : List (List (Prim F))} (h : TableCells cols items rows)
    (hl : ∀ es, .obj es ∈ items → es.length = cols.length) (hi : items ≠ []) :
    jsonLenItems g i e items + 1 = ((rows.map fun row => (row.map g).sum).sum) +
      items.length * ((if i > 0 then 1 + (e + 1) * i else 0) + rowJson i (e + 1) cols.length (totalLength (cols.map jsonString)) + 1) := by
  generalize ha : (if i > 0 then 1 + (e + 1) * i else 0) = a
  induction h with
  | nil => exact absurd rfl hi
  | @cons v row items rows hv hr ih =>
    obtain ⟨es, rfl, hrow⟩ := hv
    have h1 := row_json g i (e + 1) hne hc (hl es (by simp)) hrow
    rw [jsonLenItems, h1, ha]
    cases items with
    | nil =>
      cases hr
      simp [jsonLenItems]; omega
    | cons w ws =>
      have := ih (fun es he => hl es (by simp [he])) (by simp)
      simp only [List.map_cons, List.sum_cons, List.length_cons, List.isEmpty_cons, Bool.false_eq_true, if_false] at this ⊢
      rw [Nat.succ_mul]
      omega

theorem table_rows (d : Char) (i inner : Nat) {cols : List Str} (hne : cols ≠ [])
    {items : List (Json F)} {rows : List (List (Prim F))} (h : TableCells cols items rows) :
    rowsSize i (rows.map fun row => (inner, cellsText d row)) =
      (rows.map fun row => (row.map (tokenLength d)).sum).sum + items.length * (i * inner + cols.length) := by
  induction h with
  | nil => simp [rowsSize]
  | @cons v row items rows hv hr ih =>
    obtain ⟨es, rfl, hrow⟩ := hv
    have hlen := pointwise_length hrow
    have hrn : row ≠ [] := by
      intro h0; subst h0
      exact hne (List.length_eq_zero_iff.mp hlen)
    have := cellsText_length d row hrn
    simp only [List.map_cons, rowsSize_cons, ih, List.sum_cons, rowSize, List.length_cons]
    rw [Nat.succ_mul]
    omega

omit [F64 F] in
theorem tableText_length (d : Char) (cols : List Str) (n : Nat) (h : cols ≠ []) :
    (tableText d cols n).length + 1 = 5 + (natDigits n).length + (if d = ',' then 0 else 1) + totalLength (cols.map keyTextOf) + cols.length + 1 - 1 := by
  have := separated_length d (cols.map keyTextOf) (by simpa using h)
  simp only [tableText, List.length_append, List.length_cons, List.length_nil, lengthMark_length, List.length_map] at this ⊢
  omega

omit [F64 F] in
theorem totalLength_le {f g : Str → Str} (h : ∀ s, (f s).length ≤ (g s).length) (ks : List Str) :
    totalLength (ks.map f) ≤ totalLength (ks.map g) := by
  induction ks with
  | nil => simp [totalLength]
  | cons k ks ih => simp only [totalLength, List.map_cons, List.sum_cons] at ih ⊢; have := h k; omega

end

end Toon
