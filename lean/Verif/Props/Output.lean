import Verif.Lemmas.Output
import Verif.Lemmas.Float64
import Verif.Lemmas.Dec

/-!
# C11, C12, C22: the encoder's output

For every value, without any condition on it.
-/

namespace Toon

section
variable {F : Type} [F64 F] [LawfulF64 F]

/-! ## C11 -/

/-- C11.  Every encoded line is a multiple of the indent size of spaces (at most the nesting depth of
the value times) followed by a non-empty content without line breaks, that neither starts nor ends
with whitespace. -/
theorem C11_lines (opts : EncOpts) (hd : GoodDelim opts.delim) (v : Json F) :
    ∀ line ∈ encodeLines opts v, ∃ depth content,
      line = List.replicate (opts.indent * depth) ' ' ++ content ∧ depth ≤ height v ∧
      content ≠ [] ∧ '\n' ∉ content ∧ '\r' ∉ content ∧
      (∀ c, content.head? = some c → isWs c = false) ∧ (∀ c, content.getLast? = some c → isWs c = false) := by
  intro line hl
  obtain ⟨o, ho, rfl⟩ := List.mem_map.mp hl
  obtain ⟨h, _, hh⟩ := linesIn_value hd (normalize v) o ho
  rw [height_normalize] at hh
  exact ⟨o.depth, o.content, rfl, hh, h.ne, h.lf, h.cr, h.edge.1, h.edge.2⟩

/-- C11.  Splitting the encoded text at newlines gives the encoded lines (for a value other than the
empty object, which is written as the empty text). -/
theorem C11_split (opts : EncOpts) (hd : GoodDelim opts.delim) (v : Json F) (hv : v ≠ .obj []) :
    splitOn '\n' (encode opts v) = encodeLines opts v := by
  rw [splitOn_encode hd, if_neg]
  intro h
  simp only [encodeLines, encodeJsonValue, List.map_eq_nil_iff] at h
  exact hv ((normalize_eq_nil v).mp ((encodeValue_nil_iff hd _).mp h))

/-- C11.  Only the empty object is written as the empty text. -/
theorem C11_empty (opts : EncOpts) (hd : GoodDelim opts.delim) (v : Json F) :
    encode opts v = [] ↔ v = .obj [] := by
  constructor
  · intro h
    apply Classical.byContradiction
    intro hv
    have := C11_split opts hd v hv
    rw [h] at this
    obtain ⟨depth, content, h1, _, h2, _⟩ := C11_lines opts hd v [] (by rw [← this]; simp [splitOn])
    simp only [List.nil_eq, List.append_eq_nil_iff] at h1
    exact h2 h1.2
  · rintro rfl
    simp [encode, encodeLines, encodeJsonValue, normalize, normalizeEntries, encodeValue, encodeObject_nil, joinWith]

/-- C11.  The encoded text does not end with a newline, nor with any other whitespace. -/
theorem C11_no_trailing (opts : EncOpts) (hd : GoodDelim opts.delim) (v : Json F) :
    ∀ c, (encode opts v).getLast? = some c → isWs c = false := by
  intro c hc
  have key : ∀ ls : List Str, (∀ l ∈ ls, l ≠ [] ∧ ∀ c, l.getLast? = some c → isWs c = false) →
      ∀ c, (joinWith '\n' ls).getLast? = some c → isWs c = false := by
    intro ls
    induction ls with
    | nil => intro _ c hc; simp [joinWith] at hc
    | cons l ls ih =>
      intro h c hc
      cases ls with
      | nil => exact (h l (by simp)).2 c (by simpa [joinWith] using hc)
      | cons l' ls =>
        rw [joinWith_cons_ne, List.getLast?_append] at hc
        have hne : joinWith '\n' (l' :: ls) ≠ [] := by
          cases ls with
          | nil => exact (h l' (by simp)).1
          | cons l'' ls => rw [joinWith_cons_ne]; simp
        rw [List.getLast?_cons_of_ne_nil hne] at hc
        apply ih (fun x hx => h x (by simp at hx; simp [hx])) c
        rw [List.getLast?_eq_some_getLast hne] at hc ⊢
        simpa using hc
  refine key _ (fun l hl => ?_) c hc
  obtain ⟨depth, content, rfl, _, h2, _, _, _, h3⟩ := C11_lines opts hd v l hl
  refine ⟨by simp [h2], fun c hc => h3 c ?_⟩
  rw [List.getLast?_append, List.getLast?_eq_some_getLast h2] at hc
  rw [List.getLast?_eq_some_getLast h2]
  simpa using hc

/-! ## C12 -/

omit [F64 F] [LawfulF64 F] in
/-- C12.  Whenever the encoder selects the table layout for an array, every row is an object and the
writer finds a primitive under every column: neither of its two panics is reached. -/
theorem C12_no_panic (items : List (Json F)) (cols : List Str) (h : extractTabularHeader items = some cols) :
    ∀ item ∈ items, ∃ es ps, item = .obj es ∧ rowPrims es cols = .ok ps := by
  intro item hi
  have ht : isTabularArray items cols = true := by
    unfold extractTabularHeader at h
    split at h
    · split at h
      · simp at h
      · simp only at h
        split at h
        · simp only [Option.some.injEq] at h; subst h; assumption
        · simp at h
    · simp at h
  have := List.all_eq_true.mp ht item hi
  cases item with
  | prim _ => simp [isTabularRow] at this
  | arr _ => simp [isTabularRow] at this
  | obj es =>
    simp only [isTabularRow, Bool.and_eq_true] at this
    obtain ⟨ps, h1, _⟩ := rowPrims_ok this.2
    exact ⟨es, ps, rfl, h1⟩

omit [LawfulF64 F] in
/-- C12.  A table is written as its header followed by one line per element, made of the values found
under the columns, in the order of the columns. -/
theorem C12_table (opts : EncOpts) (key : Option Str) (items : List (Json F)) (cols : List Str) (depth : Nat)
    (h : IsTable items cols) :
    ∃ rows : List (List (Prim F)),
      encodeArray opts key items depth =
        ⟨depth, formatHeader items.length key (some cols) opts.delim⟩ ::
          rows.map (fun ps => ⟨depth + 1, encodeAndJoin ps opts.delim⟩) ∧
      rows.length = items.length ∧
      ∀ (i : Nat) (es : List (Str × Json F)), items[i]? = some (Json.obj es) →
        ∃ ps : List (Prim F), rows[i]? = some ps ∧ ps.map (fun p => some (Json.prim p)) = cols.map (lookupKey · es) := by
  obtain ⟨hc, hfirst, hall⟩ := h
  refine ⟨rowsOf items cols, ?_, ?_⟩
  · rw [encodeArray_eq, if_neg, header_of_isTable ⟨hc, hfirst, hall⟩]
    · simp only [tabularRows_eq]
    · obtain ⟨es, rest, rfl, _⟩ := hfirst
      simp [isArrayOfPrims, Json.isPrim]
  · clear hfirst hc
    induction items with
    | nil => simp [rowsOf]
    | cons item items ih =>
      obtain ⟨es, rfl, _, hk⟩ := hall item (by simp)
      obtain ⟨ps, h1, h2⟩ := rowPrims_lookup hk
      obtain ⟨i1, i2⟩ := ih (fun x hx => hall x (by simp [hx]))
      have hr : rowsOf (.obj es :: items) cols = ps :: rowsOf items cols := by
        simp [rowsOf, rowValues, h1]
      rw [hr]
      refine ⟨by simp [i1], ?_⟩
      intro i es' hi
      cases i with
      | zero =>
        simp only [List.getElem?_cons_zero, Option.some.injEq, Json.obj.injEq] at hi
        subst hi
        exact ⟨ps, by simp, h2⟩
      | succ i =>
        simp only [List.getElem?_cons_succ] at hi ⊢
        exact i2 i es' hi

/-- A table whose second row has another key order; duplicate keys do not break the claim. -/
example : extractTabularHeader
    ([.obj [("a".toList, .prim .null), ("b".toList, .prim (.bool true))],
      .obj [("b".toList, .prim (.bool false)), ("a".toList, .prim (.str []))]] : List (Json B64)) =
    some ["a".toList, "b".toList] := by decide +kernel
example : extractTabularHeader
    ([.obj [("a".toList, .prim .null), ("a".toList, .arr [])], .obj []] : List (Json B64)) = none := by decide +kernel
example : extractTabularHeader
    ([.obj [("a".toList, .prim .null), ("a".toList, .arr [])]] : List (Json B64)) =
    some ["a".toList, "a".toList] := by decide +kernel

/-! ## C22 -/

omit [LawfulF64 F] in
mutual
theorem normalize_map (v : Json F) : normalize v = v.mapPrims normPrim := by
  match v with
  | .prim p => rfl
  | .arr items => simp only [normalize, Json.mapPrims, normalizeItems_map items]
  | .obj es => simp only [normalize, Json.mapPrims, normalizeEntries_map es]
theorem normalizeItems_map (vs : List (Json F)) : normalizeItems vs = Json.mapPrimsItems normPrim vs := by
  match vs with
  | [] => rfl
  | v :: vs => simp only [normalizeItems, Json.mapPrimsItems, normalize_map v, normalizeItems_map vs]
theorem normalizeEntries_map (es : List (Str × Json F)) : normalizeEntries es = Json.mapPrimsEntries normPrim es := by
  match es with
  | [] => rfl
  | (k, v) :: es => simp only [normalizeEntries, Json.mapPrimsEntries, normalize_map v, normalizeEntries_map es]
end

/-- C22.  Normalization leaves no NaN, infinity or negative zero. -/
theorem C22_plain (v : Json F) : PlainNumbers (normalize v) := (normal_iff _).mp (normal_normalize v)

/-- C22.  Values without such numbers are left alone; in particular normalization is idempotent. -/
theorem C22_identity (v : Json F) : normalize v = v ↔ PlainNumbers v :=
  ⟨fun h => h ▸ C22_plain v, fun h => normalize_normal ((normal_iff v).mpr h)⟩

theorem C22_idempotent (v : Json F) : normalize (normalize v) = normalize v := (C22_identity _).mpr (C22_plain v)

/-- C22.  Only primitives change; a primitive changes only if it is a number that is not finite (it
becomes null) or a zero (it becomes positive zero). -/
theorem C22_shape (v : Json F) : ∃ f : Prim F → Prim F, normalize v = v.mapPrims f ∧
    f .null = .null ∧ (∀ b, f (.bool b) = .bool b) ∧ (∀ s, f (.str s) = .str s) ∧
    ∀ x : F, (F64.isFinite x = false → f (.num x) = .null) ∧
      (F64.isFinite x = true → F64.isZero x = true → f (.num x) = .num F64.zero) ∧
      (F64.isFinite x = true → F64.isZero x = false → f (.num x) = .num x) := by
  refine ⟨normPrim, normalize_map v, rfl, fun _ => rfl, fun _ => rfl, fun x => ⟨?_, ?_, ?_⟩⟩ <;>
    (intros; simp_all [normPrim])

/-- C22.  A value and its normalization are encoded alike. -/
theorem C22_encode (opts : EncOpts) (v : Json F) : encode opts (normalize v) = encode opts v := by
  unfold encode encodeLines
  rw [C22_idempotent]

/-- Negative zero, infinity and NaN of binary64. -/
example : normalize (.arr [.prim (.num (⟨true, 0, 0⟩ : B64)), .prim (.num ⟨false, 2047, 0⟩), .prim (.num ⟨true, 2047, 1⟩)]) =
    .arr [.prim (.num F64.zero), .prim .null, .prim .null] := by decide +kernel

end

end Toon
