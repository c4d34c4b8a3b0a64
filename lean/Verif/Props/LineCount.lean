import Verif.Lemmas.LineCount
import Verif.Lemmas.Float64
import Verif.Lemmas.Dec
import Verif.Props.Layout
import Verif.Props.Draft

/-!
# C98: how many lines there are, and how many are reserved

`Layout.lines` (`Spec/LineCount.lean`) counts the lines of a layout (C56).  The encoder reserves room for an estimated number of
lines before it writes them (`Model/LineEstimate.lean`).
-/

namespace Toon

section
variable {F : Type} [F64 F] [LawfulF64 F]

private theorem layout_of (opts : EncOpts) (v : Json F) :
    ∃ l, DocumentLayout opts.fold opts.flattenDepth (normalize v) l ∧ (encodeLines opts v).length = l.documentLines := by
  obtain ⟨l, hl, _⟩ := document_layout opts (normalize v)
  refine ⟨l, hl, ?_⟩
  rw [C56_lines opts v l (by rw [← normalize_plain]; exact hl), List.length_map, documentRows_length]

/-- C98.  The number of lines is that of the layout. -/
theorem C98_lines (opts : EncOpts) (v : Json F) (l : Layout F)
    (hl : DocumentLayout opts.fold opts.flattenDepth (v.mapPrims Prim.plain) l) : (encodeLines opts v).length = l.documentLines := by
  rw [C56_lines opts v l hl, List.length_map, documentRows_length]

/-- C98.  Folding never adds lines. -/
theorem C98_fold (opts : EncOpts) (v : Json F) :
    (encodeLines opts v).length ≤ (encodeLines { opts with fold := false } v).length := by
  obtain ⟨l, h1, h2⟩ := layout_of opts v
  obtain ⟨l', h3, h4⟩ := layout_of { opts with fold := false } v
  rw [h2, h4]
  exact document_foldLines h1 h3

omit [F64 F] [LawfulF64 F] in
private theorem entriesLayout_length {fold : Bool} {n : Nat} : ∀ {siblings taken path : List Str} {fd : Nat} {es : List (Str × Json F)}
    {ls : List (Str × Layout F)}, EntriesLayout fold n siblings taken path fd es ls → ls.length = es.length
  | _, _, _, _, _, _, .nil => rfl
  | _, _, _, _, _, _, .folded _ _ _ h => by simp [entriesLayout_length h]
  | _, _, _, _, _, _, .plain _ _ h => by simp [entriesLayout_length h]

omit [LawfulF64 F] in
private theorem normalizeEntries_len : ∀ es : List (Str × Json F), (normalizeEntries es).length = es.length
  | [] => rfl
  | (k, v) :: es => by simp [normalizeEntries, normalizeEntries_len es]

/-- C98.  An object has at least as many lines as entries. -/
theorem C98_entries (opts : EncOpts) (es : List (Str × Json F)) : es.length ≤ (encodeLines opts (.obj es)).length := by
  obtain ⟨l, h1, h2⟩ := layout_of opts (.obj es)
  rw [h2]
  rw [normalize] at h1
  cases h1 with
  | object he =>
    rw [← normalizeEntries_len es, ← entriesLayout_length he]
    exact entriesLines_ge _

omit [F64 F] [LawfulF64 F] in
private theorem oneLine_lines {n : Nat} {taken path : List Str} {fd : Nat} {v : Json F} {l : Layout F}
    (h : ValueLayout false n taken path fd v l) : l.lines = 1 ↔ OneLine v := by
  cases h with
  | prim p => simp [Layout.lines, OneLine]
  | inline hp => rw [hp]; exact ⟨fun _ => Or.inr (Or.inl ⟨_, rfl⟩), fun _ => rfl⟩
  | @table _ _ _ items cols rows ht hc =>
    have h1 : items.length ≠ 0 := by obtain ⟨es, rest, rfl, _⟩ := ht.2.1; simp
    have h2 : ¬ OneLine (.arr items) := by
      rintro (⟨p, h⟩ | ⟨ps, h⟩ | h)
      · simp at h
      · simp only [Json.arr.injEq] at h; exact table_not_prims ht ⟨ps, h⟩
      · simp at h
    have h3 := tableCells_length hc
    simp only [Layout.lines, h2, iff_false]; omega
  | @list _ _ _ items ls hn _ hi =>
    have h2 : ¬ OneLine (.arr items) := by
      rintro (⟨p, h⟩ | ⟨ps, h⟩ | h)
      · simp at h
      · simp only [Json.arr.injEq] at h; exact hn ⟨ps, h⟩
      · simp at h
    have h3 : 1 ≤ Layout.itemsLines ls := by
      cases hi with
      | nil => exact absurd ⟨[], rfl⟩ hn
      | @cons _ l _ _ _ _ =>
        have : 1 ≤ l.itemLines := by
          cases l with
          | object es =>
            cases es with
            | nil => simp [Layout.itemLines]
            | cons e es =>
              have := entriesLines_ge (e :: es)
              simp only [Layout.itemLines, List.isEmpty_cons, Bool.false_eq_true, if_false, List.length_cons] at *; omega
          | _ => simp [Layout.itemLines]
        simp only [Layout.itemsLines]; omega
    simp only [Layout.lines, h2, iff_false]; omega
  | @object _ _ _ es ls he =>
    cases he with
    | nil => simp [Layout.lines, Layout.entriesLines, OneLine]
    | folded hf => simp at hf
    | @plain _ _ _ _ k v l es ls _ _ _ =>
      have := lines_pos l
      have h2 : ¬ OneLine (.obj ((k, v) :: es)) := by
        rintro (⟨p, h⟩ | ⟨ps, h⟩ | h) <;> simp at h
      simp only [Layout.lines, Layout.entriesLines, h2, iff_false]; omega

omit [F64 F] [LawfulF64 F] in
private theorem oneLine_entries {n : Nat} : ∀ {siblings taken path : List Str} {fd : Nat} {es : List (Str × Json F)}
    {ls : List (Str × Layout F)}, EntriesLayout false n siblings taken path fd es ls →
    (Layout.entriesLines ls = es.length ↔ ∀ e ∈ es, OneLine e.2)
  | _, _, _, _, _, _, .nil => by simp [Layout.entriesLines]
  | _, _, _, _, _, _, .folded hf _ _ _ => by simp at hf
  | _, _, _, _, _, _, .plain (l := l) (ls := ls) _ hl he => by
    have h1 := oneLine_lines hl
    have h2 := oneLine_entries he
    have h3 := lines_pos l
    have h4 := entriesLines_ge ls
    rw [entriesLayout_length he] at h4
    simp only [Layout.entriesLines, List.length_cons, List.mem_cons, forall_eq_or_imp, ← h1, ← h2]
    omega

omit [LawfulF64 F] in
private theorem oneLine_normalize (v : Json F) : OneLine (normalize v) ↔ OneLine v := by
  cases v with
  | prim p => simp [normalize, OneLine]
  | arr items =>
    have hl : (∃ ps : List (Prim F), normalizeItems items = ps.map .prim) ↔ ∃ ps : List (Prim F), items = ps.map .prim := by
      induction items with
      | nil => simp only [normalizeItems]
      | cons v vs ih =>
        constructor
        · rintro ⟨ps, h⟩
          cases ps with
          | nil => simp [normalizeItems] at h
          | cons p ps =>
            simp only [normalizeItems, List.map_cons, List.cons.injEq] at h
            obtain ⟨qs, hq⟩ := ih.mp ⟨ps, h.2⟩
            cases v with
            | prim q => exact ⟨q :: qs, by simp [hq]⟩
            | arr _ => simp [normalize] at h
            | obj _ => simp [normalize] at h
        · rintro ⟨ps, h⟩
          cases ps with
          | nil => simp at h
          | cons p ps =>
            simp only [List.map_cons, List.cons.injEq] at h
            obtain ⟨qs, hq⟩ := ih.mpr ⟨ps, h.2⟩
            exact ⟨normPrim p :: qs, by simp [normalizeItems, hq, h.1, normalize]⟩
    simp [normalize, OneLine, hl]
  | obj es => cases es with
    | nil => simp [normalize, normalizeEntries, OneLine]
    | cons e es => obtain ⟨k, v⟩ := e; simp [normalize, normalizeEntries, OneLine]

/-- C98.  Without folding it has exactly as many if and only if every entry is a primitive, an array of primitives or an empty
object. -/
theorem C98_entries_exact (opts : EncOpts) (hf : opts.fold = false) (es : List (Str × Json F)) :
    (encodeLines opts (.obj es)).length = es.length ↔ ∀ e ∈ es, OneLine e.2 := by
  obtain ⟨l, h1, h2⟩ := layout_of opts (.obj es)
  rw [h2]
  rw [normalize, hf] at h1
  cases h1 with
  | object he =>
    have h3 := oneLine_entries he
    rw [normalizeEntries_len] at h3
    simp only [Layout.documentLines]
    rw [h3]
    clear h2 h3 he
    induction es with
    | nil => simp [normalizeEntries]
    | cons e es ih =>
      obtain ⟨k, v⟩ := e
      simp only [normalizeEntries, List.mem_cons, forall_eq_or_imp, oneLine_normalize, ih]

/-! ## What is reserved -/

omit [LawfulF64 F] in
private theorem estimate_normalize : ∀ v : Json F, estimateLineCount (normalize v) = estimateLineCount v := go
where
  go : ∀ v : Json F, estimateLineCount (normalize v) = estimateLineCount v
    | .prim _ => by simp [normalize, estimateLineCount]
    | .arr vs => by simp [normalize, estimateLineCount, goItems vs]
    | .obj es => by simp [normalize, estimateLineCount, goEntries es]
  goItems : ∀ vs : List (Json F), estimateLineItems (normalizeItems vs) = estimateLineItems vs
    | [] => by simp [normalizeItems]
    | v :: vs => by simp [normalizeItems, estimateLineItems, go v, goItems vs]
  goEntries : ∀ es : List (Str × Json F), estimateLineEntries (normalizeEntries es) = estimateLineEntries es
    | [] => by simp [normalizeEntries]
    | (k, v) :: es => by simp [normalizeEntries, estimateLineEntries, go v, goEntries es]

omit [LawfulF64 F] in
private theorem keyed_normalize : ∀ v : Json F, keyedObjects (normalize v) = keyedObjects v := go
where
  go : ∀ v : Json F, keyedObjects (normalize v) = keyedObjects v
    | .prim _ => by simp [normalize, keyedObjects]
    | .arr vs => by simp [normalize, keyedObjects, goItems vs]
    | .obj es => by simp [normalize, keyedObjects, goEntries es]
  goItems : ∀ vs : List (Json F), keyedObjectsItems (normalizeItems vs) = keyedObjectsItems vs
    | [] => by simp [normalizeItems]
    | v :: vs => by simp [normalizeItems, keyedObjectsItems, go v, goItems vs]
  goEntries : ∀ es : List (Str × Json F), keyedObjectsEntries (normalizeEntries es) = keyedObjectsEntries es
    | [] => by simp [normalizeEntries]
    | (k, v) :: es => by
      have : (normalize v).isObject = v.isObject := by cases v <;> simp [normalize, Json.isObject]
      simp [normalizeEntries, keyedObjectsEntries, go v, goEntries es, this]

/-- C98.  The lines are at most those reserved and one for each object under a key. -/
theorem C98_reserved (opts : EncOpts) (v : Json F) : (encodeLines opts v).length ≤ reservedLines v + keyedObjects v := by
  obtain ⟨l, h1, h2⟩ := layout_of opts v
  have := document_linesLe h1
  rw [keyed_normalize] at this
  rw [h2, reservedLines]
  exact this

/-- C98.  So what is reserved is enough if no object stands under a key. -/
theorem C98_enough (opts : EncOpts) (v : Json F) (h : keyedObjects v = 0) : (encodeLines opts v).length ≤ reservedLines v := by
  have := C98_reserved opts v
  omega

omit [LawfulF64 F] in
/-- C98.  No more lines are reserved than there are values. -/
theorem C98_values (v : Json F) : 1 ≤ reservedLines v ∧ reservedLines v ≤ nodes v := by
  rw [reservedLines, estimate_normalize]
  exact ⟨estimateLine_pos v, estimateLine_nodes v⟩

private theorem chain_lines (opts : EncOpts) (hf : opts.fold = false) (k : Str) (n : Nat) (p : Prim F) :
    (encodeLines opts (nested (k :: List.replicate n k) (.prim p))).length = n + 1 := by
  have key : ∀ (n : Nat) (p : Prim F) {m : Nat} {taken path : List Str} {fd : Nat} {l : Layout F},
      ValueLayout false m taken path fd (nested (List.replicate n k) (.prim p)) l → l.lines = n + 1 := by
    intro n p m taken path fd l h
    obtain ⟨_, _, _, l', h1, h2⟩ := nested_lines _ h
    cases h1
    simpa [Layout.lines] using h2
  have hn : ∀ ks : List Str, normalize (nested ks (.prim p)) = nested ks (.prim (normPrim p)) := by
    intro ks
    induction ks with
    | nil => simp [nested, normalize]
    | cons s ss ih => simp [nested, normalize, normalizeEntries, ih]
  obtain ⟨l, h1, h2⟩ := layout_of opts (nested (k :: List.replicate n k) (.prim p))
  rw [hn, hf] at h1
  rw [h2]
  have hlines : l.lines = n + 2 := by
    have : (k :: List.replicate n k) = List.replicate (n + 1) k := rfl
    rw [this] at h1
    exact key (n + 1) _ h1
  rw [nested] at h1
  cases h1 with
  | object he =>
    simp only [Layout.lines] at hlines
    simp only [Layout.documentLines]; omega

/-- C98.  What is reserved falls short by any factor: one line is reserved for a chain of objects, which takes any number. -/
theorem C98_short (opts : EncOpts) (hf : opts.fold = false) (n : Nat) : ∃ v : Json F,
    (encodeLines opts v).length = n + 1 ∧ reservedLines v = 1 := by
  refine ⟨nested ("a".toList :: List.replicate n "a".toList) (.prim .null), chain_lines opts hf _ n .null, ?_⟩
  rw [reservedLines, estimate_normalize, nested_estimate, estimateLineCount]

/-- C98.  And it exceeds what is needed by any factor: room for more than any number of lines is reserved for an array on one line. -/
theorem C98_excess (opts : EncOpts) (n : Nat) : ∃ v : Json F, (encodeLines opts v).length = 1 ∧ reservedLines v = n + 1 := by
  refine ⟨.arr ((List.replicate n .null).map .prim), ?_, ?_⟩
  · obtain ⟨l, h1, h2⟩ := layout_of opts (.arr ((List.replicate n .null).map .prim) : Json F)
    rw [h2]
    have h3 : OneLine (normalize (.arr ((List.replicate n .null).map .prim) : Json F)) :=
      (oneLine_normalize _).mpr (Or.inr (Or.inl ⟨_, rfl⟩))
    rw [normalize] at h1 h3
    cases h1 with
    | inline _ => rfl
    | table ht _ =>
      rcases h3 with ⟨p, h⟩ | ⟨ps, h⟩ | h
      · simp at h
      · simp only [Json.arr.injEq] at h; exact absurd ⟨ps, h⟩ (table_not_prims ht)
      · simp at h
    | list hn _ _ =>
      rcases h3 with ⟨p, h⟩ | ⟨ps, h⟩ | h
      · simp at h
      · simp only [Json.arr.injEq] at h; exact absurd ⟨ps, h⟩ hn
      · simp at h
  · rw [reservedLines, estimate_normalize, estimateLineCount]
    have : ∀ m : Nat, estimateLineItems ((List.replicate m (.null : Prim F)).map Json.prim) = m := by
      intro m
      induction m with
      | zero => rfl
      | succ m ih => simp only [List.replicate_succ, List.map_cons, estimateLineItems, estimateLineCount, ih]; omega
    rw [this]; omega

end

/-! ## Cells -/

private theorem delimited_count (d : Char) : ∀ (s : Str) (values : List Str) (buffer : Str) (q : Bool),
    (delimitedAux d s values buffer q).length ≤ values.length + s.count d + 1
  | [], values, buffer, q => by rw [delimitedAux.eq_def]; dsimp only; split <;> simp
  | ch :: rest, values, buffer, q => by
    rw [delimitedAux.eq_def]
    dsimp only
    split
    · match rest with
      | [] => dsimp only; have := delimited_count d [] values (buffer ++ [ch]) q; simp only [List.count_cons, List.count_nil] at *; omega
      | next :: rest => dsimp only; have := delimited_count d rest values (buffer ++ [ch, next]) q; simp only [List.count_cons] at *; omega
    · split
      · have := delimited_count d rest values (buffer ++ [ch]) (!q); simp only [List.count_cons]; omega
      · split
        · rename_i h
          simp only [Bool.and_eq_true, decide_eq_true_eq] at h
          have := delimited_count d rest (values ++ [trim buffer]) [] q
          simp only [List.length_append, List.length_singleton] at this
          simp only [h.1, List.count_cons_self]; omega
        · have := delimited_count d rest values (buffer ++ [ch]) q; simp only [List.count_cons]; omega

/-- C98.  A line has at most one cell more than delimiters, which is what is reserved for its cells. -/
theorem C98_cells (text : Str) (d : Char) : (parseDelimitedValues text d).length ≤ text.count d + 1 := by
  have := delimited_count d text [] [] false
  simpa [parseDelimitedValues] using this

private theorem delimited_exact (d : Char) : ∀ (s : Str) (values : List Str) (buffer : Str), '"' ∉ s →
    (s ≠ [] ∨ buffer ≠ [] ∨ values ≠ []) → (delimitedAux d s values buffer false).length = values.length + s.count d + 1 := by
  intro s
  induction s with
  | nil =>
    intro values buffer _ h
    rw [delimitedAux.eq_def]
    have : (!buffer.isEmpty || !values.isEmpty) = true := by
      rcases h with h | h | h
      · simp at h
      · cases buffer <;> simp at *
      · cases values <;> simp at *
    simp [this]
  | cons ch rest ih =>
    intro values buffer hq _
    simp only [List.mem_cons, not_or] at hq
    rw [delimitedAux.eq_def]
    simp only [Bool.and_false, Bool.false_eq_true, if_false, Ne.symm hq.1, Bool.not_false, Bool.and_true, decide_eq_true_eq, List.count_cons]
    by_cases hc : ch = d
    · simp only [hc, if_true, beq_self_eq_true]
      rw [ih _ _ hq.2 (by simp)]; simp; omega
    · simp only [hc, if_false, beq_iff_eq]
      rw [ih _ _ hq.2 (by simp)]; simp

/-- C98.  Without quotes it has exactly one more, unless it is empty. -/
theorem C98_cells_exact (text : Str) (d : Char) (hq : '"' ∉ text) (hne : text ≠ []) :
    (parseDelimitedValues text d).length = text.count d + 1 := by
  have := delimited_exact d text [] [] hq (Or.inl hne)
  simpa [parseDelimitedValues] using this

/-! ## Examples -/

/-- Two entries, three lines: the number of lines is not the number of keys. -/
theorem C98_not_keys : ∃ es : List (Str × Json B64), es.length = 2 ∧ ∀ opts : EncOpts, opts.fold = false →
    (encodeLines opts (.obj es)).length ≠ 2 := by
  refine ⟨[("a".toList, .prim .null), ("b".toList, .obj [("c".toList, .prim .null)])], rfl, fun opts hf h => ?_⟩
  have := (C98_entries_exact opts hf _).mp h ("b".toList, .obj [("c".toList, .prim .null)]) (by simp)
  rcases this with ⟨p, h⟩ | ⟨ps, h⟩ | h <;> simp at h

/-- A list of objects, one of them with a table: what is reserved is enough. -/
example : keyedObjects (F := B64) (.arr [.obj [("a".toList, .arr [.obj [("b".toList, .prim .null)]])], .prim .null]) = 0 := by decide

example : reservedLines (F := B64) (.obj [("a".toList, .obj [("b".toList, .prim .null)]), ("c".toList, .arr [.prim .null, .prim .null])]) = 4 := by
  decide +kernel

/-- A delimiter inside quotes is reserved for, and does not end a cell. -/
example : parseDelimitedValues "\"a,b\",c".toList ',' = ["\"a,b\"".toList, "c".toList] ∧ "\"a,b\",c".toList.count ',' = 2 := by decide +kernel

example : (parseDelimitedValues "1,,x".toList ',').length = 3 := C98_cells_exact _ _ (by decide) (by decide)

end Toon
