import Verif.Lemmas.Draft

/-! The induction over drafts. -/

namespace Toon

section
variable {F : Type} [F64 F]

/-- Rows as lines. -/
def outs (rows : List Row) : List OutLine := rows.map fun r => ⟨r.1, r.2⟩

omit [F64 F] in
theorem outs_append (a b : List Row) : outs (a ++ b) = outs a ++ outs b := by simp [outs]

omit [F64 F] in
theorem outs_cons (a : Row) (b : List Row) : outs (a :: b) = ⟨a.1, a.2⟩ :: outs b := rfl

omit [F64 F] in
theorem outs_rows (depth : Nat) (f : List (Prim F) → Str) (rows : List (List (Prim F))) :
    outs (rows.map fun row => (depth, f row)) = rows.map fun row => ⟨depth, f row⟩ := by
  simp [outs]

/-- An array. -/
def Draft.isArray : Draft F → Prop
  | .inline _ _ => True
  | .table _ _ _ => True
  | .list _ _ => True
  | _ => False

theorem itemRows_array (d : Char) (depth : Nat) {v : Draft F} (h : v.isArray) :
    v.itemRows d depth = v.entryRows d ['-', ' '] depth (depth + 1) := by
  cases v with
  | prim p => exact absurd h id
  | inline n ps => rw [Draft.itemRows, Draft.entryRows]; rfl
  | table n cols rows => rw [Draft.itemRows, Draft.entryRows]; rfl
  | list n items => rw [Draft.itemRows, Draft.entryRows]; rfl
  | object es => exact absurd h id

omit [F64 F] in
theorem keyed_header (n : Nat) (key : Option Str) (fields : Option (List Str)) (d : Char) :
    keyText key ++ formatHeader n none fields d = formatHeader n key fields d := by
  rw [formatHeader_eq, formatHeader_eq]
  simp [keyText]

theorem declaredInline_eq (d : Char) (n : Nat) (ps : List (Prim F)) :
    declaredInline d n ps = formatHeader n none none d ++ (if ps.isEmpty then [] else ' ' :: encodeAndJoin ps d) := by
  unfold declaredInline
  rw [← listText_eq, cellsText_eq]
  simp

/-- The text of an entry after its key. -/
noncomputable def Draft.text (d : Char) : Draft F → Str
  | .prim p => ':' :: ' ' :: encodePrimitive p d
  | .inline n ps => formatHeader n none none d ++ (if ps.isEmpty then [] else ' ' :: encodeAndJoin ps d)
  | .table n cols _ => formatHeader n none (some cols) d
  | .list n _ => formatHeader n none none d
  | .object _ => [':']

/-- The lines of an entry below its first. -/
noncomputable def Draft.rowsBelow (d : Char) (inner : Nat) : Draft F → List OutLine
  | .prim _ => []
  | .inline _ _ => []
  | .table _ _ rows => rows.map fun row => ⟨inner, encodeAndJoin row d⟩
  | .list _ items => outs (Draft.itemsRows d inner items)
  | .object es => outs (Draft.entriesRows d inner es)

theorem outs_entry (d : Char) (head : Str) (depth inner : Nat) (v : Draft F) :
    outs (v.entryRows d head depth inner) = ⟨depth, head ++ v.text d⟩ :: v.rowsBelow d inner := by
  cases v with
  | prim p => rw [Draft.entryRows, tokenText_eq]; rfl
  | inline n ps => rw [Draft.entryRows, declaredInline_eq]; rfl
  | table n cols rows =>
    rw [Draft.entryRows, outs_cons, tableText_eq, Draft.text, Draft.rowsBelow]
    simp only [cellsText_eq, outs_rows]
  | list n items => rw [Draft.entryRows, outs_cons, List.append_assoc, listText_eq]; rfl
  | object es => rw [Draft.entryRows, outs_cons]; rfl

theorem outs_item_dash (d : Char) (depth : Nat) {v : Draft F} (h : v ≠ .object []) :
    ∃ c more, outs (v.itemRows d depth) = ⟨depth, dash c⟩ :: more := by
  have arr : v.isArray → ∃ c more, outs (v.itemRows d depth) = ⟨depth, dash c⟩ :: more := by
    intro ha
    rw [itemRows_array d depth ha, outs_entry]
    exact ⟨_, _, rfl⟩
  cases v with
  | prim p => rw [Draft.itemRows]; exact ⟨_, _, rfl⟩
  | inline n ps => exact arr trivial
  | table n cols rows => exact arr trivial
  | list n items => exact arr trivial
  | object es =>
    cases es with
    | nil => exact absurd rfl h
    | cons e es =>
      obtain ⟨k, v⟩ := e
      rw [Draft.itemRows, outs_append, outs_entry]
      exact ⟨_, _, rfl⟩

/-! ## The lines can be read -/

mutual
theorem Draft.Legible.readable {v : Draft F} (h : v.Legible) : v.Readable := by
  match v, h with
  | .prim p, h => simpa only [Draft.Legible, Draft.Readable] using h
  | .inline n ps, h => simpa only [Draft.Legible, Draft.Readable] using h
  | .table n cols rows, h => simpa only [Draft.Legible, Draft.Readable] using h
  | .list n items, h =>
    simp only [Draft.Legible] at h
    simp only [Draft.Readable]
    exact ⟨h.1, readable_items h.2.2⟩
  | .object es, h =>
    simp only [Draft.Legible] at h
    simp only [Draft.Readable]
    exact readable_entries h
theorem readable_items {vs : List (Draft F)} (h : Draft.LegibleItems vs) : Draft.ReadableItems vs := by
  match vs, h with
  | [], _ => simp only [Draft.ReadableItems]
  | v :: vs, h =>
    simp only [Draft.LegibleItems] at h
    simp only [Draft.ReadableItems]
    exact ⟨h.1.readable, readable_items h.2⟩
theorem readable_entries {es : List (Str × Draft F)} (h : Draft.LegibleEntries es) : Draft.ReadableEntries es := by
  match es, h with
  | [], _ => simp only [Draft.ReadableEntries]
  | (k, v) :: es, h =>
    simp only [Draft.LegibleEntries] at h
    simp only [Draft.ReadableEntries]
    exact ⟨h.1, h.2.1.readable, readable_entries h.2.2⟩
end

variable [LawfulF64 F]

theorem lineOk_text {d : Char} (hd : GoodDelim d) {v : Draft F} : LineOk (v.text d) := by
  have hc : LineOk [':'] := lineOk_char (by decide)
  cases v with
  | prim p =>
    have := LineOk.append hc (m := [' ']) (by simp) (by simp) (encodePrimitive_tok hd p).lineOk
    simpa [Draft.text] using this
  | inline n ps =>
    rw [Draft.text]
    cases ps with
    | nil => simpa using lineOk_header n none none hd
    | cons p ps =>
      have := LineOk.append (lineOk_header n none none hd) (m := [' ']) (by simp) (by simp)
        (lineOk_joinPrims (F := F) hd (ps := p :: ps) (by simp))
      simpa using this
  | table n cols rows => exact lineOk_header n none (some cols) hd
  | list n items => exact lineOk_header n none none hd
  | object es => exact hc

mutual
theorem linesOk_below {d : Char} (hd : GoodDelim d) (inner : Nat) (v : Draft F) (h : v.Readable) : LinesOk (v.rowsBelow d inner) := by
  match v, h with
  | .prim p, _ => exact LinesOk.nil
  | .inline n ps, _ => exact LinesOk.nil
  | .table n cols rows, h =>
    simp only [Draft.Readable] at h
    intro l hl
    rw [Draft.rowsBelow] at hl
    obtain ⟨row, hr, rfl⟩ := List.mem_map.mp hl
    exact lineOk_joinPrims hd (h.2.2.2 row hr).1
  | .list n items, h =>
    simp only [Draft.Readable] at h
    exact linesOk_items hd inner items h.2
  | .object es, h =>
    simp only [Draft.Readable] at h
    exact linesOk_entries hd inner es h
termination_by (sizeOf v, 1)
theorem linesOk_entries {d : Char} (hd : GoodDelim d) (depth : Nat) (es : List (Str × Draft F)) (h : Draft.ReadableEntries es) :
    LinesOk (outs (Draft.entriesRows d depth es)) := by
  match es, h with
  | [], _ => rw [Draft.entriesRows]; exact LinesOk.nil
  | (k, v) :: es, h =>
    simp only [Draft.ReadableEntries] at h
    rw [Draft.entriesRows, outs_append, outs_entry, keyTextOf_eq]
    exact (LinesOk.cons ((encodeKey_tok hd k).lineOk.append' (lineOk_text hd)) (linesOk_below hd _ v h.2.1)).append
      (linesOk_entries hd depth es h.2.2)
termination_by (sizeOf es, 0)
theorem linesOk_item {d : Char} (hd : GoodDelim d) (depth : Nat) (v : Draft F) (h : v.Readable) : LinesOk (outs (v.itemRows d depth)) := by
  have hdash : LineOk ['-'] := lineOk_char (by decide)
  have arr : v.isArray → LinesOk (v.rowsBelow d (depth + 1)) → LinesOk (outs (v.itemRows d depth)) := by
    intro ha hb
    rw [itemRows_array d depth ha, outs_entry]
    exact LinesOk.cons (lineOk_dash (lineOk_text hd)) hb
  match v, h, arr with
  | .prim p, _, _ =>
    rw [Draft.itemRows, tokenText_eq]
    exact LinesOk.cons (lineOk_dash (encodePrimitive_tok hd p).lineOk) LinesOk.nil
  | .inline n ps, _, arr => exact arr trivial LinesOk.nil
  | .table n cols rows, h, arr => exact arr trivial (linesOk_below hd _ (.table n cols rows) h)
  | .list n items, h, arr =>
    simp only [Draft.Readable] at h
    exact arr trivial (linesOk_items hd _ items h.2)
  | .object [], _, _ => rw [Draft.itemRows]; exact LinesOk.cons hdash LinesOk.nil
  | .object ((k, v) :: es), h, _ =>
    simp only [Draft.Readable, Draft.ReadableEntries] at h
    rw [Draft.itemRows, outs_append, outs_entry, keyTextOf_eq]
    exact (LinesOk.cons (lineOk_dash ((encodeKey_tok hd k).lineOk.append' (lineOk_text hd))) (linesOk_below hd _ v h.2.1)).append
      (linesOk_entries hd _ es h.2.2)
termination_by (sizeOf v, 2)
theorem linesOk_items {d : Char} (hd : GoodDelim d) (depth : Nat) (vs : List (Draft F)) (h : Draft.ReadableItems vs) :
    LinesOk (outs (Draft.itemsRows d depth vs)) := by
  match vs, h with
  | [], _ => rw [Draft.itemsRows]; exact LinesOk.nil
  | v :: vs, h =>
    simp only [Draft.ReadableItems] at h
    rw [Draft.itemsRows, outs_append]
    exact (linesOk_item hd depth v h.1).append (linesOk_items hd depth vs h.2)
termination_by (sizeOf vs, 0)
end

theorem linesOk_document {d : Char} (hd : GoodDelim d) {v : Draft F} (h : v.Readable) : LinesOk (outs (v.documentRows d)) := by
  have arr : v.documentRows d = v.entryRows d [] 0 1 → LinesOk (outs (v.documentRows d)) := by
    intro he
    rw [he, outs_entry]
    exact LinesOk.cons (lineOk_text hd) (linesOk_below hd _ v h)
  cases v with
  | prim p =>
    rw [Draft.documentRows, tokenText_eq]
    exact LinesOk.cons (encodePrimitive_tok hd p).lineOk LinesOk.nil
  | inline n ps => exact arr rfl
  | table n cols rows => exact arr rfl
  | list n items => exact arr rfl
  | object es =>
    simp only [Draft.Readable] at h
    exact linesOk_entries hd 0 es h

/-! ## Reading -/

omit [F64 F] [LawfulF64 F] in
theorem Tells.fails (r : Reading F) (e : Err) {P : Prop} (h : ¬ P) (evs : List (Ev F)) : Tells (r.seq (.error e)) P evs := by
  cases r with
  | error x => exact Tells.error _ h _
  | ok x => exact Tells.error _ h _

omit [F64 F] [LawfulF64 F] in
theorem itemsRows_split [F64 F] (d : Char) (depth : Nat) (vs : List (Draft F)) (n : Nat) :
    Draft.itemsRows d depth vs = Draft.itemsRows d depth (vs.take n) ++ Draft.itemsRows d depth (vs.drop n) := by
  induction vs generalizing n with
  | nil => simp [Draft.itemsRows]
  | cons v vs ih =>
    cases n with
    | zero => simp [Draft.itemsRows]
    | succ n => rw [List.take_succ_cons, List.drop_succ_cons, Draft.itemsRows, Draft.itemsRows, ih n, List.append_assoc]

omit [F64 F] [LawfulF64 F] in
theorem values_length (vs : List (Draft F)) : (Draft.values vs).length = vs.length := by
  induction vs with
  | nil => rfl
  | cons v vs ih => simp [Draft.values, ih]

mutual
theorem array_draft {ctx : Ctx} (hs : ctx.strict = true) (hb : ctx.blanks = []) {d : Char} (hd : GoodDelim d)
    (key : Option Str) (base : Nat) (v : Draft F) (h : v.Legible) (ha : v.isArray) :
    ∃ r : Reading F, ArrRun ctx base (keyText key ++ v.text d) (v.rowsBelow d (base + 1)) key r ∧ Tells r v.Honest (emitEvents v.value) := by
  match v, h, ha with
  | .prim _, _, ha => exact absurd ha id
  | .object _, _, ha => exact absurd ha id
  | .inline n ps, h, _ =>
    simp only [Draft.Legible] at h
    obtain ⟨r, h1, h2⟩ := inline_declared (ctx := ctx) (base := base) hs hb hd (key := key) (n := n) h.1
      (ps := ps) (fun p hp => plain_norm (h.2 p hp))
    refine ⟨r, ?_, ?_⟩
    · rw [Draft.text, ← List.append_assoc, keyed_header]; exact h1
    · simpa only [Draft.Honest, Draft.value] using h2
  | .table n cols rows, h, _ =>
    simp only [Draft.Legible] at h
    obtain ⟨r, h1, h2⟩ := table_declared (ctx := ctx) (base := base) hs hb hd (key := key) (n := n) h.1 h.2.1 h.2.2.1
      (rows := rows) (fun row hr => (h.2.2.2 row hr).1) (fun row hr p hp => plain_norm ((h.2.2.2 row hr).2 p hp))
    refine ⟨r, ?_, ?_⟩
    · rw [Draft.text, keyed_header]; exact h1
    · simpa only [Draft.Honest, Draft.value] using h2
  | .list n items, h, _ =>
    simp only [Draft.Legible] at h
    rw [Draft.text, keyed_header, Draft.rowsBelow]
    obtain ⟨r, h1, h2⟩ := items_draft hs hb hd (base + 1) items n h.2.2
    simp only [Draft.Honest, Draft.value]
    rcases Nat.lt_trichotomy items.length n with hlt | heq | hgt
    · rw [List.take_of_length_le (Nat.le_of_lt hlt)] at h1
      rw [Nat.min_eq_right (Nat.le_of_lt hlt)] at h1
      exact ⟨_, arrRun_short hs hd h.1 hlt h1, Tells.fails _ _ (by rintro ⟨h, _⟩; omega) _⟩
    · rw [List.take_of_length_le (Nat.le_of_eq heq)] at h1 h2
      rw [heq, Nat.min_self] at h1
      refine ⟨_, arrRun_list hb hd h.1 h1, (((Tells.ok [.startArr n]).seq (h2.seq (Tells.ok [.endArr])))).to ?_ ?_⟩
      · exact ⟨fun h => ⟨heq, h.2.1⟩, fun h => ⟨trivial, h.2, trivial⟩⟩
      · intro _
        simp only [emitEvents, values_length, heq, List.cons_append, List.nil_append]
    · rw [Nat.min_eq_left (Nat.le_of_lt hgt)] at h1
      obtain ⟨c, more, hc⟩ := outs_item_dash d (base + 1) (v := items[n]) (by
        intro he
        exact h.2.1 (by rw [List.getElem?_eq_getElem hgt, he]))
      refine ⟨_, ?_, Tells.fails r (.extraItems n) (by rintro ⟨h, _⟩; omega) _⟩
      rw [itemsRows_split d _ items n, outs_append, List.drop_eq_getElem_cons hgt, Draft.itemsRows, outs_append, hc, List.cons_append]
      exact arrRun_surplus hs hb hd h.1 h1 rfl
termination_by (sizeOf v, 1)

theorem entry_draft {ctx : Ctx} (hs : ctx.strict = true) (hb : ctx.blanks = []) {d : Char} (hd : GoodDelim d)
    (k : Str) (base : Nat) (v : Draft F) (h : v.Legible)
    (hk : ∀ s, v = .prim (.str s) → bareKey k = true → headerLike s = false) :
    ∃ r : Reading F, KVRun ctx base (keyTextOf k ++ v.text d) (v.rowsBelow d (base + 1)) r ∧
      Tells r v.Honest (.key k (!isValidUnquotedKey k) :: emitEvents v.value) := by
  have arr : (∃ r : Reading F, ArrRun ctx base (keyText (some k) ++ v.text d) (v.rowsBelow d (base + 1)) (some k) r ∧
        Tells r v.Honest (emitEvents v.value)) →
      ∃ r : Reading F, KVRun ctx base (keyTextOf k ++ v.text d) (v.rowsBelow d (base + 1)) r ∧
        Tells r v.Honest (.key k (!isValidUnquotedKey k) :: emitEvents v.value) := by
    rintro ⟨r, h1, h2⟩
    rw [keyTextOf_eq]
    refine ⟨_, kvRun_arr h1, ((Tells.ok [.key k (!isValidUnquotedKey k)]).seq h2).to ?_ fun _ => rfl⟩
    simp
  match v, h, hk, arr with
  | .prim p, h, hk, _ =>
    simp only [Draft.Legible] at h
    rw [keyTextOf_eq, Draft.text, Draft.rowsBelow]
    have := kvSpec_prim (F := F) (ctx := ctx) (depth := base) hd (k := k) (plain_norm h)
      (fun s hs hv => hk s (by rw [hs]) (by rw [bareKey_eq]; exact hv))
    exact ⟨_, this.run, (Tells.ok _).to (by simp [Draft.Honest]) fun _ => rfl⟩
  | .inline n ps, h, _, arr => exact arr (array_draft hs hb hd (some k) base (.inline n ps) h trivial)
  | .table n cols rows, h, _, arr => exact arr (array_draft hs hb hd (some k) base (.table n cols rows) h trivial)
  | .list n items, h, _, arr => exact arr (array_draft hs hb hd (some k) base (.list n items) h trivial)
  | .object es, h, _, _ =>
    simp only [Draft.Legible] at h
    rw [keyTextOf_eq, Draft.text, Draft.rowsBelow]
    obtain ⟨r, h1, h2⟩ := entries_draft hs hb hd (base + 1) es h
    refine ⟨_, kvRun_obj h1, ((Tells.ok [.key k (!isValidUnquotedKey k), .startObj]).seq (h2.seq (Tells.ok [.endObj]))).to ?_ ?_⟩
    · simp [Draft.Honest]
    · intro _
      simp [Draft.value, emitEvents]
termination_by (sizeOf v, 2)

theorem entries_draft {ctx : Ctx} (hs : ctx.strict = true) (hb : ctx.blanks = []) {d : Char} (hd : GoodDelim d)
    (base : Nat) (es : List (Str × Draft F)) (h : Draft.LegibleEntries es) :
    ∃ r : Reading F, KVRuns ctx base (outs (Draft.entriesRows d base es)) r ∧
      Tells r (Draft.HonestEntries es) (emitEntries (Draft.valueEntries es)) := by
  match es, h with
  | [], _ =>
    rw [Draft.entriesRows]
    exact ⟨_, KVRuns.nil, (Tells.ok []).to (by simp [Draft.HonestEntries]) fun _ => rfl⟩
  | (k, v) :: es, h =>
    simp only [Draft.LegibleEntries] at h
    obtain ⟨r, h1, h2⟩ := entry_draft hs hb hd k base v h.2.1 h.1
    obtain ⟨rs, h3, h4⟩ := entries_draft hs hb hd base es h.2.2
    rw [Draft.entriesRows, outs_append, outs_entry]
    exact ⟨_, KVRuns.cons h1 h3, (h2.seq h4).to (by simp [Draft.HonestEntries]) fun _ => by simp [Draft.valueEntries, emitEntries]⟩
termination_by (sizeOf es, 0)

theorem item_draft {ctx : Ctx} (hs : ctx.strict = true) (hb : ctx.blanks = []) {d : Char} (hd : GoodDelim d)
    (depth : Nat) (v : Draft F) (h : v.Legible) :
    ∃ (c : Str) (tl : List OutLine) (r : Reading F), outs (v.itemRows d depth) = ⟨depth, c⟩ :: tl ∧ ItemRun ctx depth c tl r ∧
      Tells r v.Honest (emitEvents v.value) := by
  have arr : v.isArray → (∃ r : Reading F, ArrRun ctx depth (keyText none ++ v.text d) (v.rowsBelow d (depth + 1)) none r ∧
        Tells r v.Honest (emitEvents v.value)) →
      ∃ (c : Str) (tl : List OutLine) (r : Reading F), outs (v.itemRows d depth) = ⟨depth, c⟩ :: tl ∧ ItemRun ctx depth c tl r ∧
        Tells r v.Honest (emitEvents v.value) := by
    rintro ha ⟨r, h1, h2⟩
    rw [itemRows_array d depth ha, outs_entry]
    exact ⟨_, _, r, rfl, itemRun_arr h1, h2⟩
  match v, h, arr with
  | .prim p, h, _ =>
    simp only [Draft.Legible] at h
    rw [Draft.itemRows, tokenText_eq]
    exact ⟨_, _, _, rfl, (itemSpec_prim hd (plain_norm h)).run, (Tells.ok _).to (by simp [Draft.Honest]) fun _ => rfl⟩
  | .inline n ps, h, arr => exact arr trivial (array_draft hs hb hd none depth (.inline n ps) h trivial)
  | .table n cols rows, h, arr => exact arr trivial (array_draft hs hb hd none depth (.table n cols rows) h trivial)
  | .list n items, h, arr => exact arr trivial (array_draft hs hb hd none depth (.list n items) h trivial)
  | .object [], _, _ =>
    rw [Draft.itemRows]
    exact ⟨_, _, _, rfl, itemSpec_empty.run, (Tells.ok _).to (by simp [Draft.Honest, Draft.HonestEntries]) fun _ => rfl⟩
  | .object ((k, v) :: es), h, _ =>
    simp only [Draft.Legible, Draft.LegibleEntries] at h
    obtain ⟨r, h1, h2⟩ := entry_draft hs hb hd k (depth + 1) v h.2.1 h.1
    obtain ⟨rs, h3, h4⟩ := entries_draft hs hb hd (depth + 1) es h.2.2
    rw [Draft.itemRows, outs_append, outs_entry]
    refine ⟨_, _, _, rfl, itemRun_obj h1 h3, ((Tells.ok [.startObj]).seq (h2.seq (h4.seq (Tells.ok [.endObj])))).to ?_ ?_⟩
    · simp [Draft.Honest, Draft.HonestEntries]
    · intro _
      simp [Draft.value, Draft.valueEntries, emitEvents, emitEntries]
termination_by (sizeOf v, 3)

theorem items_draft {ctx : Ctx} (hs : ctx.strict = true) (hb : ctx.blanks = []) {d : Char} (hd : GoodDelim d)
    (depth : Nat) (vs : List (Draft F)) (n : Nat) (h : Draft.LegibleItems vs) :
    ∃ r : Reading F, ItemRuns ctx depth (outs (Draft.itemsRows d depth (vs.take n))) (min n vs.length) r ∧
      Tells r (Draft.HonestItems (vs.take n)) (emitItems (Draft.values (vs.take n))) := by
  match vs, h, n with
  | [], _, n =>
    simp only [List.take_nil, Draft.itemsRows, List.length_nil, Nat.min_zero]
    exact ⟨_, ItemRuns.nil, (Tells.ok []).to (by simp [Draft.HonestItems]) fun _ => rfl⟩
  | v :: vs, _, 0 =>
    simp only [List.take_zero, Draft.itemsRows, Nat.zero_min]
    exact ⟨_, ItemRuns.nil, (Tells.ok []).to (by simp [Draft.HonestItems]) fun _ => rfl⟩
  | v :: vs, h, n + 1 =>
    simp only [Draft.LegibleItems] at h
    obtain ⟨c, tl, r, hl, h1, h2⟩ := item_draft hs hb hd depth v h.1
    obtain ⟨rs, h3, h4⟩ := items_draft hs hb hd depth vs n h.2
    rw [List.take_succ_cons, Draft.itemsRows, outs_append, hl, List.length_cons, Nat.add_min_add_right]
    exact ⟨_, ItemRuns.cons h1 h3, (h2.seq h4).to (by simp [Draft.HonestItems]) fun _ => by simp [Draft.values, emitItems]⟩
termination_by (sizeOf vs, 0)
end

/-! ## The whole text -/

omit [LawfulF64 F] in
theorem decodeLines_entries {ctx : Ctx} {os : List OutLine} {r : Reading F} (h : KVRuns ctx 0 os r) {lines : List Line}
    (hp : Proj lines os) : decodeLines (F := F) ctx lines = Reading.seq (.ok [.startObj]) (r.seq (.ok [.endObj])) := by
  unfold decodeLines
  cases h with
  | nil =>
    rw [Proj.nil_iff.mp hp]
    rfl
  | @cons c tl ls0 r rs h1 h3 =>
    rw [List.cons_append] at hp
    obtain ⟨l, ls, rfl, hdp, hc, hp⟩ := Proj.cons hp
    obtain ⟨l1, l2, rfl, hp1, hp2⟩ := hp.split
    have hr : RestLe 0 (l2 ++ []) := h3.restLe hp2 (by intro l hl; simp at hl)
    rw [List.append_nil] at hr
    obtain ⟨last1, e1⟩ := h1.2 l1 l2 (some l) (5 * (l :: (l1 ++ l2)).length + 5) hp1 hr
      (by simp only [List.length_cons, List.length_append]; omega)
    obtain ⟨last2, e2⟩ := h3.root l2 last1 (5 * (l :: (l1 ++ l2)).length + 5) hp2
      (by simp only [List.length_cons, List.length_append]; omega)
    simp only [rootHeader, hc, h1.1.arr, Bool.false_eq_true, if_false, bind, Except.bind, h1.1.kvl, Bool.not_true,
      Bool.and_false, e1]
    cases r with
    | error x => simp only [Reading.at, Reading.seq]
    | ok evs =>
      simp only [Reading.at, e2]
      cases rs with
      | error x => simp only [Reading.at, Reading.seq]
      | ok evs' => simp [Reading.at, Reading.seq, pure, Except.pure]

omit [LawfulF64 F] in
theorem decodeLines_arrRun {ctx : Ctx} {c : Str} {tl : List OutLine} {r : Reading F} (h : ArrRun ctx 0 c tl none r) {lines : List Line}
    (hp : Proj lines (⟨0, c⟩ :: tl)) : decodeLines (F := F) ctx lines = r := by
  unfold decodeLines
  obtain ⟨l, ls, rfl, hdp, hc, hp⟩ := Proj.cons hp
  obtain ⟨n, fields, d, suffix, hd', hform⟩ := h.form
  have harr : isArrayHeaderContent c = true := by rw [hform]; exact arrayHeader_none n fields hd' suffix
  simp only [rootHeader, hc, harr, if_true]
  rcases h.run with ⟨e, he, rfl⟩ | ⟨hh, hparse, hkey, hq, hdec⟩
  · simp only [he, bind, Except.bind]
  · obtain ⟨last', e⟩ := hdec ls [] (some l) (5 * (l :: ls).length + 5) hp (by intro l hl; simp at hl)
      (by simp only [List.length_cons]; omega)
    rw [List.append_nil] at e
    simp only [hparse, bind, Except.bind, e]
    cases r with
    | error x => simp only [Reading.at]
    | ok evs => simp only [Reading.at, pure, Except.pure]

theorem decodeLines_draft {ctx : Ctx} (hs : ctx.strict = true) (hb : ctx.blanks = []) {d : Char} (hd : GoodDelim d)
    {v : Draft F} (h : v.Legible) {lines : List Line} (hp : Proj lines (outs (v.documentRows d))) :
    Tells (decodeLines (F := F) ctx lines) v.Honest (emitEvents v.value) := by
  have arr : v.isArray → v.documentRows d = v.entryRows d [] 0 1 → Tells (decodeLines (F := F) ctx lines) v.Honest (emitEvents v.value) := by
    intro ha he
    rw [he, outs_entry] at hp
    obtain ⟨r, h1, h2⟩ := array_draft hs hb hd none 0 v h ha
    rw [decodeLines_arrRun h1 hp]
    exact h2
  cases v with
  | prim p =>
    simp only [Draft.Legible] at h
    have hw : Writable true (Json.prim p) := by simp [Writable]
    have hn : Normal (Json.prim p) := by simpa only [Normal] using plain_norm h
    have hp' : Proj lines (encodeValue { indent := 2, delim := d, fold := false, flattenDepth := 0 } (.prim p)) := by
      have ht := encodePrimitive_tok hd p
      rw [Draft.documentRows, tokenText_eq] at hp
      simp only [encodeValue]
      rw [if_neg (by simpa using ht.ne_nil)]
      exact hp
    rw [decodeLines_written hb (by exact hd) hw hn hp']
    exact (Tells.ok _).to (by simp [Draft.Honest]) fun _ => by simp [shape, Draft.value]
  | inline n ps => exact arr trivial rfl
  | table n cols rows => exact arr trivial rfl
  | list n items => exact arr trivial rfl
  | object es =>
    simp only [Draft.Legible] at h
    obtain ⟨r, h1, h2⟩ := entries_draft hs hb hd 0 es h
    rw [Draft.documentRows] at hp
    rw [decodeLines_entries h1 hp]
    refine ((Tells.ok [.startObj]).seq (h2.seq (Tells.ok [.endObj]))).to ?_ ?_
    · simp [Draft.Honest]
    · intro _
      simp [Draft.value, emitEvents]

theorem decodeStream_draft {indent : Nat} (hi : 0 < indent) {d : Char} (hd : GoodDelim d) (v : Draft F) (h : v.Legible) :
    Tells (decodeStream (F := F) indent true ((v.documentRows d).map (rowText indent))) v.Honest (emitEvents v.value) := by
  obtain ⟨lines, h1, h2⟩ := parseLines_render hi true (outs (v.documentRows d)) (linesOk_document hd h.readable) 0
  have he : (outs (v.documentRows d)).map (renderLine indent) = (v.documentRows d).map (rowText indent) := by
    rw [outs, List.map_map]; rfl
  rw [he] at h1
  unfold decodeStream
  simp only [h1, bind, Except.bind]
  exact decodeLines_draft (ctx := ⟨true, []⟩) rfl rfl hd h h2

end

end Toon
