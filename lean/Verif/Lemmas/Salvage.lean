import Verif.Lemmas.DraftLayout
import Verif.Lemmas.GrammarRoot
import Verif.Lemmas.EventsInj
import Verif.Spec.Salvage

/-! What the grammar makes of drafts when reading is not strict. -/

namespace Toon

section
variable {F : Type} [F64 F]

/-- The lines that are left: those that follow, or, where reading has stopped, some that begin with a deeper line. -/
structure Left (base : Nat) (stopped : Bool) (all rest rest' : List Line) : Prop where
  suffix : ∃ body, all = body ++ rest'
  done : stopped = false → rest' = rest
  more : stopped = true → ∃ l m, rest' = l :: m ∧ base < l.depth

theorem Left.ended {base : Nat} (ls rest : List Line) : Left base false (ls ++ rest) rest rest :=
  ⟨⟨ls, rfl⟩, fun _ => rfl, fun h => absurd h (by simp)⟩

theorem Left.up {base base' : Nat} {b : Bool} {all rest rest' : List Line} (h : Left base' b all rest rest') (hb : base ≤ base') :
    Left base b all rest rest' :=
  ⟨h.suffix, h.done, fun hs => by obtain ⟨l, m, h1, h2⟩ := h.more hs; exact ⟨l, m, h1, by omega⟩⟩

theorem Left.of_append {base : Nat} {b : Bool} (pre : List Line) {all rest rest' : List Line} (h : Left base b all rest rest') :
    Left base b (pre ++ all) rest rest' := by
  obtain ⟨body, hb⟩ := h.suffix
  exact ⟨⟨pre ++ body, by rw [hb, List.append_assoc]⟩, h.done, h.more⟩

/-- First one part, then another. -/
theorem Left.trans {base : Nat} {b c : Bool} {all mid rest rest' : List Line} (h1 : Left base false all mid mid)
    (h2 : Left base c mid rest rest') (hb : b = c) : Left base b all rest rest' := by
  obtain ⟨x, hx⟩ := h1.suffix
  subst hb
  rw [hx]
  exact h2.of_append x

theorem Left.stopped {base : Nat} {b : Bool} {all rest rest' rest'' : List Line} (h : Left base true all rest rest') (hb : b = true) :
    Left base b all rest'' rest' := by
  subst hb
  exact ⟨h.suffix, fun h => absurd h (by simp), h.more⟩

theorem Left.notNext {base depth : Nat} {all rest rest' : List Line} (h : Left base true all rest rest') (hd : depth ≤ base) (p : Str → Prop) :
    ¬ NextIs depth p rest' := by
  obtain ⟨l, m, rfl, hl⟩ := h.more rfl
  rw [nextIs_cons]
  omega

theorem notNext_shallow {depth : Nat} {rest : List Line} (h : ∀ l, rest.head? = some l → l.depth < depth) (p : Str → Prop) :
    ¬ NextIs depth p rest := by
  cases rest with
  | nil => exact notNext_nil
  | cons l rest =>
    rw [nextIs_cons]
    have := h l rfl
    omega

/-! ## Tables -/

omit [F64 F] in
theorem jsonItems_of {α : Type} (f : α → ETree F) (xs : List α) : ETree.jsonItems (xs.map f) = xs.map fun x => (f x).json := by
  induction xs with
  | nil => rfl
  | cons x xs ih => simp [ETree.jsonItems, ih]

omit [F64 F] in
theorem json_padFields (cols : List Str) (row : List (Prim F)) :
    ETree.jsonEntries (padFields (cols.map fun f => ⟨f, !isValidUnquotedKey f⟩) row) = paddedCells cols row := by
  induction cols generalizing row with
  | nil => cases row <;> rfl
  | cons c cols ih => cases row <;> simp [padFields, paddedCells, ETree.jsonEntries, ETree.json, ih]

theorem Proj.take {ls : List Line} {os : List OutLine} (h : Proj ls os) (n : Nat) : Proj (ls.take n) (os.take n) := by
  unfold Proj at h ⊢
  rw [List.map_take, List.map_take, h]

theorem Proj.drop {ls : List Line} {os : List OutLine} (h : Proj ls os) (n : Nat) : Proj (ls.drop n) (os.drop n) := by
  unfold Proj at h ⊢
  rw [List.map_drop, List.map_drop, h]

variable [LawfulF64 F]

theorem goodDelim_ne_quote {d : Char} (hd : GoodDelim d) : d ≠ '"' := by
  rcases hd with rfl | rfl | rfl <;> decide

theorem cells_written {d : Char} (hd : GoodDelim d) {row : List (Prim F)} (hne : row ≠ []) (hn : ∀ p ∈ row, normPrim p = p) :
    ∃ cells, Cells d (encodeAndJoin row d) cells ∧ Pointwise TokenMeans cells row := by
  have hval : parseDelimitedValues (encodeAndJoin row d) d = row.map (encodePrimitive · d) :=
    parseDelimited_join hd _ (by simpa using hne) (rowTokens hd row)
  have hc := (parseDelimited_cells (goodDelim_ne_quote hd) _ _).mp hval
  exact ⟨_, hc, (mapRow_cells (cells_trimmed hc) _).mp (mapRowValues_encode row hn d)⟩

theorem rows_mean {d : Char} (hd : GoodDelim d) (fields : List FieldName) {depth : Nat} (rows : List (List (Prim F)))
    (hl : ∀ row ∈ rows, row ≠ [] ∧ ∀ p ∈ row, PlainPrim p) :
    ∀ ls : List Line, Proj ls (rows.map fun row => ⟨depth, encodeAndJoin row d⟩) →
      (∀ line ∈ ls, line.depth = depth) ∧
      Pointwise (TableRow false fields d) ls (rows.map fun row => .obj (padFields fields row)) := by
  induction rows with
  | nil => intro ls hp; rw [Proj.nil_iff.mp hp]; exact ⟨by simp, .nil⟩
  | cons row rows ih =>
    intro ls hp
    rw [List.map_cons] at hp
    obtain ⟨l, ls, rfl, h1, h2, hp⟩ := Proj.cons hp
    obtain ⟨h3, h4⟩ := ih (fun r hr => hl r (by simp [hr])) ls hp
    obtain ⟨cells, hc, ht⟩ := cells_written hd (hl row (by simp)).1 (fun p hp => plain_norm ((hl row (by simp)).2 p hp))
    refine ⟨?_, .cons ⟨cells, row, by rw [h2]; exact hc, ht, by simp, rfl⟩ h4⟩
    intro l' hl'
    rcases List.mem_cons.mp hl' with rfl | hl'
    · exact h1
    · exact h3 l' hl'

/-! ## The induction -/

omit [LawfulF64 F] in
theorem entriesRows_head (d : Char) (depth : Nat) (es : List (Str × Draft F)) {ls rest : List Line}
    (hp : Proj ls (outs (Draft.entriesRows d depth es))) (hr : RestLe depth rest) : RestLe depth (ls ++ rest) := by
  cases es with
  | nil =>
    rw [Draft.entriesRows] at hp
    rw [Proj.nil_iff.mp hp]
    exact hr
  | cons e es =>
    obtain ⟨k, v⟩ := e
    rw [Draft.entriesRows, outs_append, outs_entry] at hp
    obtain ⟨l, ls, rfl, h, _⟩ := Proj.cons hp
    intro l' hl'
    simp at hl'
    subst hl'
    exact Nat.le_of_eq h

omit [LawfulF64 F] in
theorem itemRows_cons (d : Char) (depth : Nat) (v : Draft F) : ∃ c tl, outs (v.itemRows d depth) = ⟨depth, c⟩ :: tl := by
  by_cases h : v = .object []
  · subst h
    rw [Draft.itemRows]
    exact ⟨_, _, rfl⟩
  · obtain ⟨c, more, h⟩ := outs_item_dash d depth h
    exact ⟨_, _, h⟩

theorem itemsRows_head (d : Char) (depth : Nat) (vs : List (Draft F)) {ls rest : List Line}
    (hp : Proj ls (outs (Draft.itemsRows d depth vs))) (hr : RestLe depth rest) : RestLe depth (ls ++ rest) := by
  cases vs with
  | nil =>
    rw [Draft.itemsRows] at hp
    rw [Proj.nil_iff.mp hp]
    exact hr
  | cons v vs =>
    obtain ⟨c, tl, hc⟩ := itemRows_cons d depth v
    rw [Draft.itemsRows, outs_append, hc] at hp
    obtain ⟨l, ls, rfl, h, _⟩ := Proj.cons hp
    intro l' hl'
    simp at hl'
    subst hl'
    exact Nat.le_of_eq h

theorem entry_prim_means {blanks : List Nat} {base : Nat} {d : Char} (hd : GoodDelim d) {k : Str} {p : Prim F}
    (hp : PlainPrim p) (hk : ∀ s, p = .str s → bareKey k = true → headerLike s = false) (rest : List Line) :
    EntryMeans false blanks base (encodeKey k ++ ':' :: ' ' :: encodePrimitive p d) rest (k, !isValidUnquotedKey k, .prim p) rest := by
  have h := decodeKV_prim (F := F) (ctx := ⟨false, blanks⟩) (depth := base) hd (k := k) (plain_norm hp)
    (fun s hs hv => hk s hs (by rw [bareKey_eq]; exact hv)) ⟨rest, none⟩ 0
  obtain ⟨⟨k', q, t, h1, h2⟩, _⟩ := (soundClaims (F := F) ⟨false, blanks⟩ 1).kv _ _ _ _ _ h
  simp only [emitEvents, List.cons.injEq, Ev.key.injEq] at h2
  obtain ⟨⟨rfl, rfl⟩, h2⟩ := h2
  have : t = .prim p := events_inj (by rw [← h2]; rfl)
  subst this
  exact h1

theorem item_prim_means {blanks : List Nat} {depth : Nat} {d : Char} (hd : GoodDelim d) {p : Prim F} (hp : PlainPrim p)
    {rest : List Line} (hr : RestLe depth rest) : ItemMeans' false blanks depth (dash (encodePrimitive p d)) rest (.prim p) rest := by
  obtain ⟨last', h⟩ := (itemSpec_prim (F := F) (ctx := ⟨false, blanks⟩) (depth := depth) hd (plain_norm hp)).2
    ⟨depth, dash (encodePrimitive p d), 0⟩ [] rest none 5 rfl rfl hr (by simp)
  obtain ⟨line, rest', h1, ⟨t, h2, h3⟩, _⟩ := (soundClaims (F := F) ⟨false, blanks⟩ 5).item _ _ _ _ h
  simp only [List.cons_append, List.nil_append, List.cons.injEq] at h1
  obtain ⟨rfl, rfl⟩ := h1
  have : t = .prim p := events_inj (by rw [← h3]; rfl)
  subst this
  exact h2

theorem readQuoted_none : readQuoted none = false := rfl

omit [LawfulF64 F] in
theorem keyLine_text {d : Char} (hd : GoodDelim d) (k : Str) (v : Draft F) : KeyLine (encodeKey k ++ v.text d) := by
  have header : ∀ n fields suffix, KeyLine (encodeKey k ++ (formatHeader n none fields d ++ suffix)) := by
    intro n fields suffix
    have := keyLine_header n k fields hd suffix
    rw [← keyed_header, List.append_assoc] at this
    exact this
  cases v with
  | prim p => exact keyLine_colon k _
  | inline n ps => exact header n none _
  | table n cols rows => have := header n (some cols) []; rwa [List.append_nil] at this
  | list n items => have := header n none []; rwa [List.append_nil] at this
  | object es => exact keyLine_colon k []

mutual
theorem array_salvage {blanks : List Nat} {d : Char} (hd : GoodDelim d) (key : Option Str) (base : Nat) (v : Draft F) (h : v.Readable)
    (ha : v.isArray) : ∃ hdr : Header, HeaderMeans (keyText key ++ v.text d) hdr ∧ hdr.key = key ∧ hdr.keyQuoted = readQuoted key ∧
      ∀ ls rest : List Line, Proj ls (v.rowsBelow d (base + 1)) → RestLe base rest →
        ∃ (t : ETree F) (rest' : List Line), ArrayMeans false blanks base hdr (ls ++ rest) t rest' ∧ t.json = v.salvaged ∧
          Left base v.stops (ls ++ rest) rest rest' := by
  match v, h, ha with
  | .prim _, _, ha => exact absurd ha id
  | .object _, _, ha => exact absurd ha id
  | .inline n ps, h, _ =>
    simp only [Draft.Readable] at h
    cases hps : ps.isEmpty with
    | true =>
      have : ps = [] := by simpa using hps
      subst this
      have hp := parseHeader_format (n := n) h.1 key (fields := none) hd (by simp) []
      rw [List.append_nil] at hp
      refine ⟨_, (headerMeans_iff _ _).mp (by rw [Draft.text]; simp only [hps, if_true, List.append_nil, keyed_header]; exact hp), rfl, rfl, ?_⟩
      intro ls rest hpj hr
      rw [Draft.rowsBelow] at hpj
      rw [Proj.nil_iff.mp hpj]
      refine ⟨.arr n [], rest, ?_, ?_, ?_⟩
      · exact ArrayMeans.list (body := []) rfl (Or.inl rfl)
          (.stop (Or.inr (notNext_shallow (fun l hl => Nat.lt_succ_of_le (hr l hl)) _))) (by simp)
      · simp [ETree.json, ETree.jsonItems, Draft.salvaged]
      · simp only [Draft.stops]
        exact Left.ended [] rest
    | false =>
      have hne : ps ≠ [] := by intro h; subst h; simp at hps
      have htok := rowTokens hd ps
      have hedge : NoEdgeWs (encodeAndJoin ps d) := joinWith_noEdgeWs fun t ht => ⟨(htok t ht).ne_nil, (htok t ht).edge⟩
      have hjne : encodeAndJoin ps d ≠ [] := joinWith_ne_nil (by simpa using hne) fun t ht => (htok t ht).ne_nil
      have hpr := parseHeader_format (n := n) h.1 key (fields := none) hd (by simp) (' ' :: encodeAndJoin ps d)
      refine ⟨_, (headerMeans_iff _ _).mp (by
        rw [Draft.text]; simp only [hps, Bool.false_eq_true, if_false]; rw [← List.append_assoc, keyed_header]; exact hpr), rfl, rfl, ?_⟩
      intro ls rest hpj hr
      rw [Draft.rowsBelow] at hpj
      rw [Proj.nil_iff.mp hpj]
      obtain ⟨cells, hc, ht⟩ := cells_written hd hne (fun p hp => plain_norm (h.2 p hp))
      refine ⟨.arr n (ps.map .prim), rest, ?_, ?_, ?_⟩
      · refine ArrayMeans.inline (text := encodeAndJoin ps d) (cells := cells) ?_ hc ht (by simp)
        rw [trim_space_cons hedge]
        simp only
        rw [if_neg (by simpa using hjne)]
      · simp only [ETree.json, Draft.salvaged]
        rw [jsonItems_of]
        simp only [ETree.json]
      · simp only [Draft.stops]
        exact Left.ended [] rest
  | .table n cols rows, h, _ =>
    simp only [Draft.Readable] at h
    have hp := parseHeader_format (n := n) h.1 key (fields := some cols) hd (by intro fs hf; simp at hf; subst hf; exact ⟨h.2.1, h.2.2.1⟩) []
    rw [List.append_nil] at hp
    refine ⟨_, (headerMeans_iff _ _).mp (by rw [Draft.text, keyed_header]; exact hp), rfl, rfl, ?_⟩
    intro ls rest hpj hr
    rw [Draft.rowsBelow] at hpj
    have hlen : ls.length = rows.length := by rw [projLength hpj, List.length_map]
    have htake := hpj.take n
    rw [← List.map_take] at htake
    obtain ⟨h1, h2⟩ := rows_mean hd (cols.map fun f => ⟨f, !isValidUnquotedKey f⟩) (rows.take n)
      (fun row hr => h.2.2.2 row (List.mem_of_mem_take hr)) _ htake
    have hsplit : ls ++ rest = ls.take n ++ (ls.drop n ++ rest) := by rw [← List.append_assoc, List.take_append_drop]
    refine ⟨.arr n ((rows.take n).map fun row => .obj (padFields (cols.map fun f => ⟨f, !isValidUnquotedKey f⟩) row)), ls.drop n ++ rest, ?_, ?_, ?_⟩
    · rw [hsplit]
      refine ArrayMeans.table (body := ls.take n) rfl rfl (by simpa using h.2.1) h1 h2 (by simp; omega) ?_ (by simp)
      intro hlt
      simp only [List.length_take] at hlt
      rw [List.drop_of_length_le (by omega), List.nil_append]
      exact notNext_shallow (fun l hl => Nat.lt_succ_of_le (hr l hl)) _
    · simp only [ETree.json, Draft.salvaged]
      rw [jsonItems_of]
      simp only [ETree.json, json_padFields]
    · refine ⟨⟨_, hsplit⟩, ?_, ?_⟩
      · intro hs
        simp only [Draft.stops, decide_eq_false_iff_not] at hs
        rw [List.drop_of_length_le (by omega), List.nil_append]
      · intro hs
        simp only [Draft.stops, decide_eq_true_eq] at hs
        have hd' := hpj.drop n
        rw [← List.map_drop, List.drop_eq_getElem_cons hs, List.map_cons] at hd'
        obtain ⟨l, m, he, hdep, _⟩ := Proj.cons hd'
        exact ⟨l, m ++ rest, by rw [he]; rfl, by rw [hdep]; simp⟩
  | .list n items, h, _ =>
    simp only [Draft.Readable] at h
    have hp := parseHeader_format (n := n) h.1 key (fields := none) hd (by simp) []
    rw [List.append_nil] at hp
    refine ⟨_, (headerMeans_iff _ _).mp (by rw [Draft.text, keyed_header]; exact hp), rfl, rfl, ?_⟩
    intro ls rest hpj hr
    rw [Draft.rowsBelow] at hpj
    obtain ⟨ts, rest', h1, h2, h3⟩ := items_salvage (blanks := blanks) hd base items n h.2 ls rest hpj hr
    obtain ⟨body, hb⟩ := h3.suffix
    refine ⟨.arr n ts, rest', ?_, ?_, ?_⟩
    · rw [hb] at h1 ⊢
      exact ArrayMeans.list rfl (Or.inl rfl) h1 (by simp)
    · simp only [ETree.json, Draft.salvaged, h2]
    · simp only [Draft.stops]
      exact h3
termination_by (sizeOf v, 1)

theorem entry_salvage {blanks : List Nat} {d : Char} (hd : GoodDelim d) (k : Str) (base : Nat) (v : Draft F) (h : v.Readable)
    (hk : ∀ s, v = .prim (.str s) → bareKey k = true → headerLike s = false) (ls rest : List Line)
    (hp : Proj ls (v.rowsBelow d (base + 1))) (hr : RestLe base rest) :
    ∃ (q : Bool) (t : ETree F) (rest' : List Line), EntryMeans false blanks base (encodeKey k ++ v.text d) (ls ++ rest) (k, q, t) rest' ∧
      t.json = v.salvaged ∧ Left base v.stops (ls ++ rest) rest rest' := by
  have arr : (∃ hdr : Header, HeaderMeans (keyText (some k) ++ v.text d) hdr ∧ hdr.key = some k ∧ hdr.keyQuoted = readQuoted (some k) ∧
      ∀ ls rest : List Line, Proj ls (v.rowsBelow d (base + 1)) → RestLe base rest →
        ∃ (t : ETree F) (rest' : List Line), ArrayMeans false blanks base hdr (ls ++ rest) t rest' ∧ t.json = v.salvaged ∧
          Left base v.stops (ls ++ rest) rest rest') →
      ∃ (q : Bool) (t : ETree F) (rest' : List Line), EntryMeans false blanks base (encodeKey k ++ v.text d) (ls ++ rest) (k, q, t) rest' ∧
        t.json = v.salvaged ∧ Left base v.stops (ls ++ rest) rest rest' := by
    rintro ⟨hdr, h1, h2, h3, h4⟩
    obtain ⟨t, rest', h5, h6, h7⟩ := h4 ls rest hp hr
    exact ⟨_, t, rest', .array h1 h2 h5, h6, h7⟩
  match v, h, hk, hp, arr with
  | .prim p, h, hk, hp, _ =>
    simp only [Draft.Readable] at h
    rw [Draft.rowsBelow] at hp
    rw [Proj.nil_iff.mp hp]
    refine ⟨_, .prim p, rest, entry_prim_means hd h (fun s hs => hk s (by rw [hs])) rest, ?_, ?_⟩
    · simp only [ETree.json, Draft.salvaged]
    · simp only [Draft.stops]
      exact Left.ended [] rest
  | .inline n ps, h, _, _, arr => exact arr (array_salvage hd (some k) base (.inline n ps) h trivial)
  | .table n cols rows, h, _, _, arr => exact arr (array_salvage hd (some k) base (.table n cols rows) h trivial)
  | .list n items, h, _, _, arr => exact arr (array_salvage hd (some k) base (.list n items) h trivial)
  | .object es, h, _, hp, _ =>
    simp only [Draft.Readable] at h
    rw [Draft.rowsBelow] at hp
    have hno : NoKeyedHeader (encodeKey k ++ [':']) := Or.inl ((noHeader_iff _).mp (parseHeader_keyOnly k))
    have hkey : KeyLineMeans (encodeKey k ++ [':']) k (!isValidUnquotedKey k) [] := by
      have := keyLine_iff _ _ _ _ (parseKeyToken_encode k [])
      rwa [drop_keyColon] at this
    have hblank : BlankLine [] := by intro c hc; simp at hc
    have key := entries_salvage (blanks := blanks) hd false (base + 1) es h ls rest hp (fun l hl => Nat.lt_succ_of_le (hr l hl))
    cases es with
    | nil =>
      rw [Draft.entriesRows] at hp
      rw [Proj.nil_iff.mp hp]
      refine ⟨_, .obj [], rest, .empty hno hkey hblank ?_, ?_, ?_⟩
      · intro line more hl
        exact hr line (by rw [show rest = line :: more from hl]; rfl)
      · simp [ETree.json, ETree.jsonEntries, Draft.salvaged, Draft.salvagedEntries]
      · simp only [Draft.stops, Draft.stopsEntries]
        exact Left.ended [] rest
    | cons e es =>
      obtain ⟨ts, rest', h1, h2, h3⟩ := key
      obtain ⟨k', v⟩ := e
      rw [Draft.entriesRows, outs_append, outs_entry] at hp
      obtain ⟨l, ls, rfl, hdep, _⟩ := Proj.cons hp
      simp only at hdep
      refine ⟨_, .obj ts, rest', .object hno hkey hblank (by omega) (by rw [hdep]; exact h1), ?_, ?_⟩
      · simp only [ETree.json, Draft.salvaged, h2]
      · simp only [Draft.stops]
        exact h3.up (by omega)
termination_by (sizeOf v, 2)

theorem entries_salvage {blanks : List Nat} {d : Char} (hd : GoodDelim d) (inList : Bool) (base : Nat) (es : List (Str × Draft F))
    (h : Draft.ReadableEntries es) (ls rest : List Line) (hp : Proj ls (outs (Draft.entriesRows d base es)))
    (hr : ∀ l, rest.head? = some l → l.depth < base) :
    ∃ (ts : List (Str × Bool × ETree F)) (rest' : List Line), BlockMeans false blanks inList base (ls ++ rest) ts rest' ∧
      ETree.jsonEntries ts = Draft.salvagedEntries es ∧ Left base (Draft.stopsEntries es) (ls ++ rest) rest rest' := by
  match es, h with
  | [], _ =>
    rw [Draft.entriesRows] at hp
    rw [Proj.nil_iff.mp hp]
    refine ⟨[], rest, .stop (notNext_shallow hr _), ?_, ?_⟩
    · simp [ETree.jsonEntries, Draft.salvagedEntries]
    · simp only [Draft.stopsEntries]
      exact Left.ended [] rest
  | (k, v) :: es, h =>
    simp only [Draft.ReadableEntries] at h
    rw [Draft.entriesRows, outs_append, outs_entry, keyTextOf_eq] at hp
    rw [List.cons_append] at hp
    obtain ⟨l, ls, rfl, hdep, hcont, hp⟩ := Proj.cons hp
    obtain ⟨l1, l2, rfl, hp1, hp2⟩ := hp.split
    simp only at hdep hcont
    have hr2 : RestLe base (l2 ++ rest) := entriesRows_head d base es hp2 (fun l hl => Nat.le_of_lt (hr l hl))
    obtain ⟨q, t, rest₁, h1, h2, h3⟩ := entry_salvage (blanks := blanks) hd k base v h.2.1 h.1 l1 (l2 ++ rest) hp1 hr2
    have hdash : inList = true → ¬ HyphenSpace l.content := by
      intro _ hh
      rw [hcont, ← hyphenSpace_iff, (keyLine_text hd k v).dash] at hh
      exact absurd hh (by simp)
    simp only [Draft.salvagedEntries, Draft.stopsEntries]
    rw [List.cons_append, List.append_assoc]
    cases hs : v.stops with
    | true =>
      rw [hs] at h3
      refine ⟨[(k, q, t)], rest₁, .entry hdep hdash (by rw [hcont]; exact h1) (.stop (h3.notNext (Nat.le_refl _) _)), ?_, ?_⟩
      · simp [ETree.jsonEntries, h2]
      · exact (h3.stopped (by simp)).of_append [l]
    | false =>
      rw [hs] at h3
      have := h3.done rfl
      subst this
      obtain ⟨ts, rest', h4, h5, h6⟩ := entries_salvage (blanks := blanks) hd inList base es h.2.2 l2 rest hp2 hr
      refine ⟨(k, q, t) :: ts, rest', .entry hdep hdash (by rw [hcont]; exact h1) h4, ?_, ?_⟩
      · simp [ETree.jsonEntries, h2, h5]
      · exact (h3.trans h6 (by simp)).of_append [l]
termination_by (sizeOf es, 0)

theorem item_salvage {blanks : List Nat} {d : Char} (hd : GoodDelim d) (depth : Nat) (v : Draft F) (h : v.Readable) :
    ∃ (c : Str) (tl : List OutLine), outs (v.itemRows d depth) = ⟨depth, c⟩ :: tl ∧ ∀ ls rest : List Line, Proj ls tl → RestLe depth rest →
      ∃ (t : ETree F) (rest' : List Line), ItemMeans' false blanks depth c (ls ++ rest) t rest' ∧ t.json = v.salvaged ∧
        Left depth v.stops (ls ++ rest) rest rest' := by
  have arr : v.isArray → (∃ hdr : Header, HeaderMeans (keyText none ++ v.text d) hdr ∧ hdr.key = none ∧ hdr.keyQuoted = readQuoted none ∧
      ∀ ls rest : List Line, Proj ls (v.rowsBelow d (depth + 1)) → RestLe depth rest →
        ∃ (t : ETree F) (rest' : List Line), ArrayMeans false blanks depth hdr (ls ++ rest) t rest' ∧ t.json = v.salvaged ∧
          Left depth v.stops (ls ++ rest) rest rest') →
      ∃ (c : Str) (tl : List OutLine), outs (v.itemRows d depth) = ⟨depth, c⟩ :: tl ∧ ∀ ls rest : List Line, Proj ls tl → RestLe depth rest →
        ∃ (t : ETree F) (rest' : List Line), ItemMeans' false blanks depth c (ls ++ rest) t rest' ∧ t.json = v.salvaged ∧
          Left depth v.stops (ls ++ rest) rest rest' := by
    rintro ha ⟨hdr, h1, h2, h3, h4⟩
    rw [itemRows_array d depth ha, outs_entry]
    refine ⟨_, _, rfl, fun ls rest hp hr => ?_⟩
    obtain ⟨t, rest', h5, h6, h7⟩ := h4 ls rest hp hr
    have hform : isArrayHeaderContent (v.text d) = true := by
      have header := fun n fields suffix => arrayHeader_none n fields hd suffix
      cases v with
      | prim p => exact absurd ha id
      | object es => exact absurd ha id
      | inline n ps => exact header n none _
      | table n cols rows => have := header n (some cols) []; rwa [List.append_nil] at this
      | list n items => have := header n none []; rwa [List.append_nil] at this
    obtain ⟨hv, hc⟩ := (isArrayHeaderContent_iff _).mp hform
    exact ⟨t, rest', .array hv hc h1 h5, h6, h7⟩
  match v, h, arr with
  | .prim p, h, _ =>
    simp only [Draft.Readable] at h
    rw [Draft.itemRows, tokenText_eq]
    refine ⟨_, _, rfl, fun ls rest hp hr => ?_⟩
    rw [Proj.nil_iff.mp hp]
    refine ⟨.prim p, rest, item_prim_means hd h hr, ?_, ?_⟩
    · simp only [ETree.json, Draft.salvaged]
    · simp only [Draft.stops]
      exact Left.ended [] rest
  | .inline n ps, h, arr => exact arr trivial (array_salvage hd none depth (.inline n ps) h trivial)
  | .table n cols rows, h, arr => exact arr trivial (array_salvage hd none depth (.table n cols rows) h trivial)
  | .list n items, h, arr => exact arr trivial (array_salvage hd none depth (.list n items) h trivial)
  | .object [], _, _ =>
    rw [Draft.itemRows]
    refine ⟨_, _, rfl, fun ls rest hp hr => ?_⟩
    rw [Proj.nil_iff.mp hp]
    refine ⟨.obj [], rest, .hyphen, ?_, ?_⟩
    · simp [ETree.json, ETree.jsonEntries, Draft.salvaged, Draft.salvagedEntries]
    · simp only [Draft.stops, Draft.stopsEntries]
      exact Left.ended [] rest
  | .object ((k, v) :: es), h, _ =>
    simp only [Draft.Readable, Draft.ReadableEntries] at h
    rw [Draft.itemRows, outs_append, outs_entry]
    refine ⟨_, _, rfl, fun ls rest hp hr => ?_⟩
    obtain ⟨l1, l2, rfl, hp1, hp2⟩ := hp.split
    rw [List.append_assoc]
    have hr2 : RestLe (depth + 1) (l2 ++ rest) := entriesRows_head d (depth + 1) es hp2 (fun l hl => Nat.le_succ_of_le (hr l hl))
    obtain ⟨q, t, rest₁, h1, h2, h3⟩ := entry_salvage (blanks := blanks) hd k (depth + 1) v h.2.1 h.1 l1 (l2 ++ rest) hp1 hr2
    have hkl := keyLine_text hd k v
    have hnot : ¬ (VisibleFirst '[' (encodeKey k ++ v.text d) ∧ ∃ h, HeaderMeans (encodeKey k ++ v.text d) h) := by
      rintro ⟨hv, hh, hm⟩
      have := (isArrayHeaderContent_iff _).mpr ⟨hv, (isKeyValueContent_iff _).mp hkl.kv⟩
      rw [hkl.arr] at this
      exact absurd this (by simp)
    have hcolon := (isKeyValueContent_iff _).mp hkl.kv
    have hc : '-' :: ' ' :: keyTextOf k ++ v.text d = '-' :: ' ' :: (encodeKey k ++ v.text d) := by rw [keyTextOf_eq]; rfl
    rw [hc]
    simp only [Draft.salvaged, Draft.salvagedEntries, Draft.stops, Draft.stopsEntries]
    cases hs : v.stops with
    | true =>
      rw [hs] at h3
      refine ⟨.obj [(k, q, t)], rest₁, .object hnot (Or.inl hcolon) h1 (.stop (h3.notNext (Nat.le_refl _) _)), ?_, ?_⟩
      · simp [ETree.json, ETree.jsonEntries, h2]
      · exact (h3.stopped (by simp)).up (by omega)
    | false =>
      rw [hs] at h3
      have := h3.done rfl
      subst this
      obtain ⟨ts, rest', h4, h5, h6⟩ := entries_salvage (blanks := blanks) hd true (depth + 1) es h.2.2 l2 rest hp2
        (fun l hl => Nat.lt_succ_of_le (hr l hl))
      refine ⟨.obj ((k, q, t) :: ts), rest', .object hnot (Or.inl hcolon) h1 h4, ?_, ?_⟩
      · simp [ETree.json, ETree.jsonEntries, h2, h5]
      · exact (h3.trans h6 (by simp)).up (by omega)
termination_by (sizeOf v, 3)

theorem items_salvage {blanks : List Nat} {d : Char} (hd : GoodDelim d) (base : Nat) (vs : List (Draft F)) (n : Nat)
    (h : Draft.ReadableItems vs) (ls rest : List Line) (hp : Proj ls (outs (Draft.itemsRows d (base + 1) vs))) (hr : RestLe base rest) :
    ∃ (ts : List (ETree F)) (rest' : List Line), ItemsMean false blanks n (base + 1) (ls ++ rest) ts rest' ∧
      ETree.jsonItems ts = Draft.salvagedItems n vs ∧ Left base (Draft.stopsItems n vs) (ls ++ rest) rest rest' := by
  match vs, h, n with
  | [], _, n =>
    rw [Draft.itemsRows] at hp
    rw [Proj.nil_iff.mp hp]
    refine ⟨[], rest, .stop (Or.inr (notNext_shallow (fun l hl => Nat.lt_succ_of_le (hr l hl)) _)), ?_, ?_⟩
    · cases n <;> simp [ETree.jsonItems, Draft.salvagedItems]
    · cases n <;> (simp only [Draft.stopsItems]; exact Left.ended [] rest)
  | v :: vs, _, 0 =>
    refine ⟨[], ls ++ rest, .stop (Or.inl rfl), ?_, ?_⟩
    · simp [ETree.jsonItems, Draft.salvagedItems]
    · simp only [Draft.stopsItems]
      refine ⟨⟨[], rfl⟩, fun h => absurd h (by simp), fun _ => ?_⟩
      obtain ⟨c, tl, hc⟩ := itemRows_cons d (base + 1) v
      rw [Draft.itemsRows, outs_append, hc] at hp
      obtain ⟨l, ls, rfl, hdep, _⟩ := Proj.cons hp
      exact ⟨l, ls ++ rest, rfl, by rw [hdep]; simp⟩
  | v :: vs, h, n + 1 =>
    simp only [Draft.ReadableItems] at h
    obtain ⟨c, tl, hc, hrun⟩ := item_salvage (blanks := blanks) hd (base + 1) v h.1
    rw [Draft.itemsRows, outs_append, hc, List.cons_append] at hp
    obtain ⟨l, ls, rfl, hdep, hcont, hp⟩ := Proj.cons hp
    obtain ⟨l1, l2, rfl, hp1, hp2⟩ := hp.split
    simp only at hdep hcont
    have hr2 : RestLe (base + 1) (l2 ++ rest) := itemsRows_head d (base + 1) vs hp2 (fun l hl => Nat.le_succ_of_le (hr l hl))
    obtain ⟨t, rest₁, h1, h2, h3⟩ := hrun l1 (l2 ++ rest) hp1 hr2
    rw [← hcont] at h1
    simp only [Draft.salvagedItems, Draft.stopsItems]
    rw [List.cons_append, List.append_assoc]
    cases hs : v.stops with
    | true =>
      rw [hs] at h3
      refine ⟨[t], rest₁, .item hdep h1 (.stop (Or.inr (h3.notNext (Nat.le_refl _) _))), ?_, ?_⟩
      · simp [ETree.jsonItems, h2]
      · exact ((h3.stopped (by simp)).up (by omega)).of_append [l]
    | false =>
      rw [hs] at h3
      have := h3.done rfl
      subst this
      obtain ⟨ts, rest', h4, h5, h6⟩ := items_salvage (blanks := blanks) hd base vs n h.2 l2 rest hp2 hr
      refine ⟨t :: ts, rest', .item hdep h1 h4, ?_, ?_⟩
      · simp [ETree.jsonItems, h2, h5]
      · exact ((h3.up (by omega)).trans h6 (by simp)).of_append [l]
termination_by (sizeOf vs, 0)
end

/-! ## The whole text -/

theorem document_salvage {blanks : List Nat} {d : Char} (hd : GoodDelim d) (v : Draft F) (h : v.Readable) {lines : List Line}
    (hp : Proj lines (outs (v.documentRows d))) :
    ∃ (t : ETree F) (rest' : List Line), DocumentMeans false blanks lines t rest' ∧ t.json = v.salvaged := by
  have nil : ∀ b, RestLe b [] := by intro b l hl; simp at hl
  have arr : v.isArray → v.documentRows d = v.entryRows d [] 0 1 →
      ∃ (t : ETree F) (rest' : List Line), DocumentMeans false blanks lines t rest' ∧ t.json = v.salvaged := by
    intro ha he
    rw [he, outs_entry] at hp
    obtain ⟨hdr, h1, h2, h3, h4⟩ := array_salvage (blanks := blanks) hd none 0 v h ha
    obtain ⟨l, ls, rfl, hdep, hcont, hp⟩ := Proj.cons hp
    obtain ⟨t, rest', h5, h6, h7⟩ := h4 ls [] hp (nil 0)
    rw [List.append_nil] at h5
    have hform : isArrayHeaderContent (v.text d) = true := by
      have header := fun n fields suffix => arrayHeader_none n fields hd suffix
      cases v with
      | prim p => exact absurd ha id
      | object es => exact absurd ha id
      | inline n ps => exact header n none _
      | table n cols rows => have := header n (some cols) []; rwa [List.append_nil] at this
      | list n items => have := header n none []; rwa [List.append_nil] at this
    obtain ⟨hv, hc⟩ := (isArrayHeaderContent_iff _).mp hform
    simp only [List.nil_append] at hcont
    simp only [keyText, List.nil_append] at h1
    exact ⟨t, rest', .array (by rw [hcont]; exact hv) (by rw [hcont]; exact hc) (by rw [hcont]; exact h1) h5, h6⟩
  cases v with
  | prim p =>
    simp only [Draft.Readable] at h
    have hw : Writable true (Json.prim p) := by simp [Writable]
    have hn : Normal (Json.prim p) := by simpa only [Normal] using plain_norm h
    have hp' : Proj lines (encodeValue { indent := 2, delim := d, fold := false, flattenDepth := 0 } (.prim p)) := by
      have ht := encodePrimitive_tok hd p
      rw [Draft.documentRows, tokenText_eq] at hp
      simp only [encodeValue]
      rw [if_neg (by simpa using ht.ne_nil)]
      exact hp
    have key := decodeLines_written (ctx := ⟨false, []⟩) rfl (by exact hd) hw hn hp'
    obtain ⟨t, rest', h1, h2⟩ := decodeLines_sound ⟨false, []⟩ lines _ key
    have : t = .prim p := events_inj (by rw [← h2]; rfl)
    subst this
    refine ⟨.prim p, rest', ?_, by simp only [ETree.json, Draft.salvaged]⟩
    cases h1 with
    | prim h1 h2 => exact .prim h1 h2
    | array _ _ _ h4 => cases h4
  | inline n ps => exact arr trivial rfl
  | table n cols rows => exact arr trivial rfl
  | list n items => exact arr trivial rfl
  | object es =>
    simp only [Draft.Readable] at h
    rw [Draft.documentRows] at hp
    obtain ⟨ts, rest', h1, h2, h3⟩ := entries_salvage (blanks := blanks) hd false 0 es h lines [] hp (by intro l hl; simp at hl)
    rw [List.append_nil] at h1
    cases es with
    | nil =>
      rw [Draft.entriesRows] at hp
      rw [Proj.nil_iff.mp hp]
      exact ⟨.obj [], [], .empty, by simp [ETree.json, ETree.jsonEntries, Draft.salvaged, Draft.salvagedEntries]⟩
    | cons e es =>
      obtain ⟨k, v⟩ := e
      rw [Draft.entriesRows, outs_append, outs_entry, keyTextOf_eq] at hp
      obtain ⟨l, ls, rfl, hdep, hcont, hp⟩ := Proj.cons hp
      simp only at hcont
      cases h1 with
      | stop hn => exact absurd (nextIs_cons.mpr ⟨hdep, by simp⟩) hn
      | entry h4 h5 h6 h7 =>
        refine ⟨_, rest', .object ?_ h6 h7, by simp only [ETree.json, Draft.salvaged, h2]⟩
        intro hv hc
        have := (isArrayHeaderContent_iff _).mpr ⟨hv, hc⟩
        rw [hcont, (keyLine_text hd k v).arr] at this
        exact absurd this (by simp)

theorem text_salvage {indent : Nat} (hi : 0 < indent) {d : Char} (hd : GoodDelim d) (v : Draft F) (h : v.Readable) :
    ∃ t : ETree F, TextMeans indent false (splitOn '\n' (v.written indent d)) t ∧ t.json = v.salvaged := by
  obtain ⟨lines, h1, h2⟩ := parseLines_render hi false (outs (v.documentRows d)) (linesOk_document hd h) 0
  have he : (outs (v.documentRows d)).map (renderLine indent) = (v.documentRows d).map (rowText indent) := by
    rw [outs, List.map_map]; rfl
  rw [he] at h1
  obtain ⟨t, rest', h3, h4⟩ := document_salvage (blanks := []) hd v h h2
  rw [Draft.written, separated_eq]
  cases hr : (v.documentRows d).map (rowText indent) with
  | nil =>
    rw [hr] at h1
    simp only [parseLines, Except.ok.injEq, Prod.mk.injEq] at h1
    obtain ⟨rfl, _⟩ := h1
    refine ⟨t, ⟨[], [1], rest', ?_, ?_⟩, h4⟩
    · exact .blank (by intro c hc; simp at hc) (.nil _)
    · cases h3; exact .empty
  | cons l ls =>
    rw [splitOn_joinWith (by simp), ← hr]
    · exact ⟨t, ⟨lines, [], rest', (scansTo_iff _ _ _ _ _ _).mp h1, h3⟩, h4⟩
    · intro x hx
      rw [← hr] at hx
      obtain ⟨r, hm, rfl⟩ := List.mem_map.mp hx
      have := linesOk_document hd h ⟨r.1, r.2⟩ (by rw [outs]; exact List.mem_map_of_mem hm)
      exact renderLine_lf (indent := indent) (l := ⟨r.1, r.2⟩) this

end

/-! ## Nothing surplus -/

section
variable {F : Type}

theorem paddedCells_full {cols : List Str} {row : List (Prim F)} (h : row.length = cols.length) :
    Json.obj (paddedCells cols row) = rowObject cols row := by
  have : ∀ (cols : List Str) (row : List (Prim F)), row.length = cols.length →
      paddedCells cols row = (cols.zip row).map fun c => (c.1, .prim c.2) := by
    intro cols
    induction cols with
    | nil => intro row _; cases row <;> rfl
    | cons c cols ih =>
      intro row h
      cases row with
      | nil => simp at h
      | cons p row => simp only [paddedCells, List.zip_cons_cons, List.map_cons]; rw [ih row (by simpa using h)]
  rw [rowObject, this cols row h]

mutual
theorem modest_value (D : Draft F) (h : D.Modest) : D.stops = false ∧ D.salvaged = D.value := by
  match D, h with
  | .prim p, _ => simp [Draft.stops, Draft.salvaged, Draft.value]
  | .inline n ps, _ => simp [Draft.stops, Draft.salvaged, Draft.value]
  | .table n cols rows, h =>
    simp only [Draft.Modest] at h
    simp only [Draft.stops, Draft.salvaged, Draft.value, decide_eq_false_iff_not, Nat.not_lt]
    refine ⟨h.1, ?_⟩
    rw [List.take_of_length_le h.1]
    congr 1
    exact List.map_congr_left fun row hr => paddedCells_full (h.2 row hr)
  | .list n items, h =>
    simp only [Draft.Modest] at h
    obtain ⟨h1, h2⟩ := modest_items items n h.2 h.1
    simp only [Draft.stops, Draft.salvaged, Draft.value, h1, h2, and_self]
  | .object es, h =>
    simp only [Draft.Modest] at h
    obtain ⟨h1, h2⟩ := modest_entries es h
    simp only [Draft.stops, Draft.salvaged, Draft.value, h1, h2, and_self]
theorem modest_items (vs : List (Draft F)) (n : Nat) (h : Draft.ModestItems vs) (hn : vs.length ≤ n) :
    Draft.stopsItems n vs = false ∧ Draft.salvagedItems n vs = Draft.values vs := by
  match vs, n, h, hn with
  | [], n, _, _ => cases n <;> simp [Draft.stopsItems, Draft.salvagedItems, Draft.values]
  | v :: vs, 0, _, hn => simp at hn
  | v :: vs, n + 1, h, hn =>
    simp only [Draft.ModestItems] at h
    obtain ⟨h1, h2⟩ := modest_value v h.1
    obtain ⟨h3, h4⟩ := modest_items vs n h.2 (by simpa using hn)
    simp [Draft.stopsItems, Draft.salvagedItems, Draft.values, h1, h2, h3, h4]
theorem modest_entries (es : List (Str × Draft F)) (h : Draft.ModestEntries es) :
    Draft.stopsEntries es = false ∧ Draft.salvagedEntries es = Draft.valueEntries es := by
  match es, h with
  | [], _ => simp [Draft.stopsEntries, Draft.salvagedEntries, Draft.valueEntries]
  | (k, v) :: es, h =>
    simp only [Draft.ModestEntries] at h
    obtain ⟨h1, h2⟩ := modest_value v h.1
    obtain ⟨h3, h4⟩ := modest_entries es h.2
    simp [Draft.stopsEntries, Draft.salvagedEntries, Draft.valueEntries, h1, h2, h3, h4]
end

theorem modestItems_iff (vs : List (Draft F)) : Draft.ModestItems vs ↔ ∀ v ∈ vs, v.Modest := by
  induction vs with
  | nil => simp [Draft.ModestItems]
  | cons v vs ih => simp [Draft.ModestItems, ih]

theorem modestEntries_iff (es : List (Str × Draft F)) : Draft.ModestEntries es ↔ ∀ e ∈ es, e.2.Modest := by
  induction es with
  | nil => simp [Draft.ModestEntries]
  | cons e es ih => obtain ⟨k, v⟩ := e; simp [Draft.ModestEntries, ih]

mutual
theorem Draft.Honest.modest {D : Draft F} (h : D.Honest) : D.Modest := by
  match D, h with
  | .prim p, _ => simp [Draft.Modest]
  | .inline n ps, _ => simp [Draft.Modest]
  | .table n cols rows, h =>
    simp only [Draft.Honest] at h
    simp only [Draft.Modest]
    exact ⟨by omega, h.2⟩
  | .list n items, h =>
    simp only [Draft.Honest] at h
    simp only [Draft.Modest]
    exact ⟨by omega, honestItems_modest h.2⟩
  | .object es, h =>
    simp only [Draft.Honest] at h
    simp only [Draft.Modest]
    exact honestEntries_modest h
theorem honestItems_modest {vs : List (Draft F)} (h : Draft.HonestItems vs) : Draft.ModestItems vs := by
  match vs, h with
  | [], _ => simp [Draft.ModestItems]
  | v :: vs, h =>
    simp only [Draft.HonestItems] at h
    simp only [Draft.ModestItems]
    exact ⟨h.1.modest, honestItems_modest h.2⟩
theorem honestEntries_modest {es : List (Str × Draft F)} (h : Draft.HonestEntries es) : Draft.ModestEntries es := by
  match es, h with
  | [], _ => simp [Draft.ModestEntries]
  | (k, v) :: es, h =>
    simp only [Draft.HonestEntries] at h
    simp only [Draft.ModestEntries]
    exact ⟨h.1.modest, honestEntries_modest h.2⟩
end

theorem Draft.Loses.modest {a b : Draft F} (h : a.Loses b) (ha : a.Modest) : b.Modest := by
  induction h with
  | inline _ _ => simp [Draft.Modest]
  | table h1 _ =>
    simp only [Draft.Modest] at ha ⊢
    exact ⟨Nat.le_trans h1.length_le ha.1, fun row hr => ha.2 row (h1.subset hr)⟩
  | list h1 _ =>
    simp only [Draft.Modest, modestItems_iff] at ha ⊢
    exact ⟨Nat.le_trans h1.length_le ha.1, fun v hv => ha.2 v (h1.subset hv)⟩
  | item h1 ih =>
    simp only [Draft.Modest, modestItems_iff] at ha ⊢
    refine ⟨by simpa using ha.1, fun x hx => ?_⟩
    rcases List.mem_append.mp hx with hx | hx
    · exact ha.2 x (by simp [hx])
    · rcases List.mem_cons.mp hx with rfl | hx
      · exact ih (ha.2 _ (by simp))
      · exact ha.2 x (by simp [hx])
  | @entry pre post k v w h1 ih =>
    simp only [Draft.Modest, modestEntries_iff] at ha ⊢
    intro x hx
    rcases List.mem_append.mp hx with hx | hx
    · exact ha x (by simp [hx])
    · rcases List.mem_cons.mp hx with rfl | hx
      · exact ih (ha (k, v) (by simp))
      · exact ha x (by simp [hx])

theorem salvagedEntries_stop (pre post : List (Str × Draft F)) (k : Str) (v : Draft F) (hs : v.stops = true) :
    Draft.salvagedEntries (pre ++ (k, v) :: post) = Draft.salvagedEntries (pre ++ [(k, v)]) := by
  induction pre with
  | nil => simp [Draft.salvagedEntries, hs]
  | cons e pre ih =>
    obtain ⟨k', v'⟩ := e
    simp only [List.cons_append, Draft.salvagedEntries, ih]

end

end Toon
