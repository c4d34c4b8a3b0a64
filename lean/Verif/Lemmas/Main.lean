import Verif.Lemmas.Written

/-! Arrays, and the induction over values: the decoder reads what the encoder writes. -/

namespace Toon

section
variable {F : Type} [F64 F]

omit [F64 F] in
theorem emitItems_prims (ps : List (Prim F)) : emitItems (ps.map Json.prim) = ps.map Ev.prim := by
  induction ps with
  | nil => rfl
  | cons p ps ih => simp only [List.map_cons, emitItems, emitEvents, ih, List.cons_append, List.nil_append]

theorem checkBlanks_nil {ctx : Ctx} (hb : ctx.blanks = []) (table : Bool) (s e : Option Nat) : checkBlanks ctx table s e = .ok () := by
  unfold checkBlanks noBlankInRange
  split <;> simp [hb]

theorem assertCount_self (n : Nat) (what : Counted) (b : Bool) : assertCount n n what b = .ok () := by simp [assertCount]

theorem noExtraItems_le {rest : List Line} {d : Nat} (h : RestLe d rest) (n : Nat) (b : Bool) :
    noExtraItems rest.head? (d + 1) n b = .ok () := by
  unfold noExtraItems
  split
  · rfl
  · rename_i l hl
    have := h l hl
    rw [if_neg]
    simp; omega

theorem noExtraRows_le {rest : List Line} {d : Nat} (h : RestLe d rest) (n : Nat) (c : Char) (b : Bool) :
    noExtraRows rest.head? (d + 1) n c b = .ok () := by
  unfold noExtraRows
  split
  · rfl
  · rename_i l hl
    have := h l hl
    rw [if_neg]
    simp; omega

/-! ## Arrays -/

theorem arrSpec_list {ctx : Ctx} (hb : ctx.blanks = []) {base : Nat} {d : Char} (hd : GoodDelim d) {key : Option Str}
    {items : List (Json F)} {tl : List OutLine} (hn : items.length ≤ maxDeclaredLength)
    (h : ItemList ctx (base + 1) tl items) : ArrSpec ctx base (formatHeader items.length key none d) tl key items := by
  refine ⟨⟨_, _, _, [], hd, (List.append_nil _).symm⟩, ?_⟩
  have hp := parseHeader_format hn key (fields := none) hd (by simp) []
  rw [List.append_nil] at hp
  refine ⟨_, hp, rfl, rfl, ?_⟩
  intro ls rest last fuel hpj hr hf
  obtain ⟨f, rfl⟩ : ∃ f, fuel = f + 1 := ⟨fuel - 1, by omega⟩
  obtain ⟨last', s', e', hl⟩ := h.loop ls rest last f items.length 0 none none hpj (hr.mono (by omega)) (by omega) (by omega)
  refine ⟨last', ?_⟩
  rw [decodeArray]
  rw [show (trim []).isEmpty = true by decide]
  simp only [if_true, readFields, Option.map_none, Option.getD_none, List.isEmpty_nil]
  simp only [hl, bind, Except.bind, assertCount_self, checkBlanks_nil hb, noExtraItems_le hr, pure, Except.pure, emitEvents]

theorem arrSpec_inline [LawfulF64 F] {ctx : Ctx} (hb : ctx.blanks = []) {base : Nat} {d : Char} (hd : GoodDelim d)
    {key : Option Str} {items : List (Json F)} (hn : items.length ≤ maxDeclaredLength)
    (hp : isArrayOfPrims items = true) (hnm : NormalItems items) :
    ArrSpec ctx base (encodeInlineArrayLine items d key) [] key items := by
  unfold encodeInlineArrayLine
  simp only
  have hall := primsOf_all hp
  split
  · rename_i he
    have he : primsOf items = [] := by simpa using he
    have : items = [] := by rw [hall, he]; rfl
    subst this
    exact arrSpec_list hb hd hn ItemList.nil
  · rename_i he
    have he : primsOf items ≠ [] := by simpa using he
    have htok : ∀ t ∈ (primsOf items).map (encodePrimitive · d), TokForm d t := by
      intro t ht
      obtain ⟨p, _, rfl⟩ := List.mem_map.mp ht
      exact encodePrimitive_tok hd p
    have hedge : NoEdgeWs (encodeAndJoin (primsOf items) d) :=
      joinWith_noEdgeWs fun t ht => ⟨(htok t ht).ne_nil, (htok t ht).edge⟩
    have hne : encodeAndJoin (primsOf items) d ≠ [] :=
      joinWith_ne_nil (by simpa using he) fun t ht => (htok t ht).ne_nil
    refine ⟨⟨_, _, _, _, hd, rfl⟩, ?_⟩
    have hpr := parseHeader_format hn key (fields := none) hd (by simp) (' ' :: encodeAndJoin (primsOf items) d)
    refine ⟨_, hpr, rfl, rfl, ?_⟩
    intro ls rest last fuel hpj hr hf
    rw [Proj.nil_iff.mp hpj]
    obtain ⟨f, rfl⟩ : ∃ f, fuel = f + 1 := ⟨fuel - 1, by omega⟩
    refine ⟨last, ?_⟩
    rw [decodeArray, trim_space_cons hedge]
    have h0 : (encodeAndJoin (primsOf items) d).isEmpty = false := by simpa using hne
    simp only [h0, Bool.false_eq_true, if_false]
    unfold decodeInline
    rw [trim_eq_self hedge, if_neg (by simp [h0])]
    simp only [encodeAndJoin]
    rw [parseDelimited_join hd _ (by simpa using he) htok]
    simp only [mapRowValues_encode _ (normal_primsOf hnm), bind, Except.bind]
    have hlen : (primsOf items).length = items.length := by conv => rhs; rw [hall]; simp
    simp only [hlen, assertCount_self, pure, Except.pure, List.nil_append]
    conv => rhs; rw [hall]
    simp only [emitEvents, emitItems_prims, List.length_map, hlen]

/-! ### Tables -/

omit [F64 F] in
theorem fieldEvents_zip (cols : List Str) (ps : List (Prim F)) (h : ps.length = cols.length) :
    fieldEvents (cols.map fun f => ⟨f, !isValidUnquotedKey f⟩) ps = emitEntries (zipRow cols ps) := by
  induction cols generalizing ps with
  | nil => cases ps <;> simp [fieldEvents, zipRow, emitEntries]
  | cons c cols ih =>
    cases ps with
    | nil => simp at h
    | cons p ps =>
      simp only [List.length_cons, Nat.add_right_cancel_iff] at h
      simp only [List.map_cons, fieldEvents, zipRow, emitEntries, emitEvents, ih ps h, List.cons_append, List.nil_append]

theorem tabularLoop_rows [LawfulF64 F] {ctx : Ctx} {d : Char} (hd : GoodDelim d) {cols : List Str} (hc : cols ≠ [])
    {depth : Nat} (rows : List (List (Prim F))) (hl : ∀ ps ∈ rows, ps.length = cols.length)
    (hnm : ∀ ps ∈ rows, ∀ p ∈ ps, normPrim p = p) :
    ∀ (ls rest : List Line) last length count start e,
      Proj ls (rows.map fun ps => ⟨depth, encodeAndJoin ps d⟩) → length = count + rows.length →
      ∃ last' start' e', tabularLoop ctx (cols.map fun f => ⟨f, !isValidUnquotedKey f⟩) d length depth (ls ++ rest) last
        count start e =
        .ok ⟨emitItems (rows.map fun ps => .obj (zipRow cols ps)), ⟨rest, last'⟩, length, start', e'⟩ := by
  induction rows with
  | nil =>
    intro ls rest last length count start e hp hlen
    rw [Proj.nil_iff.mp hp]
    simp at hlen
    subst hlen
    refine ⟨last, start, e, ?_⟩
    cases rest with
    | nil => simp [tabularLoop, emitItems]
    | cons l rest => simp [tabularLoop, emitItems]
  | cons ps rows ih =>
    intro ls rest last length count start e hp hlen
    rw [List.map_cons] at hp
    obtain ⟨l, ls', rfl, hdep, hcont, hp⟩ := Proj.cons hp
    simp only [List.length_cons] at hlen
    have hps : ps.length = cols.length := hl ps (by simp)
    have hne : ps ≠ [] := by
      intro h; subst h; simp at hps; exact hc (List.length_eq_zero_iff.mp hps.symm)
    have htok : ∀ t ∈ ps.map (encodePrimitive · d), TokForm d t := by
      intro t ht
      obtain ⟨p, _, rfl⟩ := List.mem_map.mp ht
      exact encodePrimitive_tok hd p
    obtain ⟨last2, s2, n2, e2⟩ := ih (fun ps h => hl ps (by simp [h])) (fun ps h => hnm ps (by simp [h]))
      ls' rest (some l) length (count + 1)
      (match (generalizing := false) start with
        | none => some l.num
        | some s => some s) (some l.num) hp (by omega)
    refine ⟨last2, s2, n2, ?_⟩
    rw [List.cons_append, tabularLoop.eq_def]
    simp only [hdep, hcont, Nat.lt_irrefl, if_false, if_true, show count < length by omega]
    have hval : parseDelimitedValues (encodeAndJoin ps d) d = ps.map (encodePrimitive · d) :=
      parseDelimited_join hd _ (by simpa using hne) htok
    rw [hval]
    simp only [List.length_map, hps, assertCount_self, bind, Except.bind,
      mapRowValues_encode ps (hnm ps (by simp))]
    cases start <;>
      (simp only at e2 ⊢; rw [e2]
       simp only [pure, Except.pure, emitItems, emitEvents, List.map_cons, fieldEvents_zip cols ps hps,
         List.cons_append, List.append_assoc, List.nil_append])

omit [F64 F] in
theorem rowPrims_ok {entries : List (Str × Json F)} {cols : List Str}
    (h : cols.all (fun key => match objGet entries key with
      | some v => v.isPrim
      | none => false) = true) :
    ∃ ps, rowPrims entries cols = .ok ps ∧ ps.length = cols.length ∧
      ∀ p ∈ ps, ∃ c ∈ cols, objGet entries c = some (.prim p) := by
  induction cols with
  | nil => exact ⟨[], rfl, rfl, by simp⟩
  | cons c cols ih =>
    simp only [List.all_cons, Bool.and_eq_true] at h
    obtain ⟨ps, h1, h2, h3⟩ := ih h.2
    have hc := h.1
    rw [rowPrims]
    cases hg : objGet entries c with
    | none => simp [hg] at hc
    | some v =>
      rw [hg] at hc
      cases v with
      | prim p =>
        refine ⟨p :: ps, by simp [h1], by simp [h2], ?_⟩
        intro q hq
        rcases List.mem_cons.mp hq with rfl | hq
        · exact ⟨c, by simp, hg⟩
        · obtain ⟨c', hc', hg'⟩ := h3 q hq
          exact ⟨c', by simp [hc'], hg'⟩
      | arr _ => simp [Json.isPrim] at hc
      | obj _ => simp [Json.isPrim] at hc

/-- The rows of a table as lists of primitives. -/
def rowsOf (items : List (Json F)) (cols : List Str) : List (List (Prim F)) :=
  items.filterMap fun row =>
    match row with
    | .obj entries => some (rowValues entries cols)
    | _ => none

theorem tabularRows_eq (items : List (Json F)) (cols : List Str) (depth : Nat) (d : Char) :
    tabularRows items cols depth d = (rowsOf items cols).map fun ps => ⟨depth, encodeAndJoin ps d⟩ := by
  unfold tabularRows rowsOf
  induction items with
  | nil => rfl
  | cons v vs ih => cases v <;> simp [ih]

omit [F64 F] in
theorem tableRows_eq (items : List (Json F)) (cols : List Str) :
    tableRows items cols = (rowsOf items cols).map fun ps => .obj (zipRow cols ps) := by
  unfold tableRows rowsOf
  induction items with
  | nil => rfl
  | cons v vs ih => cases v <;> simp [ih]

theorem rowsOf_spec {items : List (Json F)} {cols : List Str} (h : isTabularArray items cols = true)
    (hn : NormalItems items) :
    (rowsOf items cols).length = items.length ∧
    (∀ ps ∈ rowsOf items cols, ps.length = cols.length) ∧
    (∀ ps ∈ rowsOf items cols, ∀ p ∈ ps, normPrim p = p) := by
  induction items with
  | nil => simp [rowsOf]
  | cons v vs ih =>
    simp only [isTabularArray, List.all_cons, Bool.and_eq_true] at h
    simp only [NormalItems] at hn
    obtain ⟨i1, i2, i3⟩ := ih h.2 hn.2
    cases v with
    | prim _ => simp [isTabularRow] at h
    | arr _ => simp [isTabularRow] at h
    | obj es =>
      have h1 := h.1
      simp only [isTabularRow, Bool.and_eq_true] at h1
      obtain ⟨ps, e1, e2, e3⟩ := rowPrims_ok h1.2
      have hr : rowsOf (.obj es :: vs) cols = ps :: rowsOf vs cols := by
        simp [rowsOf, rowValues, e1]
      rw [hr]
      refine ⟨by simp [i1], ?_, ?_⟩
      · intro qs hqs
        rcases List.mem_cons.mp hqs with rfl | hqs
        · exact e2
        · exact i2 qs hqs
      · intro qs hqs
        rcases List.mem_cons.mp hqs with rfl | hqs
        · intro p hp
          obtain ⟨c, _, hg⟩ := e3 p hp
          have := normalEntries_get (by simpa only [Normal] using hn.1) hg
          simpa only [Normal] using this
        · exact i3 qs hqs

omit [F64 F] in
theorem tableHeader_some {items : List (Json F)} {cols : List Str} (h : tableHeader items = some cols) :
    cols ≠ [] ∧ isTabularArray items cols = true ∧ ∃ es rest, items = .obj es :: rest ∧ es.map Prod.fst = cols := by
  unfold tableHeader at h
  split at h
  · unfold extractTabularHeader at h
    split at h
    · rename_i first rest _
      split at h
      · contradiction
      · rename_i hne
        simp only at h
        split at h
        · rename_i ht
          simp only [Option.some.injEq] at h
          subst h
          refine ⟨by simpa using hne, ht, first, rest, rfl, rfl⟩
        · contradiction
    · contradiction
  · contradiction

omit [F64 F] in
theorem lookupKey_eq (k : Str) (es : List (Str × Json F)) : lookupKey k es = objGet es k := by
  induction es with
  | nil => rfl
  | cons e es ih => obtain ⟨k', v⟩ := e; simp [lookupKey, objGet, ih]

omit [F64 F] in
theorem isTable_of_header {items : List (Json F)} {cols : List Str} (h : tableHeader items = some cols) :
    IsTable items cols := by
  obtain ⟨h1, h2, h3⟩ := tableHeader_some h
  refine ⟨h1, h3, ?_⟩
  intro item hi
  have := List.all_eq_true.mp h2 item hi
  cases item with
  | prim _ => simp [isTabularRow] at this
  | arr _ => simp [isTabularRow] at this
  | obj es =>
    simp only [isTabularRow, Bool.and_eq_true, beq_iff_eq] at this
    refine ⟨es, rfl, this.1, ?_⟩
    intro c hc
    have := List.all_eq_true.mp this.2 c hc
    rw [lookupKey_eq]
    cases hg : objGet es c with
    | none => simp [hg] at this
    | some v =>
      rw [hg] at this
      cases v with
      | prim p => exact ⟨p, rfl⟩
      | arr _ => simp [Json.isPrim] at this
      | obj _ => simp [Json.isPrim] at this

omit [F64 F] in
theorem header_of_isTable {items : List (Json F)} {cols : List Str} (h : IsTable items cols) :
    tableHeader items = some cols := by
  obtain ⟨h1, ⟨es, rest, rfl, rfl⟩, h3⟩ := h
  have hobj : isArrayOfObjs (.obj es :: rest) = true := by
    apply List.all_eq_true.mpr
    intro v hv
    obtain ⟨es', rfl, _⟩ := h3 v hv
    rfl
  have htab : isTabularArray (.obj es :: rest) (es.map Prod.fst) = true := by
    apply List.all_eq_true.mpr
    intro v hv
    obtain ⟨es', rfl, hl, hk⟩ := h3 v hv
    simp only [isTabularRow, Bool.and_eq_true, beq_iff_eq]
    refine ⟨hl, List.all_eq_true.mpr ?_⟩
    intro c hc
    obtain ⟨p, hp⟩ := hk c hc
    rw [lookupKey_eq] at hp
    simp [hp, Json.isPrim]
  unfold tableHeader extractTabularHeader
  rw [if_pos hobj]
  simp only [htab, if_true]
  rw [if_neg (by simpa using h1)]

theorem arrSpec_table [LawfulF64 F] {ctx : Ctx} (hb : ctx.blanks = []) {base : Nat} {d : Char} (hd : GoodDelim d)
    {key : Option Str} {items : List (Json F)} {cols : List Str} (hn : items.length ≤ maxDeclaredLength)
    (ht : tableHeader items = some cols) (hbr : ∀ c ∈ cols, '}' ∉ c) (hnm : NormalItems items) :
    ArrSpec ctx base (formatHeader items.length key (some cols) d) (tabularRows items cols (base + 1) d) key
      (tableRows items cols) := by
  obtain ⟨hc, htab, _⟩ := tableHeader_some ht
  obtain ⟨r1, r2, r3⟩ := rowsOf_spec htab hnm
  refine ⟨⟨_, _, _, [], hd, (List.append_nil _).symm⟩, ?_⟩
  have hp := parseHeader_format hn key (fields := some cols) hd (by intro fs h; simp at h; subst h; exact ⟨hc, hbr⟩) []
  rw [List.append_nil] at hp
  refine ⟨_, hp, rfl, rfl, ?_⟩
  intro ls rest last fuel hpj hr hf
  obtain ⟨f, rfl⟩ : ∃ f, fuel = f + 1 := ⟨fuel - 1, by omega⟩
  rw [tabularRows_eq] at hpj
  obtain ⟨last', s', e', hl⟩ := tabularLoop_rows (ctx := ctx) hd hc (rowsOf items cols) r2 r3 ls rest last
    items.length 0 none none hpj (by omega)
  refine ⟨last', ?_⟩
  rw [decodeArray]
  rw [show (trim []).isEmpty = true by decide]
  have hf0 : ((readFields (some cols)).getD []) = cols.map fun f => ⟨f, !isValidUnquotedKey f⟩ := rfl
  simp only [if_true, hf0]
  rw [if_neg (by simpa using hc)]
  unfold decodeTabular
  simp only [hl, bind, Except.bind, assertCount_self, checkBlanks_nil hb, noExtraRows_le hr, pure, Except.pure,
    emitEvents, tableRows_eq, List.length_map, r1]

/-! ## Folding -/

/-- A value may be written under the key. -/
def EntryOk (k : Str) (v : Json F) : Prop :=
  (∀ s, v = .prim (.str s) → isValidUnquotedKey k = true → headerLike s = false) ∧ Writable true v ∧ Normal v

omit [F64 F] in
theorem identifier_valid {s : Str} (h : isIdentifierSegment s = true) : isValidUnquotedKey s = true := by
  cases s with
  | nil => simp [isIdentifierSegment] at h
  | cons c r =>
    simp only [isIdentifierSegment, Bool.and_eq_true, List.all_eq_true] at h
    simp only [isValidUnquotedKey, Bool.and_eq_true, List.all_eq_true]
    refine ⟨h.1, fun ch hch => ?_⟩
    have := h.2 ch hch
    simp only [Bool.or_eq_true] at this ⊢
    exact Or.inl this

theorem collectChain_ok (budget : Nat) (v : Json F) (hs : ∀ s, v = .prim (.str s) → headerLike s = false)
    (hw : Writable true v) (hn : Normal v) (hseg : ∀ s ∈ (collectChain budget v).1, isIdentifierSegment s = true) :
    (∀ s, (collectChain budget v).2 = .prim (.str s) → headerLike s = false) ∧
      Writable true (collectChain budget v).2 ∧ Normal (collectChain budget v).2 := by
  fun_induction collectChain budget v with
  | case1 v => exact ⟨hs, hw, hn⟩
  | case2 budget k v segs leaf hc ih =>
    simp only [hc] at ih hseg ⊢
    simp only [Writable, WritableEntries] at hw
    simp only [Normal, NormalEntries] at hn
    apply ih
    · intro s hv
      exact hw.1 s hv (by rw [bareKey_eq]; exact identifier_valid (hseg k (by simp)))
    · exact hw.2.1
    · exact hn.1
    · intro s hs'
      exact hseg s (by simp [hs'])
  | case3 => exact ⟨hs, hw, hn⟩

omit [F64 F] in
theorem tryFold_some {key : Str} {value : Json F} {siblings : List Str} {opts : EncOpts}
    {rlk : Option (List Str)} {pp : Option Str} {fd : Nat} {r : FoldResult F}
    (h : tryFold key value siblings opts rlk pp fd = some r) :
    opts.fold = true ∧ value.isObj = true ∧ 2 ≤ fd ∧
    (∀ s ∈ key :: (collectChain (fd - 1) value).1, isIdentifierSegment s = true) ∧
    (collectChain (fd - 1) value).1 ≠ [] ∧
    r.foldedKey = joinWith '.' (key :: (collectChain (fd - 1) value).1) ∧
    r.leaf = (collectChain (fd - 1) value).2 ∧
    r.segmentCount = (collectChain (fd - 1) value).1.length + 1 ∧
    r.foldedKey ∉ siblings ∧
    (∀ ks, rlk = some ks → extendPath pp r.foldedKey ∉ ks) := by
  unfold tryFold at h
  simp only at h
  split at h; contradiction
  split at h; contradiction
  split at h; contradiction
  split at h; contradiction
  split at h; contradiction
  split at h; contradiction
  rename_i h1 h2 h3 h4 h5 h6
  have hr : r = ⟨joinWith '.' (key :: (collectChain (fd - 1) value).1), (collectChain (fd - 1) value).2,
      (key :: (collectChain (fd - 1) value).1).length⟩ ∧
      (∀ ks, rlk = some ks → extendPath pp (joinWith '.' (key :: (collectChain (fd - 1) value).1)) ∉ ks) := by
    split at h
    · split at h
      · contradiction
      · rename_i hk
        simp only [Option.some.injEq] at h
        exact ⟨h.symm, fun ks' hks' => by simp only [Option.some.injEq] at hks'; subst hks'; simpa using hk⟩
    · simp only [Option.some.injEq] at h
      exact ⟨h.symm, fun ks' hks' => by simp at hks'⟩
  obtain ⟨rfl, hrl⟩ := hr
  refine ⟨by simpa using h1, by simpa using h2, by omega, ?_, ?_, rfl, rfl, rfl, by simpa using h6, hrl⟩
  · simpa using h5
  · intro he
    rw [he] at h4
    simp at h4

theorem fold_ok {key : Str} {value : Json F} {siblings : List Str} {opts : EncOpts}
    {rlk : Option (List Str)} {pp : Option Str} {fd : Nat} {r : FoldResult F}
    (h : tryFold key value siblings opts rlk pp fd = some r) (hv : EntryOk key value) :
    EntryOk r.foldedKey r.leaf := by
  obtain ⟨_, ho, _, hseg, hne, _, hleaf, _⟩ := tryFold_some h
  obtain ⟨h1, h2, h3⟩ := hv
  have := collectChain_ok (fd - 1) value (by intro s hs; rw [hs] at ho; simp [Json.isObj] at ho) h2 h3
    (fun s hs => hseg s (by simp [hs]))
  rw [hleaf]
  exact ⟨fun s hs _ => this.1 s hs, this.2.1, this.2.2⟩

/-! ## The induction -/

mutual
theorem object_kvList [LawfulF64 F] {ctx : Ctx} (hb : ctx.blanks = []) {opts : EncOpts} (hd : GoodDelim opts.delim)
    (entries : List (Str × Json F)) (depth : Nat) (rlk : Option (List Str)) (pp : Option Str) (rem : Option Nat)
    (hw : WritableEntries entries) (hn : NormalEntries entries) :
    KVList ctx depth (encodeObject opts entries depth rlk pp rem) (shapeObject opts entries depth rlk pp rem) := by
  rw [encodeObject, shapeObject]
  exact entries_kvList hb hd _ _ _ _ entries depth hw hn
termination_by (sizeOf entries, 3)

theorem entries_kvList [LawfulF64 F] {ctx : Ctx} (hb : ctx.blanks = []) {opts : EncOpts} (hd : GoodDelim opts.delim)
    (siblings : List Str) (rlk : Option (List Str)) (pp : Option Str) (fd : Nat)
    (entries : List (Str × Json F)) (depth : Nat) (hw : WritableEntries entries) (hn : NormalEntries entries) :
    KVList ctx depth (encodeEntries opts siblings rlk pp fd entries depth)
      (shapeEntries opts siblings rlk pp fd entries depth) := by
  match entries, hw, hn with
  | [], _, _ => rw [encodeEntries, shapeEntries]; exact KVList.nil
  | (k, v) :: rest, hw, hn =>
    simp only [WritableEntries] at hw
    simp only [NormalEntries] at hn
    rw [encodeEntries, shapeEntries]
    obtain ⟨c, tl, hl, hs⟩ := keyValue_spec hb hd siblings rlk pp fd k v depth
      ⟨fun s hs hv => hw.1 s hs (by rw [bareKey_eq]; exact hv), hw.2.1, hn.1⟩
    rw [hl]
    exact KVList.cons hs (entries_kvList hb hd siblings rlk pp fd rest depth hw.2.2 hn.2)
termination_by (sizeOf entries, 2)

theorem keyValue_spec [LawfulF64 F] {ctx : Ctx} (hb : ctx.blanks = []) {opts : EncOpts} (hd : GoodDelim opts.delim)
    (siblings : List Str) (rlk : Option (List Str)) (pp : Option Str) (fd : Nat)
    (key : Str) (value : Json F) (depth : Nat) (hv : EntryOk key value) :
    ∃ c tl, encodeKeyValue opts siblings rlk pp fd key value depth = ⟨depth, c⟩ :: tl ∧
      KVSpec ctx depth c tl (shapeKeyValue opts siblings rlk pp fd key value depth).1
        (shapeKeyValue opts siblings rlk pp fd key value depth).2 := by
  rw [encodeKeyValue_eq, shapeKeyValue_eq]
  cases hf : tryFold key value siblings opts rlk pp fd with
  | some folded =>
    simp only
    have hok := fold_ok hf hv
    have hlt := tryFold_size hf
    exact entry_spec hb hd rlk _ _ folded.foldedKey folded.leaf depth hok
  | none =>
    simp only
    exact entry_spec hb hd rlk _ _ key value depth hv
termination_by (sizeOf value, 1)
decreasing_by
  all_goals first
    | (apply Prod.Lex.left; assumption)
    | (apply Prod.Lex.right; decide)

theorem entry_spec [LawfulF64 F] {ctx : Ctx} (hb : ctx.blanks = []) {opts : EncOpts} (hd : GoodDelim opts.delim)
    (rlk : Option (List Str)) (path : Str) (fd : Nat)
    (key : Str) (value : Json F) (depth : Nat) (hv : EntryOk key value) :
    ∃ c tl, writeEntry opts rlk path fd key value depth = ⟨depth, c⟩ :: tl ∧
      KVSpec ctx depth c tl key (shapeEntry opts rlk path fd value depth) := by
  match value, hv with
  | .prim p, hv =>
    exact ⟨_, _, rfl, kvSpec_prim hd (by simpa only [Normal] using hv.2.2) (fun s hs hvk => hv.1 s (by rw [hs]) hvk)⟩
  | .arr items, hv =>
    rw [writeEntry, shapeEntry]
    rw [encodeArray_head_tail]
    exact ⟨_, _, rfl, kvSpec_arr (array_spec hb hd (some key) items depth hv.2.1 (by simpa only [Normal] using hv.2.2))⟩
  | .obj es, hv =>
    exact ⟨_, _, rfl, kvSpec_obj (object_kvList hb hd es (depth + 1) _ _ _ (by simpa only [Writable] using hv.2.1)
      (by simpa only [Normal] using hv.2.2))⟩
termination_by (sizeOf value, 0)

theorem array_spec [LawfulF64 F] {ctx : Ctx} (hb : ctx.blanks = []) {opts : EncOpts} (hd : GoodDelim opts.delim)
    (key : Option Str) (items : List (Json F)) (depth : Nat) (hw : Writable true (.arr items)) (hn : NormalItems items) :
    ArrSpec ctx depth (arrayHead opts key items) (arrayTail opts items depth) key (shapeArray opts items) := by
  simp only [Writable, forall_const, true_and] at hw
  obtain ⟨hlen, hcols, hitems⟩ := hw
  rw [shapeArray, arrayHead, arrayTail]
  split
  · rename_i hp
    exact arrSpec_inline hb hd hlen hp hn
  · cases ht : tableHeader items with
    | some cols => exact arrSpec_table hb hd hlen ht (hcols cols (isTable_of_header ht)) hn
    | none =>
      simp only
      have hitems : WritableItems items := by
        rcases hitems with ⟨cols, hc⟩ | h
        · rw [header_of_isTable hc] at ht; simp at ht
        · exact h
      have h := items_list hb hd items (depth + 1) hitems hn
      have hl : (shapeItems opts items).length = items.length := shapeItems_length opts items
      rw [← hl]
      exact arrSpec_list hb hd (by rw [hl]; exact hlen) h
termination_by (sizeOf items, 4)

theorem items_list [LawfulF64 F] {ctx : Ctx} (hb : ctx.blanks = []) {opts : EncOpts} (hd : GoodDelim opts.delim)
    (items : List (Json F)) (depth : Nat) (hw : WritableItems items) (hn : NormalItems items) :
    ItemList ctx depth (encodeItems opts items depth) (shapeItems opts items) := by
  match items, hw, hn with
  | [], _, _ => rw [encodeItems, shapeItems]; exact ItemList.nil
  | v :: vs, hw, hn =>
    simp only [WritableItems] at hw
    simp only [NormalItems] at hn
    rw [encodeItems, shapeItems]
    obtain ⟨c, tl, hl, hs⟩ := item_spec hb hd v depth hw.1 hn.1
    rw [hl]
    exact ItemList.cons hs (items_list hb hd vs depth hw.2 hn.2)
termination_by (sizeOf items, 3)

theorem item_spec [LawfulF64 F] {ctx : Ctx} (hb : ctx.blanks = []) {opts : EncOpts} (hd : GoodDelim opts.delim)
    (value : Json F) (depth : Nat) (hw : Writable false value) (hn : Normal value) :
    ∃ c tl, encodeItem opts value depth = ⟨depth, c⟩ :: tl ∧ ItemSpec ctx depth c tl (shapeItem opts value) := by
  match value, hw, hn with
  | .prim p, hw, hn =>
    rw [encodeItem, shapeItem]
    exact ⟨_, _, rfl, itemSpec_prim hd (by simpa only [Normal] using hn)⟩
  | .arr items, hw, hn =>
    rw [encodeItem, shapeItem]
    simp only [Writable] at hw
    simp only [Normal] at hn
    split
    · rename_i hp
      exact ⟨_, _, rfl, itemSpec_arr (arrSpec_inline hb hd hw.1 hp hn)⟩
    · have h := items_list hb hd items (depth + 1) (by simpa using hw.2.2) hn
      have hl : (shapeItems opts items).length = items.length := shapeItems_length opts items
      refine ⟨_, _, rfl, itemSpec_arr ?_⟩
      rw [← hl]
      exact arrSpec_list hb hd (by rw [hl]; exact hw.1) h
  | .obj es, hw, hn =>
    rw [encodeItem, shapeItem]
    exact objectItem_spec hb hd es depth (by simpa only [Writable] using hw) (by simpa only [Normal] using hn)
termination_by (sizeOf value, 1)

theorem objectItem_spec [LawfulF64 F] {ctx : Ctx} (hb : ctx.blanks = []) {opts : EncOpts} (hd : GoodDelim opts.delim)
    (entries : List (Str × Json F)) (depth : Nat) (hw : WritableEntries entries) (hn : NormalEntries entries) :
    ∃ c tl, encodeObjectItem opts entries depth = ⟨depth, c⟩ :: tl ∧
      ItemSpec ctx depth c tl (.obj (shapeObjectItem opts entries)) := by
  match entries, hw, hn with
  | [], _, _ =>
    rw [encodeObjectItem, shapeObjectItem]
    exact ⟨_, _, rfl, itemSpec_empty⟩
  | (k, v) :: rest, hw, hn =>
    simp only [WritableEntries] at hw
    simp only [NormalEntries] at hn
    have hrest := object_kvList hb hd rest (depth + 1) none none none hw.2.2 hn.2
    rw [encodeObjectItem_cons, shapeObjectItem.eq_def]
    rw [shapeObject_depth opts rest (d := depth + 1) (d' := 1) (by omega) (by omega)] at hrest
    match v, hw, hn with
    | .prim p, hw, hn =>
      exact ⟨_, _, rfl, itemSpec_obj (kvSpec_prim hd (by simpa only [Normal] using hn.1)
        (fun s hs hvk => hw.1 s (by rw [hs]) (by rw [bareKey_eq]; exact hvk))) hrest⟩
    | .arr items, hw, hn =>
      exact ⟨_, _, rfl, itemSpec_obj (kvSpec_arr (array_spec hb hd (some k) items (depth + 1) hw.2.1
        (by simpa only [Normal] using hn.1))) hrest⟩
    | .obj es, hw, hn =>
      have h := object_kvList hb hd es (depth + 2) none none none (by simpa only [Writable] using hw.2.1)
        (by simpa only [Normal] using hn.1)
      rw [shapeObject_depth opts es (d := depth + 2) (d' := 1) (by omega) (by omega)] at h
      exact ⟨_, _, rfl, itemSpec_obj (kvSpec_obj h) hrest⟩
termination_by (sizeOf entries, 0)

end

theorem tryFold_prim (key : Str) (p : Prim F) (siblings : List Str) (opts : EncOpts)
    (rlk : Option (List Str)) (pp : Option Str) (fd : Nat) : tryFold key (.prim p) siblings opts rlk pp fd = none := by
  unfold tryFold
  split
  · rfl
  · rw [if_pos (by simp [Json.isObj])]

end

end Toon
