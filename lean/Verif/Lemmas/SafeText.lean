import Verif.Lemmas.Runs
import Verif.Lemmas.RoundTrip
import Verif.Lemmas.Resources

/-! A text for every value: keys of primitives in quotes, arrays always as lists. -/

namespace Toon

section
variable {F : Type} [F64 F] [LawfulF64 F]

/-! ## An entry with a quoted key -/

theorem keyLine_quotedKey (k rest : Str) : KeyLine (quoted k ++ ':' :: rest) := by
  refine ⟨rfl, ?_, ?_, ?_, ?_⟩
  · apply Bool.eq_false_iff.mpr
    intro h
    have h := trim_eq_nil_iff.mp (List.isEmpty_iff.mp h)
    rw [quoted_append] at h
    simp [isWs] at h
  · unfold isArrayHeaderContent
    rw [trimStart_eq_self (by intro x hx; simp [quoted] at hx; subst hx; decide)]
    simp [quoted]
  · unfold isKeyValueContent findUnquotedChar
    rw [if_pos (by decide), unquotedCharAux_quoted, unquotedCharAux_hit (by decide)]
    simp
  · unfold isKeyValueLine
    rw [if_pos (by simp [quoted]), findClosingQuote_quoted]
    simp only
    rw [List.drop_left' (quoted_length k)]
    simp

theorem kvRun_quotedPrim {ctx : Ctx} {depth : Nat} {k : Str} {p : Prim F} (hp : normPrim p = p) :
    KVRun ctx depth (quoted k ++ ':' :: ' ' :: encodePrimitive p ',') [] (.ok [.key k true, .prim p]) := by
  refine ⟨keyLine_quotedKey k _, ?_⟩
  intro ls rest last fuel hpj hr hf
  rw [Proj.nil_iff.mp hpj] at hf ⊢
  obtain ⟨f, rfl⟩ : ∃ f, fuel = f + 1 := ⟨fuel - 1, by omega⟩
  have ht := encodePrimitive_tok (d := ',') (Or.inl rfl) p
  have hh : parseArrayHeaderLine (quoted k ++ ':' :: ' ' :: encodePrimitive p ',') ',' = .ok none := by
    unfold parseArrayHeaderLine
    rw [findBracketStart_quoted_other _ _ (by simp)]
  have hk : parseKeyToken (quoted k ++ ':' :: ' ' :: encodePrimitive p ',') = .ok (k, (quoted k).length + 1, true) := by
    unfold parseKeyToken
    rw [if_pos (by simp [quoted]), parseQuotedKey_quoted]
  have hdrop : (quoted k ++ ':' :: ' ' :: encodePrimitive p ',').drop ((quoted k).length + 1) =
      ' ' :: encodePrimitive p ',' := by
    rw [show quoted k ++ ':' :: ' ' :: encodePrimitive p ',' = (quoted k ++ [':']) ++ ' ' :: encodePrimitive p ',' by simp]
    exact List.drop_left' (by simp)
  refine ⟨last, ?_⟩
  rw [decodeKV]
  simp only [hh, bind, Except.bind, keyedHeader, hk, hdrop, trim_space_cons ht.edge]
  rw [if_neg (by simpa using ht.ne_nil)]
  simp only [parsePrimitive_encode p hp ',', pure, Except.pure, Reading.at, List.nil_append]

theorem lineOk_quotedPrim (k : Str) (p : Prim F) : LineOk (quoted k ++ ':' :: ' ' :: encodePrimitive p ',') := by
  have hq : TokForm ',' (quoted k) := Or.inl ⟨k, rfl⟩
  have := LineOk.append hq.lineOk (m := [':', ' ']) (by simp) (by simp)
    (encodePrimitive_tok (d := ',') (Or.inl rfl) p).lineOk
  simpa using this

/-! ## Values -/

/-- Lines that can be written. -/
def LinesOk (os : List OutLine) : Prop := ∀ l ∈ os, LineOk l.content

omit F [F64 F] [LawfulF64 F] in
theorem LinesOk.nil : LinesOk [] := by intro l hl; simp at hl

omit F [F64 F] [LawfulF64 F] in
theorem LinesOk.cons {d : Nat} {c : Str} {os : List OutLine} (h : LineOk c) (h' : LinesOk os) :
    LinesOk (⟨d, c⟩ :: os) := by
  intro l hl
  rcases List.mem_cons.mp hl with rfl | hl
  · exact h
  · exact h' l hl

omit F [F64 F] [LawfulF64 F] in
theorem LinesOk.append {os os' : List OutLine} (h : LinesOk os) (h' : LinesOk os') : LinesOk (os ++ os') := by
  intro l hl
  rcases List.mem_append.mp hl with hl | hl
  · exact h l hl
  · exact h' l hl

omit [F64 F] [LawfulF64 F] in
theorem jsonItems_map_prim (ps : List (Prim F)) : ETree.jsonItems (ps.map .prim) = ps.map Json.prim := by
  induction ps with
  | nil => rfl
  | cons p ps ih => simp [ETree.jsonItems, ETree.json, ih]

theorem arrRun_inlineLax {ctx : Ctx} (hs : ctx.strict = false) {base : Nat} {key : Option Str} {ps : List (Prim F)}
    (he : ps ≠ []) (hn : ∀ p ∈ ps, normPrim p = p) :
    ArrRun ctx base (formatHeader 0 key none ',' ++ ' ' :: encodeAndJoin ps ',') [] key
      (.ok (ETree.events (.arr 0 (ps.map .prim)))) := by
  have hd : GoodDelim ',' := Or.inl rfl
  have htok : ∀ t ∈ ps.map (encodePrimitive · ','), TokForm ',' t := by
    intro t ht
    obtain ⟨p, _, rfl⟩ := List.mem_map.mp ht
    exact encodePrimitive_tok hd p
  have hedge : NoEdgeWs (encodeAndJoin ps ',') :=
    joinWith_noEdgeWs fun t ht => ⟨(htok t ht).ne_nil, (htok t ht).edge⟩
  have hne : encodeAndJoin ps ',' ≠ [] := joinWith_ne_nil (by simpa using he) fun t ht => (htok t ht).ne_nil
  refine ⟨⟨_, _, _, _, hd, rfl⟩, Or.inr ?_⟩
  have hpr := parseHeader_format (n := 0) (by decide) key (fields := none) hd (by simp) (' ' :: encodeAndJoin ps ',')
  refine ⟨_, hpr, rfl, rfl, ?_⟩
  intro ls rest last fuel hpj hr hf
  rw [Proj.nil_iff.mp hpj]
  obtain ⟨f, rfl⟩ : ∃ f, fuel = f + 1 := ⟨fuel - 1, by omega⟩
  refine ⟨last, ?_⟩
  rw [decodeArray, trim_space_cons hedge]
  have h0 : (encodeAndJoin ps ',').isEmpty = false := by simpa using hne
  simp only [h0, Bool.false_eq_true, if_false]
  unfold decodeInline
  rw [trim_eq_self hedge, if_neg (by simp [h0])]
  simp only [encodeAndJoin]
  rw [parseDelimited_join hd _ (by simpa using he) htok]
  simp only [mapRowValues_encode _ hn, bind, Except.bind, assertCount, hs, Bool.false_and, Bool.false_eq_true, if_false,
    pure, Except.pure, List.nil_append, Reading.at, ETree.events, eventsItems_prims]

/-- An array: as a list, or when there are too many elements as a line that declares none. -/
theorem array_text {strict : Bool} (key : Option Str) {items : List (Json F)} {depth : Nat} {os : List OutLine}
    {ts : List (ETree F)} (hn : NormalItems items)
    (hc : items.length ≤ 100000000 ∨ strict = false ∧ ∀ v ∈ items, ∃ p, v = .prim p)
    (h1 : ETree.jsonItems ts = items) (h2 : LinesOk os)
    (h3 : ∀ ctx : Ctx, ctx.blanks = [] → (ctx.strict = true → strict = true) →
      ItemRuns ctx (depth + 1) os items.length (.ok (ETree.eventsItems ts))) :
    ∃ c tl t, ETree.json t = .arr items ∧ LineOk c ∧ LinesOk tl ∧
      ∀ ctx : Ctx, ctx.blanks = [] → (ctx.strict = true → strict = true) →
        ArrRun ctx depth c tl key (.ok (ETree.events t)) := by
  by_cases hl : items.length ≤ 100000000
  · refine ⟨_, os, .arr items.length ts, by simp [ETree.json, h1],
      lineOk_header items.length key none (d := ',') (Or.inl rfl), h2, ?_⟩
    intro ctx hb hst
    have := arrRun_list hb (d := ',') (Or.inl rfl) (key := key) hl (h3 ctx hb hst)
    simpa [Reading.seq, ETree.events] using this
  · rcases hc with hc | ⟨hc, hp⟩
    · exact absurd hc hl
    have hall : isArrayOfPrims items = true := by
      unfold isArrayOfPrims
      apply List.all_eq_true.mpr
      intro v hv
      obtain ⟨p, rfl⟩ := hp v hv
      rfl
    have hall := primsOf_all hall
    have hne : primsOf items ≠ [] := by
      intro h0
      rw [h0] at hall
      rw [hall] at hl
      simp at hl
    refine ⟨_, [], .arr 0 ((primsOf items).map .prim), ?_,
      ?_, .nil, fun ctx hb hst => arrRun_inlineLax ?_ hne (normal_primsOf hn)⟩
    · rw [ETree.json, jsonItems_map_prim, ← hall]
    · have := LineOk.append (lineOk_header 0 key none (d := ',') (Or.inl rfl)) (m := [' ']) (by simp) (by simp)
        (lineOk_joinPrims (d := ',') (Or.inl rfl) hne)
      simpa using this
    · cases hs : ctx.strict with
      | false => rfl
      | true => rw [hst hs] at hc; simp at hc

mutual

theorem entries_text (strict : Bool) : ∀ (es : List (Str × Json F)) (depth : Nat), NormalEntries es → DeclarableEntries strict es →
    ∃ os ts, ETree.jsonEntries ts = es ∧ LinesOk os ∧
      ∀ ctx : Ctx, ctx.blanks = [] → (ctx.strict = true → strict = true) → KVRuns ctx depth os (.ok (ETree.eventsEntries ts))
  | [], _, _, _ => ⟨[], [], rfl, .nil, fun _ _ _ => .nil⟩
  | (k, v) :: es, depth, hn, hc => by
    simp only [NormalEntries] at hn
    simp only [DeclarableEntries] at hc
    obtain ⟨c, tl, q, t, h1, h2, h3, h4⟩ := entry_text strict k v depth hn.1 hc.1
    obtain ⟨os, ts, h5, h6, h7⟩ := entries_text strict es depth hn.2 hc.2
    refine ⟨⟨depth, c⟩ :: tl ++ os, (k, q, t) :: ts, by simp [ETree.jsonEntries, h1, h5], (LinesOk.cons h2 h3).append h6, ?_⟩
    intro ctx hb hst
    have := KVRuns.cons (h4 ctx hb hst) (h7 ctx hb hst)
    simpa [Reading.seq, ETree.eventsEntries] using this
  termination_by es => sizeOf es

theorem entry_text (strict : Bool) : ∀ (k : Str) (v : Json F) (depth : Nat), Normal v → Declarable strict v →
    ∃ c tl q t, ETree.json t = v ∧ LineOk c ∧ LinesOk tl ∧
      ∀ ctx : Ctx, ctx.blanks = [] → (ctx.strict = true → strict = true) → KVRun ctx depth c tl (.ok (.key k q :: ETree.events t))
  | k, .prim p, depth, hn, _ =>
    ⟨_, [], true, .prim p, by simp [ETree.json], lineOk_quotedPrim k p, .nil, fun ctx _ _ => by
      simpa [ETree.events] using kvRun_quotedPrim (ctx := ctx) (depth := depth) (k := k) (by simpa [Normal] using hn)⟩
  | k, .arr items, depth, hn, hc => by
    simp only [Normal] at hn
    simp only [Declarable] at hc
    obtain ⟨os, ts, h1, h2, h3⟩ := items_text strict items (depth + 1) hn hc.2
    obtain ⟨c, tl, t, h4, h5, h6, h7⟩ := array_text (some k) hn hc.1 h1 h2 h3
    exact ⟨c, tl, !isValidUnquotedKey k, t, h4, h5, h6, fun ctx hb hst => by
      simpa [Reading.seq] using kvRun_arr (h7 ctx hb hst)⟩
  | k, .obj es, depth, hn, hc => by
    simp only [Normal] at hn
    simp only [Declarable] at hc
    obtain ⟨os, ts, h1, h2, h3⟩ := entries_text strict es (depth + 1) hn hc
    refine ⟨_, os, !isValidUnquotedKey k, .obj ts, by simp [ETree.json, h1], lineOk_keyColon k, h2, ?_⟩
    intro ctx hb hst
    have := kvRun_obj (k := k) (h3 ctx hb hst)
    simpa [Reading.seq, ETree.events] using this
  termination_by _ v => sizeOf v

theorem items_text (strict : Bool) : ∀ (items : List (Json F)) (depth : Nat), NormalItems items → DeclarableItems strict items →
    ∃ os ts, ETree.jsonItems ts = items ∧ LinesOk os ∧
      ∀ ctx : Ctx, ctx.blanks = [] → (ctx.strict = true → strict = true) → ItemRuns ctx depth os items.length (.ok (ETree.eventsItems ts))
  | [], _, _, _ => ⟨[], [], rfl, .nil, fun _ _ _ => .nil⟩
  | v :: vs, depth, hn, hc => by
    simp only [NormalItems] at hn
    simp only [DeclarableItems] at hc
    obtain ⟨c, tl, t, h1, h2, h3, h4⟩ := item_text strict v depth hn.1 hc.1
    obtain ⟨os, ts, h5, h6, h7⟩ := items_text strict vs depth hn.2 hc.2
    refine ⟨⟨depth, c⟩ :: tl ++ os, t :: ts, by simp [ETree.jsonItems, h1, h5], (LinesOk.cons h2 h3).append h6, ?_⟩
    intro ctx hb hst
    have := ItemRuns.cons (h4 ctx hb hst) (h7 ctx hb hst)
    simpa [Reading.seq, ETree.eventsItems] using this
  termination_by items => sizeOf items

theorem item_text (strict : Bool) : ∀ (v : Json F) (depth : Nat), Normal v → Declarable strict v →
    ∃ c tl t, ETree.json t = v ∧ LineOk c ∧ LinesOk tl ∧
      ∀ ctx : Ctx, ctx.blanks = [] → (ctx.strict = true → strict = true) → ItemRun ctx depth c tl (.ok (ETree.events t))
  | .prim p, depth, hn, _ =>
    ⟨_, [], .prim p, by simp [ETree.json], lineOk_dash (encodePrimitive_tok (d := ',') (Or.inl rfl) p).lineOk, .nil,
      fun ctx _ _ => by
        simpa [ETree.events, emitEvents] using
          (itemSpec_prim (ctx := ctx) (depth := depth) (d := ',') (Or.inl rfl) (by simpa [Normal] using hn)).run⟩
  | .arr items, depth, hn, hc => by
    simp only [Normal] at hn
    simp only [Declarable] at hc
    obtain ⟨os, ts, h1, h2, h3⟩ := items_text strict items (depth + 1) hn hc.2
    obtain ⟨c, tl, t, h4, h5, h6, h7⟩ := array_text none hn hc.1 h1 h2 h3
    exact ⟨dash c, tl, t, h4, lineOk_dash h5, h6, fun ctx hb hst => itemRun_arr (h7 ctx hb hst)⟩
  | .obj [], depth, _, _ =>
    ⟨['-'], [], .obj [], by simp [ETree.json, ETree.jsonEntries], lineOk_char (by decide), .nil, fun ctx _ _ => by
      simpa [ETree.events, ETree.eventsEntries, emitEvents, emitEntries] using
        (itemSpec_empty (F := F) (ctx := ctx) (depth := depth)).run⟩
  | .obj ((k, v) :: es), depth, hn, hc => by
    simp only [Normal, NormalEntries] at hn
    simp only [Declarable, DeclarableEntries] at hc
    obtain ⟨c, tl, q, t, h1, h2, h3, h4⟩ := entry_text strict k v (depth + 1) hn.1 hc.1
    obtain ⟨os, ts, h5, h6, h7⟩ := entries_text strict es (depth + 1) hn.2 hc.2
    refine ⟨_, tl ++ os, .obj ((k, q, t) :: ts), by simp [ETree.json, ETree.jsonEntries, h1, h5], lineOk_dash h2,
      h3.append h6, ?_⟩
    intro ctx hb hst
    have := itemRun_obj (h4 ctx hb hst) (h7 ctx hb hst)
    simpa [Reading.seq, ETree.events, ETree.eventsEntries] using this
  termination_by v => sizeOf v

end

/-! ## Documents -/

omit [LawfulF64 F] in
theorem decodeLines_array {ctx : Ctx} {c : Str} {tl : List OutLine} {evs : List (Ev F)}
    (h : ArrRun ctx 0 c tl none (.ok evs)) {lines : List Line} (hp : Proj lines (⟨0, c⟩ :: tl)) :
    decodeLines ctx lines = .ok evs := by
  unfold decodeLines
  obtain ⟨l, ls, rfl, hdp, hc, hp⟩ := Proj.cons hp
  obtain ⟨n, fields, d, suffix, hd', hform⟩ := h.form
  have harr : isArrayHeaderContent c = true := by rw [hform]; exact arrayHeader_none n fields hd' suffix
  simp only [rootHeader, hc, harr, if_true]
  rcases h.run with ⟨e, _, he⟩ | ⟨hh, hparse, hkey, hq, hdec⟩
  · simp at he
  · obtain ⟨last', e⟩ := hdec ls [] (some l) (5 * (l :: ls).length + 5) hp (by intro l hl; simp at hl)
      (by simp only [List.length_cons]; omega)
    rw [List.append_nil] at e
    simp only [hparse, bind, Except.bind, e, Reading.at, pure, Except.pure]

omit [LawfulF64 F] in
theorem decodeLines_object {ctx : Ctx} {os : List OutLine} {evs : List (Ev F)}
    (h : KVRuns ctx 0 os (.ok evs)) {lines : List Line} (hp : Proj lines os) :
    decodeLines ctx lines = .ok (.startObj :: evs ++ [.endObj]) := by
  unfold decodeLines
  generalize hr0 : (Except.ok evs : Reading F) = r0 at h
  cases h with
  | nil =>
    rw [Proj.nil_iff.mp hp]
    simp only [Except.ok.injEq] at hr0
    subst hr0
    rfl
  | @cons c tl ls0 r rs h1 h3 =>
    rw [List.cons_append] at hp
    obtain ⟨l, ls, rfl, hdp, hc, hp⟩ := Proj.cons hp
    obtain ⟨l1, l2, rfl, hp1, hp2⟩ := hp.split
    have hr : RestLe 0 (l2 ++ []) := h3.restLe hp2 (by intro l hl; simp at hl)
    rw [List.append_nil] at hr
    obtain ⟨last1, e1⟩ := h1.2 l1 l2 (some l) (5 * (l :: (l1 ++ l2)).length + 5) hp1 hr
      (by simp only [List.length_cons, List.length_append]; omega)
    obtain ⟨last2, e2⟩ := h3.root l2 last1 (5 * (l :: (l1 ++ l2)).length + 5) hp2
      (by simp only [List.length_cons, List.length_append]; omega)
    simp only [rootHeader, hc, h1.1.arr, Bool.false_eq_true, if_false, bind, Except.bind, h1.1.kvl, Bool.not_true,
      Bool.and_false, e1]
    cases r with
    | error x => simp [Reading.seq] at hr0
    | ok a =>
      cases rs with
      | error x => simp [Reading.seq] at hr0
      | ok b =>
        simp only [Reading.seq, Except.ok.injEq] at hr0
        subst hr0
        simp only [Reading.at] at e2 ⊢
        simp only [e2, pure, Except.pure, List.cons_append, List.append_assoc]

/-- Every value with plain numbers and capped arrays has lines that are read as it, in both modes. -/
theorem value_text (strict : Bool) (v : Json F) (hn : Normal v) (hc : Declarable strict v) :
    ∃ os t, ETree.json t = v ∧ LinesOk os ∧
      ∀ ctx : Ctx, ctx.blanks = [] → (ctx.strict = true → strict = true) → ∀ lines, Proj lines os → decodeLines ctx lines = .ok (ETree.events t) := by
  cases v with
  | prim p =>
    refine ⟨encodeValue ⟨2, ',', false, 0⟩ (.prim p), .prim p, by simp [ETree.json], ?_, ?_⟩
    · exact fun l hl => (linesIn_value (opts := ⟨2, ',', false, 0⟩) (Or.inl rfl) (Json.prim p) l hl).1
    · intro ctx hb hst lines hp
      rw [decodeLines_written hb (Or.inl rfl) (by simp [Writable]) hn hp]
      simp [shape, emitEvents, ETree.events]
  | arr items =>
    simp only [Normal] at hn
    simp only [Declarable] at hc
    obtain ⟨os, ts, h1, h2, h3⟩ := items_text strict items 1 hn hc.2
    obtain ⟨c, tl, t, h4, h5, h6, h7⟩ := array_text none hn hc.1 h1 h2 h3
    exact ⟨⟨0, c⟩ :: tl, t, h4, h6.cons h5, fun ctx hb hst lines hp => decodeLines_array (h7 ctx hb hst) hp⟩
  | obj es =>
    simp only [Normal] at hn
    simp only [Declarable] at hc
    obtain ⟨os, ts, h1, h2, h3⟩ := entries_text strict es 0 hn hc
    refine ⟨os, .obj ts, by simp [ETree.json, h1], h2, ?_⟩
    intro ctx hb hst lines hp
    simpa [ETree.events] using decodeLines_object (h3 ctx hb hst) hp

omit [LawfulF64 F] in
/-- The lines as a text. -/
theorem linesOk_text {indent : Nat} (hi : 0 < indent) {os : List OutLine} (h : LinesOk os) {strict strict' : Bool}
    (hs : strict = true → strict' = true) {t : ETree F}
    (hr : ∀ ctx : Ctx, ctx.blanks = [] → (ctx.strict = true → strict' = true) → ∀ lines, Proj lines os → decodeLines ctx lines = .ok (ETree.events t)) :
    decodeStream (F := F) indent strict (splitOn '\n' (joinWith '\n' (os.map (renderLine indent)))) = .ok t.events := by
  obtain ⟨lines, h1, h2⟩ := parseLines_render hi strict os h 0
  by_cases he : os.map (renderLine indent) = []
  · have : os = [] := List.map_eq_nil_iff.mp he
    subst this
    have h3 : decodeStream (F := F) indent strict (splitOn '\n' (joinWith '\n' (([] : List OutLine).map (renderLine indent)))) =
        decodeLines ⟨strict, []⟩ [] := rfl
    rw [h3]
    exact hr ⟨strict, []⟩ rfl hs [] rfl
  · rw [splitOn_joinWith he (by
      intro w hw
      obtain ⟨o, ho, rfl⟩ := List.mem_map.mp hw
      exact renderLine_lf (h o ho))]
    unfold decodeStream
    simp only [h1, bind, Except.bind]
    exact hr ⟨strict, []⟩ rfl hs lines h2

end

end Toon
