import Verif.Lemmas.Decode

/-! Each piece of encoder output meets its decoder specification. -/

namespace Toon

theorem bareKey_eq (k : Str) : bareKey k = isValidUnquotedKey k := by
  cases k <;> rfl

section
variable {F : Type} [F64 F]

/-! ## Normalized values -/

mutual
/-- Every number in the value is finite and not `-0.0`. -/
def Normal : Json F → Prop
  | .prim p => normPrim p = p
  | .arr items => NormalItems items
  | .obj es => NormalEntries es
def NormalItems : List (Json F) → Prop
  | [] => True
  | v :: vs => Normal v ∧ NormalItems vs
def NormalEntries : List (Str × Json F) → Prop
  | [] => True
  | (_, v) :: es => Normal v ∧ NormalEntries es
end

theorem normPrim_idem [LawfulF64 F] (p : Prim F) : normPrim (normPrim p) = normPrim p := by
  cases p with
  | num x =>
    simp only [normPrim]
    by_cases hf : F64.isFinite x = true
    · by_cases hz : F64.isZero x = true
      · simp [hf, hz, LawfulF64.zero_isFinite, LawfulF64.zero_isZero]
      · simp [hf, hz]
    · simp [hf]
  | _ => rfl

mutual
theorem normal_normalize [LawfulF64 F] (v : Json F) : Normal (normalize v) := by
  cases v with
  | prim p => simp only [normalize, Normal, normPrim_idem]
  | arr items => simp only [normalize, Normal]; exact normal_normalizeItems items
  | obj es => simp only [normalize, Normal]; exact normal_normalizeEntries es
theorem normal_normalizeItems [LawfulF64 F] (vs : List (Json F)) : NormalItems (normalizeItems vs) := by
  cases vs with
  | nil => simp [normalizeItems, NormalItems]
  | cons v vs => simp only [normalizeItems, NormalItems]; exact ⟨normal_normalize v, normal_normalizeItems vs⟩
theorem normal_normalizeEntries [LawfulF64 F] (es : List (Str × Json F)) : NormalEntries (normalizeEntries es) := by
  cases es with
  | nil => simp [normalizeEntries, NormalEntries]
  | cons e es =>
    obtain ⟨k, v⟩ := e
    simp only [normalizeEntries, NormalEntries]
    exact ⟨normal_normalize v, normal_normalizeEntries es⟩
end

mutual
theorem normalize_normal {v : Json F} (h : Normal v) : normalize v = v := by
  cases v with
  | prim p => simp only [Normal] at h; simp only [normalize, h]
  | arr items => simp only [Normal] at h; simp only [normalize, normalizeItems_normal h]
  | obj es => simp only [Normal] at h; simp only [normalize, normalizeEntries_normal h]
theorem normalizeItems_normal {vs : List (Json F)} (h : NormalItems vs) : normalizeItems vs = vs := by
  cases vs with
  | nil => rfl
  | cons v vs =>
    simp only [NormalItems] at h
    simp only [normalizeItems, normalize_normal h.1, normalizeItems_normal h.2]
theorem normalizeEntries_normal {es : List (Str × Json F)} (h : NormalEntries es) : normalizeEntries es = es := by
  cases es with
  | nil => rfl
  | cons e es =>
    obtain ⟨k, v⟩ := e
    simp only [NormalEntries] at h
    simp only [normalizeEntries, normalize_normal h.1, normalizeEntries_normal h.2]
end

theorem normalEntries_get {es : List (Str × Json F)} (h : NormalEntries es) {k : Str} {v : Json F}
    (hg : objGet es k = some v) : Normal v := by
  induction es with
  | nil => simp [objGet] at hg
  | cons e es ih =>
    obtain ⟨k', v'⟩ := e
    simp only [NormalEntries] at h
    simp only [objGet] at hg
    split at hg
    · simp at hg; subst hg; exact h.1
    · exact ih h.2 hg

theorem normalItems_mem {vs : List (Json F)} (h : NormalItems vs) {v : Json F} (hv : v ∈ vs) : Normal v := by
  induction vs with
  | nil => simp at hv
  | cons w vs ih =>
    simp only [NormalItems] at h
    rcases List.mem_cons.mp hv with rfl | hv
    · exact h.1
    · exact ih h.2 hv

theorem normal_primsOf {items : List (Json F)} (h : NormalItems items) : ∀ p ∈ primsOf items, normPrim p = p := by
  induction items with
  | nil => simp [primsOf]
  | cons v vs ih =>
    simp only [NormalItems] at h
    cases v with
    | prim p =>
      intro q hq
      simp only [primsOf, List.mem_cons] at hq
      rcases hq with rfl | hq
      · simpa only [Normal] using h.1
      · exact ih h.2 q hq
    | arr _ => simpa [primsOf] using ih h.2
    | obj _ => simpa [primsOf] using ih h.2

/-! ## Primitive items -/

theorem parseHeader_tok {d : Char} {t : Str} (ht : TokForm d t) : parseArrayHeaderLine t ',' = .ok none := by
  unfold parseArrayHeaderLine
  rcases ht with ⟨s, rfl⟩ | ⟨hne, he, hq, _, hall⟩
  · have := findBracketStart_quoted_other s [] (by simp)
    rw [List.append_nil] at this
    rw [this]
  · have := findBracketStart_plain (k := []) (rest := t) (by simp)
    have h0 : findBracketStart t = .ok (findChar '[' t) := by
      unfold findBracketStart
      rw [if_neg]
      rw [trimStart_eq_self he.1]
      intro h
      exact hq (List.mem_of_mem_head? (by simpa using h))
    rw [h0, findChar_eq_none.mpr (hall '[' (by simp))]

theorem tok_not_kv {d : Char} {t : Str} (ht : TokForm d t) : isKeyValueContent t = false := by
  unfold isKeyValueContent findUnquotedChar
  rw [if_pos (by decide)]
  have := Transparent.tok ht [] 0
  rw [List.append_nil] at this
  rw [this]
  rfl

theorem tok_not_arr {d : Char} {t : Str} (ht : TokForm d t) : isArrayHeaderContent t = false := by
  have := tok_not_kv ht
  unfold isKeyValueContent at this
  unfold isArrayHeaderContent
  rw [this, Bool.and_false]

theorem dash_start (c : Str) : startsWithDash (dash c) = true := rfl
theorem dash_item (c : Str) : isListItem (dash c) = true := rfl
theorem dash_ne (c : Str) : dash c ≠ ['-'] := by simp [dash]
theorem dash_drop (c : Str) : (dash c).drop 2 = c := rfl

theorem trim_ne_of {t : Str} (hne : t ≠ []) (he : NoEdgeWs t) : (trim t).isEmpty = false := by
  rw [trim_eq_self he]
  simpa using hne

theorem itemSpec_prim [LawfulF64 F] {ctx : Ctx} {depth : Nat} {d : Char} (hd : GoodDelim d) {p : Prim F}
    (hp : normPrim p = p) : ItemSpec ctx depth (dash (encodePrimitive p d)) [] (.prim p) := by
  refine ⟨dash_item _, ?_⟩
  intro l ls rest last fuel hc hpj hr hf
  have ht := encodePrimitive_tok hd p
  rw [Proj.nil_iff.mp hpj] at hf ⊢
  obtain ⟨f, rfl⟩ : ∃ f, fuel = f + 2 := ⟨fuel - 2, by simp at hf; omega⟩
  refine ⟨some l, ?_⟩
  rw [decodeItem]
  simp only [List.cons_append, List.nil_append, hc, dash_ne, if_false, dash_start, if_true, dash_drop,
    trim_ne_of ht.ne_nil ht.edge, Bool.false_eq_true, tok_not_arr ht, parseHeader_tok ht, bind, Except.bind]
  simp only [keyedHeader]
  rw [decodeItemRest]
  simp only [tok_not_kv ht, Bool.false_eq_true, if_false, parsePrimitive_encode p hp d, bind, Except.bind, pure,
    Except.pure, emitEvents]

theorem itemSpec_empty {ctx : Ctx} {depth : Nat} : ItemSpec (F := F) ctx depth ['-'] [] (.obj []) := by
  refine ⟨rfl, ?_⟩
  intro l ls rest last fuel hc hpj hr hf
  rw [Proj.nil_iff.mp hpj] at hf ⊢
  obtain ⟨f, rfl⟩ : ∃ f, fuel = f + 1 := ⟨fuel - 1, by simp at hf; omega⟩
  refine ⟨some l, ?_⟩
  rw [decodeItem]
  simp [hc, emitEvents, emitEntries]

theorem arrSpec_header_ne {ctx : Ctx} {base : Nat} {c : Str} {tl : List OutLine} {key : Option Str}
    {items : List (Json F)} (h : ArrSpec ctx base c tl key items) : (trim c).isEmpty = false := by
  obtain ⟨n, fields, d, suffix, hd, rfl⟩ := h.form
  apply Bool.eq_false_iff.mpr
  intro he
  have he := trim_eq_nil_iff.mp (List.isEmpty_iff.mp he)
  have := List.all_eq_true.mp he ':' (by rw [formatHeader_eq]; simp)
  simp [isWs] at this

theorem itemSpec_arr {ctx : Ctx} {depth : Nat} {c : Str} {tl : List OutLine} {items : List (Json F)}
    (h : ArrSpec ctx depth c tl none items) : ItemSpec ctx depth (dash c) tl (.arr items) := by
  refine ⟨dash_item _, ?_⟩
  intro l ls rest last fuel hc hpj hr hf
  obtain ⟨f, rfl⟩ : ∃ f, fuel = f + 1 := ⟨fuel - 1, by omega⟩
  obtain ⟨n, fields, d, suffix, hd, hform⟩ := h.form
  obtain ⟨hh, hparse, -, -, hdec⟩ := h.parse
  obtain ⟨last', e⟩ := hdec ls rest (some l) f hpj hr (by omega)
  refine ⟨last', ?_⟩
  have harr : isArrayHeaderContent c = true := by rw [hform]; exact arrayHeader_none n fields hd suffix
  rw [decodeItem]
  simp only [List.cons_append, hc, dash_ne, if_false, dash_start, if_true, dash_drop,
    arrSpec_header_ne h, Bool.false_eq_true, harr, hparse, bind, Except.bind]
  exact e

theorem itemSpec_obj {ctx : Ctx} {depth : Nat} {c : Str} {tl os : List OutLine} {k : Str} {v : Json F}
    {es : List (Str × Json F)} (h : KVSpec ctx (depth + 1) c tl k v) (hes : KVList ctx (depth + 1) os es) :
    ItemSpec ctx depth (dash c) (tl ++ os) (.obj ((k, v) :: es)) := by
  refine ⟨dash_item _, ?_⟩
  intro l ls rest last fuel hc hpj hr hf
  obtain ⟨hk, hdec⟩ := h
  obtain ⟨l1, l2, rfl, hp1, hp2⟩ := hpj.split
  simp only [List.length_append] at hf
  obtain ⟨f, rfl⟩ : ∃ f, fuel = f + 1 := ⟨fuel - 1, by omega⟩
  have hr1 : RestLe (depth + 1) (l2 ++ rest) := hes.restLe hp2 fun l hl => Nat.le_succ_of_le (hr l hl)
  have hr2 : ∀ l, rest.head? = some l → l.depth < depth + 1 := fun l hl => Nat.lt_succ_of_le (hr l hl)
  -- the plain path
  have plain : ∃ last', decodeItemRest (F := F) ctx f c ⟨l1 ++ (l2 ++ rest), some l⟩ depth =
      .ok (emitEvents (.obj ((k, v) :: es)), ⟨rest, last'⟩) := by
    obtain ⟨g, rfl⟩ : ∃ g, f = g + 1 := ⟨f - 1, by omega⟩
    obtain ⟨last1, e1⟩ := hdec l1 (l2 ++ rest) (some l) g hp1 hr1 (by omega)
    obtain ⟨last2, e2⟩ := hes.follow l2 rest last1 g hp2 hr2 (by omega)
    refine ⟨last2, ?_⟩
    rw [decodeItemRest]
    simp only [hk.kv, if_true, e1, e2, bind, Except.bind, pure, Except.pure, emitEvents, emitEntries, List.cons_append]
  obtain ⟨last1, e1⟩ := hdec l1 (l2 ++ rest) (some l) (f + 1) hp1 hr1 (by omega)
  obtain ⟨last2, e2⟩ := hes.follow l2 rest last1 f hp2 hr2 (by omega)
  rw [decodeItem]
  simp only [List.cons_append, List.append_assoc, hc, dash_ne, if_false, dash_start, if_true, dash_drop, hk.ne, Bool.false_eq_true,
    hk.arr, bind, Except.bind]
  rw [decodeKV] at e1
  simp only [bind, Except.bind] at e1
  cases hh : parseArrayHeaderLine c ',' with
  | error e => simp [hh] at e1
  | ok hdr =>
    simp only [hh] at e1 ⊢
    cases hkh : keyedHeader hdr with
    | none => simpa using plain
    | some kh =>
      obtain ⟨key, h⟩ := kh
      simp only [hkh] at e1 ⊢
      split
      · cases ha : decodeArray (F := F) ctx f h ⟨l1 ++ (l2 ++ rest), some l⟩ (depth + 1) with
        | error e => simp [ha] at e1
        | ok r =>
          simp only [ha, pure, Except.pure, Except.ok.injEq, Prod.mk.injEq, List.cons.injEq, Ev.key.injEq] at e1
          obtain ⟨⟨⟨rfl, hq⟩, hev⟩, hcur⟩ := e1
          refine ⟨last2, ?_⟩
          simp only [hcur, e2, pure, Except.pure, emitEvents, emitEntries, List.cons_append, List.append_assoc,
            hev, hq]
      · exact plain

/-! ## Entries of objects -/

theorem decodeKV_prim [LawfulF64 F] {ctx : Ctx} {depth : Nat} {d : Char} (hd : GoodDelim d) {k : Str} {p : Prim F}
    (hp : normPrim p = p) (hs : ∀ s, p = .str s → isValidUnquotedKey k = true → headerLike s = false)
    (cur : Cur) (f : Nat) : decodeKV (F := F) ctx (f + 1) (encodeKey k ++ ':' :: ' ' :: encodePrimitive p d) cur depth =
      .ok (.key k (!isValidUnquotedKey k) :: emitEvents (.prim p), cur) := by
  have ht := encodePrimitive_tok hd p
  have hh : parseArrayHeaderLine (encodeKey k ++ ':' :: ' ' :: encodePrimitive p d) ',' = .ok none := by
    apply parseHeader_keyValue ht
    intro s heq hv
    apply hs s _ hv
    -- the written token is the quoted `s`, so `p` is the string `s`
    have := parsePrimitive_encode p hp d
    rw [heq] at this
    unfold parsePrimitiveToken at this
    rw [trim_eq_self (quoted_noEdgeWs s)] at this
    simp only [show (quoted s).isEmpty = false by simp [quoted], Bool.false_eq_true, if_false,
      show (quoted s).head? = some '"' by simp [quoted], parseStringLiteral_quoted] at this
    simpa using this.symm
  rw [decodeKV]
  simp only [hh, bind, Except.bind, keyedHeader, parseKeyToken_encode, drop_keyColon,
    trim_space_cons ht.edge]
  rw [if_neg (by simpa using ht.ne_nil)]
  simp only [parsePrimitive_encode p hp d, pure, Except.pure, emitEvents]

theorem kvSpec_prim [LawfulF64 F] {ctx : Ctx} {depth : Nat} {d : Char} (hd : GoodDelim d) {k : Str} {p : Prim F}
    (hp : normPrim p = p) (hs : ∀ s, p = .str s → isValidUnquotedKey k = true → headerLike s = false) :
    KVSpec ctx depth (encodeKey k ++ ':' :: ' ' :: encodePrimitive p d) [] k (.prim p) := by
  refine ⟨keyLine_colon k _, ?_⟩
  intro ls rest last fuel hpj hr hf
  rw [Proj.nil_iff.mp hpj] at hf ⊢
  obtain ⟨f, rfl⟩ : ∃ f, fuel = f + 1 := ⟨fuel - 1, by omega⟩
  exact ⟨last, decodeKV_prim hd hp hs _ _⟩

theorem kvSpec_obj {ctx : Ctx} {depth : Nat} {k : Str} {os : List OutLine} {es : List (Str × Json F)}
    (h : KVList ctx (depth + 1) os es) : KVSpec ctx depth (encodeKey k ++ [':']) os k (.obj es) := by
  refine ⟨keyLine_colon k [], ?_⟩
  intro ls rest last fuel hpj hr hf
  obtain ⟨f, rfl⟩ : ∃ f, fuel = f + 1 := ⟨fuel - 1, by omega⟩
  obtain ⟨last', e⟩ := h.fields ls rest last f none hpj (fun l hl => Nat.lt_succ_of_le (hr l hl)) (by omega) (Or.inl rfl)
  have hdrop := drop_keyColon k []
  have hkey := parseKeyToken_encode k []
  rw [decodeKV]
  simp only [parseHeader_keyOnly, bind, Except.bind, keyedHeader, hkey, hdrop]
  rw [if_pos (by decide)]
  cases h with
  | nil =>
    rw [Proj.nil_iff.mp hpj]
    refine ⟨last, ?_⟩
    cases rest with
    | nil => simp [pure, Except.pure, emitEvents, emitEntries]
    | cons l rest =>
      simp [pure, Except.pure, emitEvents, emitEntries, Nat.not_lt.mpr (hr l rfl)]
  | cons h1 h2 =>
    obtain ⟨l, ls', rfl, hd, _, _⟩ := Proj.cons hpj
    refine ⟨last', ?_⟩
    simp only [List.cons_append] at e ⊢
    rw [if_pos (by rw [hd]; simp)]
    simp only [e, pure, Except.pure, emitEvents, List.cons_append]

theorem kvSpec_arr {ctx : Ctx} {depth : Nat} {k c : Str} {tl : List OutLine} {items : List (Json F)}
    (h : ArrSpec ctx depth c tl (some k) items) : KVSpec ctx depth c tl k (.arr items) := by
  obtain ⟨n, fields, d, suffix, hd, hform⟩ := h.form
  refine ⟨by rw [hform]; exact keyLine_header n k fields hd suffix, ?_⟩
  intro ls rest last fuel hpj hr hf
  obtain ⟨f, rfl⟩ : ∃ f, fuel = f + 1 := ⟨fuel - 1, by omega⟩
  obtain ⟨hh, hparse, hkey, hq, hdec⟩ := h.parse
  obtain ⟨last', e⟩ := hdec ls rest last f hpj hr (by omega)
  refine ⟨last', ?_⟩
  rw [decodeKV]
  simp only [hparse, bind, Except.bind, keyedHeader, hkey, e, pure, Except.pure, hq, readQuoted]

end

end Toon
