import Verif.Lemmas.SafeText
import Verif.Lemmas.Nest
import Verif.Spec.Paths

/-! A text for every value in which every key is in quotes. -/

namespace Toon

section
variable {F : Type} [F64 F] [LawfulF64 F]

/-! ## Quoted keys -/

omit F [F64 F] [LawfulF64 F] in
theorem parseKeyToken_quotedKey (k rest : Str) : parseKeyToken (quoted k ++ ':' :: rest) = .ok (k, (quoted k).length + 1, true) := by
  unfold parseKeyToken
  rw [if_pos (by simp [quoted]), parseQuotedKey_quoted]

omit F [F64 F] [LawfulF64 F] in
theorem escaped_denotes (k : Str) : QuotedDenotes (escapeString k) k := by
  have h := keyLine_iff _ _ _ _ (parseKeyToken_quotedKey k [])
  have e : List.drop ((quoted k).length + 1) (quoted k ++ [':']) = [] := by simp
  rw [e] at h
  have hk : quoted k ++ [':'] = '"' :: escapeString k ++ '"' :: ':' :: [] := by simp [quoted]
  rw [hk] at h
  generalize ht : '"' :: escapeString k ++ '"' :: ':' :: [] = t at h
  generalize ha : ([] : Str) = after at h
  generalize hq : true = q at h
  cases h with
  | @quoted body _ _ hq =>
    subst ha
    have := List.append_cancel_right (List.cons.inj ht).2
    rwa [this]
  | bare => simp at hq

omit F [F64 F] [LawfulF64 F] in
theorem header_quotedKey (k s : Str) {h : Header} (hm : HeaderMeans ('[' :: s) h) :
    HeaderMeans (quoted k ++ '[' :: s) { h with key := some k, keyQuoted := true } := by
  obtain ⟨pre, seg, cols, after, ⟨rest, h1, h2, h3⟩, _, h5⟩ := hm
  obtain ⟨rfl, h6⟩ := beforeBracket_nil h1
  refine ⟨quoted k, seg, cols, after, ⟨rest, ?_, h2, h3⟩, ?_, h5⟩
  · rw [h6]
    have := BeforeBracket.quoted (ws := []) (body := escapeString k) (rest := s) (by simp [BlankLine])
      (quotedDenotes_literal (escaped_denotes k))
    simpa [quoted] using this
  · have e : quoted k = '"' :: escapeString k ++ ['"'] := by simp [quoted]
    refine .quoted ?_ (escaped_denotes k)
    rw [e]
    refine trim_eq_self ⟨by simp; decide, ?_⟩
    intro c hc
    rw [List.getLast?_append] at hc
    simp at hc
    rw [← hc]
    decide

omit F [F64 F] [LawfulF64 F] in
theorem keyLine_quotedHeader (k : Str) (n : Nat) (fields : Option (List Str)) {d : Char} (hd : GoodDelim d) (suffix : Str) :
    KeyLine (quoted k ++ (formatHeader n none fields d ++ suffix)) := by
  refine ⟨rfl, ?_, ?_, ?_, ?_⟩
  · apply Bool.eq_false_iff.mpr
    intro h
    have h := trim_eq_nil_iff.mp (List.isEmpty_iff.mp h)
    rw [quoted_append] at h
    simp [isWs] at h
  · unfold isArrayHeaderContent
    rw [trimStart_eq_self (by intro x hx; simp [quoted] at hx; subst hx; decide)]
    simp [quoted]
  · unfold isKeyValueContent findUnquotedChar
    rw [if_pos (by decide), unquotedCharAux_quoted, formatHeader_eq]
    have := Transparent.header (n := n) (key := none) (fields := fields) hd (':' :: suffix) (0 + (quoted k).length)
    rw [unquotedCharAux_hit (by decide)] at this
    rw [show keyText none ++ '[' :: (lengthText n d ++ ']' :: (fieldsText fields d ++ [':'])) ++ suffix =
      (keyText none ++ '[' :: (lengthText n d ++ ']' :: fieldsText fields d)) ++ ':' :: suffix by simp, this]
    rfl
  · unfold isKeyValueLine
    rw [if_pos (by simp [quoted]), findClosingQuote_quoted]
    simp only
    rw [List.drop_left' (quoted_length k), formatHeader_eq]
    simp

theorem kvRun_quotedArr {ctx : Ctx} {depth : Nat} {k c : Str} {tl : List OutLine} {evs : List (Ev F)}
    (h : ArrRun ctx depth c tl none (.ok evs)) : KVRun ctx depth (quoted k ++ c) tl (.ok (.key k true :: evs)) := by
  obtain ⟨n, fields, d, suffix, hd, hform⟩ := h.form
  refine ⟨by rw [hform]; exact keyLine_quotedHeader k n fields hd suffix, ?_⟩
  intro ls rest last fuel hpj hr hf
  obtain ⟨f, rfl⟩ : ∃ f, fuel = f + 1 := ⟨fuel - 1, by omega⟩
  rw [decodeKV]
  rcases h.run with ⟨e, hp, h⟩ | ⟨hh, hparse, hkey, hq, hdec⟩
  · simp at h
  · obtain ⟨last', e⟩ := hdec ls rest last f hpj hr (by omega)
    refine ⟨last', ?_⟩
    obtain ⟨s, hs⟩ : ∃ s, c = '[' :: s := by
      rw [hform, formatHeader_eq]
      exact ⟨_, by simp [keyText]; rfl⟩
    have hparse' : parseArrayHeaderLine (quoted k ++ c) ',' = .ok (some { hh with key := some k, keyQuoted := true }) := by
      rw [headerMeans_iff] at hparse ⊢
      rw [hs] at hparse ⊢
      exact header_quotedKey k s hparse
    have e' : decodeArray (F := F) ctx f { hh with key := some k, keyQuoted := true } ⟨ls ++ rest, last⟩ depth =
        decodeArray (F := F) ctx f hh ⟨ls ++ rest, last⟩ depth := by
      cases f with
      | zero => simp only [decodeArray]
      | succ f => simp only [decodeArray, decodeInline, decodeTabular]
    simp only [Reading.at] at e
    simp only [hparse', bind, Except.bind, keyedHeader, e', e, pure, Except.pure, Reading.at]

theorem kvRun_quotedObj {ctx : Ctx} {depth : Nat} {k : Str} {os : List OutLine} {evs : List (Ev F)}
    (h : KVRuns ctx (depth + 1) os (.ok evs)) :
    KVRun ctx depth (quoted k ++ [':']) os (.ok (.key k true :: .startObj :: evs ++ [.endObj])) := by
  refine ⟨keyLine_quotedKey k [], ?_⟩
  intro ls rest last fuel hpj hr hf
  obtain ⟨f, rfl⟩ : ∃ f, fuel = f + 1 := ⟨fuel - 1, by omega⟩
  obtain ⟨last', e⟩ := h.fields ls rest last f none hpj (fun l hl => Nat.lt_succ_of_le (hr l hl)) (by omega) (Or.inl rfl)
  have hdrop : (quoted k ++ [':']).drop ((quoted k).length + 1) = [] := by simp
  have hkey := parseKeyToken_quotedKey k []
  have hh : parseArrayHeaderLine (quoted k ++ [':']) ',' = .ok none := by
    unfold parseArrayHeaderLine
    rw [findBracketStart_quoted_other _ _ (by simp)]
  rw [decodeKV]
  simp only [hh, bind, Except.bind, keyedHeader, hkey, hdrop]
  rw [if_pos (by decide)]
  generalize hr0 : (Except.ok evs : Reading F) = r0 at h e
  cases h with
  | nil =>
    rw [Proj.nil_iff.mp hpj]
    simp only [Except.ok.injEq] at hr0
    subst hr0
    refine ⟨last, ?_⟩
    cases rest with
    | nil => simp [pure, Except.pure, Reading.at]
    | cons l rest =>
      simp [pure, Except.pure, Reading.at, Nat.not_lt.mpr (hr l rfl)]
  | cons h1 h2 =>
    obtain ⟨l, ls', rfl, hd, _, _⟩ := Proj.cons hpj
    refine ⟨last', ?_⟩
    simp only [List.cons_append] at e ⊢
    rw [if_pos (by rw [hd]; simp)]
    rw [← hr0] at e
    simp only [Reading.at] at e
    simp only [e, pure, Except.pure, Reading.at]

/-! ## Values -/

omit F [F64 F] [LawfulF64 F] in
theorem lineOk_quotedAppend (k : Str) {c : Str} (h : LineOk c) : LineOk (quoted k ++ c) := by
  have hq : TokForm ',' (quoted k) := Or.inl ⟨k, rfl⟩
  exact LineOk.append' hq.lineOk h

/-- Every key is in quotes. -/
def Quoted (t : ETree F) : Prop := t.AllKeys fun _ quoted => quoted = true

omit [F64 F] [LawfulF64 F] in
theorem treeKeys_prims {P : Str → Bool → Prop} (ps : List (Prim F)) : ETree.AllKeysItems P (ps.map ETree.prim) := by
  induction ps with
  | nil => simp [ETree.AllKeysItems]
  | cons p ps ih => simp [ETree.AllKeysItems, ETree.AllKeys, ih]

mutual
theorem treeKeys_mono {P Q : Str → Bool → Prop} (hPQ : ∀ k q, P k q → Q k q) : ∀ {t : ETree F}, t.AllKeys P → t.AllKeys Q
  | .prim _, _ => by rw [ETree.AllKeys]; trivial
  | .arr _ ts, h => by rw [ETree.AllKeys] at *; exact treeKeysItems_mono hPQ h
  | .obj es, h => by rw [ETree.AllKeys] at *; exact treeKeysEntries_mono hPQ h
theorem treeKeysItems_mono {P Q : Str → Bool → Prop} (hPQ : ∀ k q, P k q → Q k q) : ∀ {ts : List (ETree F)},
    ETree.AllKeysItems P ts → ETree.AllKeysItems Q ts
  | [], _ => by rw [ETree.AllKeysItems]; trivial
  | _ :: _, h => by rw [ETree.AllKeysItems] at *; exact ⟨treeKeys_mono hPQ h.1, treeKeysItems_mono hPQ h.2⟩
theorem treeKeysEntries_mono {P Q : Str → Bool → Prop} (hPQ : ∀ k q, P k q → Q k q) : ∀ {es : List (Str × Bool × ETree F)},
    ETree.AllKeysEntries P es → ETree.AllKeysEntries Q es
  | [], _ => by rw [ETree.AllKeysEntries]; trivial
  | (k, q, _) :: _, h => by
    rw [ETree.AllKeysEntries] at *
    exact ⟨hPQ k q h.1, treeKeys_mono hPQ h.2.1, treeKeysEntries_mono hPQ h.2.2⟩
end

/-- An array, and the keys of its tree. -/
theorem array_textKeys {P : Str → Bool → Prop} {strict : Bool} (key : Option Str) {items : List (Json F)} {depth : Nat} {os : List OutLine}
    {ts : List (ETree F)} (hn : NormalItems items)
    (hc : items.length ≤ 100000000 ∨ strict = false ∧ ∀ v ∈ items, ∃ p, v = .prim p)
    (h1 : ETree.jsonItems ts = items) (hk : ETree.AllKeysItems P ts) (h2 : LinesOk os)
    (h3 : ∀ ctx : Ctx, ctx.blanks = [] → (ctx.strict = true → strict = true) →
      ItemRuns ctx (depth + 1) os items.length (.ok (ETree.eventsItems ts))) :
    ∃ c tl t, ETree.json t = .arr items ∧ t.AllKeys P ∧ LineOk c ∧ LinesOk tl ∧
      ∀ ctx : Ctx, ctx.blanks = [] → (ctx.strict = true → strict = true) →
        ArrRun ctx depth c tl key (.ok (ETree.events t)) := by
  by_cases hl : items.length ≤ 100000000
  · refine ⟨_, os, .arr items.length ts, by simp [ETree.json, h1], by simpa [ETree.AllKeys] using hk,
      lineOk_header items.length key none (d := ',') (Or.inl rfl), h2, ?_⟩
    intro ctx hb hst
    have := arrRun_list hb (d := ',') (Or.inl rfl) (key := key) hl (h3 ctx hb hst)
    simpa [Reading.seq, ETree.events] using this
  · rcases hc with hc | ⟨hc, hp⟩
    · exact absurd hc hl
    have hall : isArrayOfPrims items = true := by
      unfold isArrayOfPrims
      apply List.all_eq_true.mpr
      intro v hv
      obtain ⟨p, rfl⟩ := hp v hv
      rfl
    have hall := primsOf_all hall
    have hne : primsOf items ≠ [] := by
      intro h0
      rw [h0] at hall
      rw [hall] at hl
      simp at hl
    refine ⟨_, [], .arr 0 ((primsOf items).map .prim), ?_, by rw [ETree.AllKeys]; exact treeKeys_prims _,
      ?_, .nil, fun ctx hb hst => arrRun_inlineLax ?_ hne (normal_primsOf hn)⟩
    · rw [ETree.json, jsonItems_map_prim, ← hall]
    · have := LineOk.append (lineOk_header 0 key none (d := ',') (Or.inl rfl)) (m := [' ']) (by simp) (by simp)
        (lineOk_joinPrims (d := ',') (Or.inl rfl) hne)
      simpa using this
    · cases hs : ctx.strict with
      | false => rfl
      | true => rw [hst hs] at hc; simp at hc

mutual

theorem entries_quotedText (strict : Bool) : ∀ (es : List (Str × Json F)) (depth : Nat), NormalEntries es → DeclarableEntries strict es →
    ∃ os ts, ETree.jsonEntries ts = es ∧ ETree.AllKeysEntries (fun _ q => q = true) ts ∧ LinesOk os ∧
      ∀ ctx : Ctx, ctx.blanks = [] → (ctx.strict = true → strict = true) → KVRuns ctx depth os (.ok (ETree.eventsEntries ts))
  | [], _, _, _ => ⟨[], [], rfl, by simp [ETree.AllKeysEntries], .nil, fun _ _ _ => .nil⟩
  | (k, v) :: es, depth, hn, hc => by
    simp only [NormalEntries] at hn
    simp only [DeclarableEntries] at hc
    obtain ⟨c, tl, t, h1, hk, h2, h3, h4⟩ := entry_quotedText strict k v depth hn.1 hc.1
    obtain ⟨os, ts, h5, hk', h6, h7⟩ := entries_quotedText strict es depth hn.2 hc.2
    refine ⟨⟨depth, c⟩ :: tl ++ os, (k, true, t) :: ts, by simp [ETree.jsonEntries, h1, h5],
      by simp only [ETree.AllKeysEntries]; exact ⟨trivial, hk, hk'⟩, (LinesOk.cons h2 h3).append h6, ?_⟩
    intro ctx hb hst
    have := KVRuns.cons (h4 ctx hb hst) (h7 ctx hb hst)
    simpa [Reading.seq, ETree.eventsEntries] using this
  termination_by es => sizeOf es

theorem entry_quotedText (strict : Bool) : ∀ (k : Str) (v : Json F) (depth : Nat), Normal v → Declarable strict v →
    ∃ c tl t, ETree.json t = v ∧ Quoted t ∧ LineOk c ∧ LinesOk tl ∧
      ∀ ctx : Ctx, ctx.blanks = [] → (ctx.strict = true → strict = true) → KVRun ctx depth c tl (.ok (.key k true :: ETree.events t))
  | k, .prim p, depth, hn, _ =>
    ⟨_, [], .prim p, by simp [ETree.json], by simp [Quoted, ETree.AllKeys], lineOk_quotedPrim k p, .nil, fun ctx _ _ => by
      simpa [ETree.events] using kvRun_quotedPrim (ctx := ctx) (depth := depth) (k := k) (by simpa [Normal] using hn)⟩
  | k, .arr items, depth, hn, hc => by
    simp only [Normal] at hn
    simp only [Declarable] at hc
    obtain ⟨os, ts, h1, hk, h2, h3⟩ := items_quotedText strict items (depth + 1) hn hc.2
    obtain ⟨c, tl, t, h4, hk', h5, h6, h7⟩ := array_textKeys none hn hc.1 h1 hk h2 h3
    exact ⟨quoted k ++ c, tl, t, h4, hk', lineOk_quotedAppend k h5, h6, fun ctx hb hst => kvRun_quotedArr (h7 ctx hb hst)⟩
  | k, .obj es, depth, hn, hc => by
    simp only [Normal] at hn
    simp only [Declarable] at hc
    obtain ⟨os, ts, h1, hk, h2, h3⟩ := entries_quotedText strict es (depth + 1) hn hc
    refine ⟨_, os, .obj ts, by simp [ETree.json, h1], by simpa [Quoted, ETree.AllKeys] using hk,
      lineOk_quotedAppend k (lineOk_char (c := ':') (by decide)), h2, ?_⟩
    intro ctx hb hst
    have := kvRun_quotedObj (k := k) (h3 ctx hb hst)
    simpa [ETree.events] using this
  termination_by _ v => sizeOf v

theorem items_quotedText (strict : Bool) : ∀ (items : List (Json F)) (depth : Nat), NormalItems items → DeclarableItems strict items →
    ∃ os ts, ETree.jsonItems ts = items ∧ ETree.AllKeysItems (fun _ q => q = true) ts ∧ LinesOk os ∧
      ∀ ctx : Ctx, ctx.blanks = [] → (ctx.strict = true → strict = true) → ItemRuns ctx depth os items.length (.ok (ETree.eventsItems ts))
  | [], _, _, _ => ⟨[], [], rfl, by simp [ETree.AllKeysItems], .nil, fun _ _ _ => .nil⟩
  | v :: vs, depth, hn, hc => by
    simp only [NormalItems] at hn
    simp only [DeclarableItems] at hc
    obtain ⟨c, tl, t, h1, hk, h2, h3, h4⟩ := item_quotedText strict v depth hn.1 hc.1
    obtain ⟨os, ts, h5, hk', h6, h7⟩ := items_quotedText strict vs depth hn.2 hc.2
    refine ⟨⟨depth, c⟩ :: tl ++ os, t :: ts, by simp [ETree.jsonItems, h1, h5],
      by simp only [ETree.AllKeysItems]; exact ⟨hk, hk'⟩, (LinesOk.cons h2 h3).append h6, ?_⟩
    intro ctx hb hst
    have := ItemRuns.cons (h4 ctx hb hst) (h7 ctx hb hst)
    simpa [Reading.seq, ETree.eventsItems] using this
  termination_by items => sizeOf items

theorem item_quotedText (strict : Bool) : ∀ (v : Json F) (depth : Nat), Normal v → Declarable strict v →
    ∃ c tl t, ETree.json t = v ∧ Quoted t ∧ LineOk c ∧ LinesOk tl ∧
      ∀ ctx : Ctx, ctx.blanks = [] → (ctx.strict = true → strict = true) → ItemRun ctx depth c tl (.ok (ETree.events t))
  | .prim p, depth, hn, _ =>
    ⟨_, [], .prim p, by simp [ETree.json], by simp [Quoted, ETree.AllKeys],
      lineOk_dash (encodePrimitive_tok (d := ',') (Or.inl rfl) p).lineOk, .nil,
      fun ctx _ _ => by
        simpa [ETree.events, emitEvents] using
          (itemSpec_prim (ctx := ctx) (depth := depth) (d := ',') (Or.inl rfl) (by simpa [Normal] using hn)).run⟩
  | .arr items, depth, hn, hc => by
    simp only [Normal] at hn
    simp only [Declarable] at hc
    obtain ⟨os, ts, h1, hk, h2, h3⟩ := items_quotedText strict items (depth + 1) hn hc.2
    obtain ⟨c, tl, t, h4, hk', h5, h6, h7⟩ := array_textKeys none hn hc.1 h1 hk h2 h3
    exact ⟨dash c, tl, t, h4, hk', lineOk_dash h5, h6, fun ctx hb hst => itemRun_arr (h7 ctx hb hst)⟩
  | .obj [], depth, _, _ =>
    ⟨['-'], [], .obj [], by simp [ETree.json, ETree.jsonEntries], by simp [Quoted, ETree.AllKeys, ETree.AllKeysEntries],
      lineOk_char (by decide), .nil, fun ctx _ _ => by
      simpa [ETree.events, ETree.eventsEntries, emitEvents, emitEntries] using
        (itemSpec_empty (F := F) (ctx := ctx) (depth := depth)).run⟩
  | .obj ((k, v) :: es), depth, hn, hc => by
    simp only [Normal, NormalEntries] at hn
    simp only [Declarable, DeclarableEntries] at hc
    obtain ⟨c, tl, t, h1, hk, h2, h3, h4⟩ := entry_quotedText strict k v (depth + 1) hn.1 hc.1
    obtain ⟨os, ts, h5, hk', h6, h7⟩ := entries_quotedText strict es (depth + 1) hn.2 hc.2
    refine ⟨_, tl ++ os, .obj ((k, true, t) :: ts), by simp [ETree.json, ETree.jsonEntries, h1, h5],
      by simp only [Quoted, ETree.AllKeys, ETree.AllKeysEntries]; exact ⟨trivial, hk, hk'⟩, lineOk_dash h2, h3.append h6, ?_⟩
    intro ctx hb hst
    have := itemRun_obj (h4 ctx hb hst) (h7 ctx hb hst)
    simpa [Reading.seq, ETree.events, ETree.eventsEntries] using this
  termination_by v => sizeOf v

end

/-- Every value with plain numbers and capped arrays has lines with quoted keys that are read as it. -/
theorem value_quotedText (strict : Bool) (v : Json F) (hn : Normal v) (hc : Declarable strict v) :
    ∃ os t, ETree.json t = v ∧ Quoted t ∧ LinesOk os ∧
      ∀ ctx : Ctx, ctx.blanks = [] → (ctx.strict = true → strict = true) → ∀ lines, Proj lines os →
        decodeLines ctx lines = .ok (ETree.events t) := by
  cases v with
  | prim p =>
    refine ⟨encodeValue ⟨2, ',', false, 0⟩ (.prim p), .prim p, by simp [ETree.json], by simp [Quoted, ETree.AllKeys], ?_, ?_⟩
    · exact fun l hl => (linesIn_value (opts := ⟨2, ',', false, 0⟩) (Or.inl rfl) (Json.prim p) l hl).1
    · intro ctx hb hst lines hp
      rw [decodeLines_written hb (Or.inl rfl) (by simp [Writable]) hn hp]
      simp [shape, emitEvents, ETree.events]
  | arr items =>
    simp only [Normal] at hn
    simp only [Declarable] at hc
    obtain ⟨os, ts, h1, hk, h2, h3⟩ := items_quotedText strict items 1 hn hc.2
    obtain ⟨c, tl, t, h4, hk', h5, h6, h7⟩ := array_textKeys none hn hc.1 h1 hk h2 h3
    exact ⟨⟨0, c⟩ :: tl, t, h4, hk', h6.cons h5, fun ctx hb hst lines hp => decodeLines_array (h7 ctx hb hst) hp⟩
  | obj es =>
    simp only [Normal] at hn
    simp only [Declarable] at hc
    obtain ⟨os, ts, h1, hk, h2, h3⟩ := entries_quotedText strict es 0 hn hc
    refine ⟨os, .obj ts, by simp [ETree.json, h1], by simpa [Quoted, ETree.AllKeys] using hk, h2, ?_⟩
    intro ctx hb hst lines hp
    simpa [ETree.events] using decodeLines_object (h3 ctx hb hst) hp

end

end Toon
