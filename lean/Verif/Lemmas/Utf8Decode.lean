import Verif.Lemmas.Utf8Parse

/-!
# The byte-level decoder computes what the character-level one does
-/

namespace Toon.Utf8

/-! ## Scanning -/

theorem indent_eq {p : UInt8 → Bool} {q : Char → Bool} (ha : ∀ c : Char, c.toNat < 128 →
    p (UInt8.ofNat c.toNat) = q c) (hb : ∀ b : UInt8, 128 ≤ b.toNat → p b = false)
    (hq : ∀ c, q c = true → c.toNat < 128) (s : Str) :
    ((bytes s).takeWhile p).length = (s.takeWhile q).length ∧
      (s.takeWhile q).length = off s (s.takeWhile q).length ∧
      s.take (s.takeWhile q).length = s.takeWhile q := by
  obtain ⟨h1, _, h3⟩ := takeWhile_bytes ha hb hq s
  have ht : s.take (s.takeWhile q).length = s.takeWhile q := by
    have h := (List.takeWhile_prefix q (l := s))
    exact (List.prefix_iff_eq_take.mp h).symm
  refine ⟨?_, ?_, ht⟩
  · rw [h1]; exact h3
  · rw [off, ht]; exact h3.symm

theorem parseLine_eq (raw : Str) (num n : Nat) (strict : Bool) :
    parseLine raw num n strict = lift (Toon.parseLine raw num n strict) := by
  have hsp := indent_eq (p := (· == 0x20)) (q := (· == ' '))
    (fun c hc => by
      rw [Bool.eq_iff_iff]; simp only [beq_iff_eq]
      exact ascii_eq hc (d := ' ') (by decide))
    (fun b hb => by simpa using high_ne hb (by decide))
    (fun c hc => by simp only [beq_iff_eq] at hc; subst hc; decide) raw
  have hws := indent_eq (p := fun b => b == 0x20 || b == 0x09) (q := fun c => c == ' ' || c == '\t')
    (fun c hc => by
      rw [Bool.eq_iff_iff]; simp only [Bool.or_eq_true, beq_iff_eq]
      exact or_congr (ascii_eq hc (d := ' ') (by decide)) (ascii_eq hc (d := '\t') (by decide)))
    (fun b hb => by simp [high_ne hb (x := 0x20) (by decide), high_ne hb (x := 0x09) (by decide)])
    (fun c hc => by
      simp only [Bool.or_eq_true, beq_iff_eq] at hc
      rcases hc with rfl | rfl <;> decide) raw
  rw [parseLine, Toon.parseLine]
  dsimp only
  rw [hsp.1, hws.1]
  have hs : sliceFrom raw (raw.takeWhile (· == ' ')).length = .ok (raw.drop (raw.takeWhile (· == ' ')).length) := by
    conv => lhs; rw [hsp.2.1]
    rw [sliceFrom_off]
  have ht : sliceTo raw (raw.takeWhile (fun c => c == ' ' || c == '\t')).length =
      .ok (raw.takeWhile (fun c => c == ' ' || c == '\t')) := by
    conv => lhs; rw [hws.2.1]
    rw [sliceTo_off, hws.2.2]
  rw [hs]
  simp only [ok_bind, ht]
  split
  · rfl
  · split
    · split
      · rfl
      · split
        · split <;> rfl
        · split <;> rfl
    · rfl

theorem parseLines_eq (n : Nat) (strict : Bool) : ∀ (ls : List Str) (num : Nat),
    parseLines n strict ls num = lift (Toon.parseLines n strict ls num)
  | [], _ => rfl
  | raw :: rest, num => by
    rw [parseLines, Toon.parseLines, parseLine_eq, parseLines_eq n strict rest]
    cases Toon.parseLine raw (num + 1) n strict with
    | error e => rfl
    | ok sc =>
      cases Toon.parseLines n strict rest (num + 1) with
      | error e => rfl
      | ok p => cases sc <;> rfl

/-! ## Line classification -/

theorem isArrayHeaderContent_eq (s : Str) : isArrayHeaderContent s = Toon.isArrayHeaderContent s := by
  rw [isArrayHeaderContent, Toon.isArrayHeaderContent, findUnquotedChar_eq, Option.isSome_map]

theorem isKeyValueContent_eq (s : Str) : isKeyValueContent s = Toon.isKeyValueContent s := by
  rw [isKeyValueContent, Toon.isKeyValueContent, findUnquotedChar_eq, Option.isSome_map]

theorem isDataRow_eq (s : Str) (d : Char) : isDataRow s d = Toon.isDataRow s d := by
  rw [isDataRow, Toon.isDataRow, findUnquotedChar_eq, findUnquotedChar_eq]
  cases hc : Toon.findUnquotedChar s ':' with
  | none => cases Toon.findUnquotedChar s d <;> rfl
  | some c =>
    cases hd : Toon.findUnquotedChar s d with
    | none => rfl
    | some k =>
      simp only [Option.map_some]
      rw [Bool.eq_iff_iff]
      simp only [decide_eq_true_eq]
      exact off_lt_iff (Nat.le_of_lt (findUnquotedChar_lt hd)) (Nat.le_of_lt (findUnquotedChar_lt hc))

theorem noExtraRows_eq (next : Option Line) (n m : Nat) (d : Char) (strict : Bool) :
    noExtraRows next n m d strict = Toon.noExtraRows next n m d strict := by
  cases next with
  | none => rfl
  | some l => simp only [noExtraRows, Toon.noExtraRows, isDataRow_eq]

theorem isKeyValueLine_eq (s : Str) : isKeyValueLine s = .ok (Toon.isKeyValueLine s) := by
  rw [isKeyValueLine, Toon.isKeyValueLine]
  split
  · rename_i hq
    rw [findClosingQuote_eq hq]
    cases hc : Toon.findClosingQuote s 0 with
    | none => rfl
    | some k =>
      simp only [Option.map_some]
      rw [← off_succ_of (findClosingQuote_get hc).1 (by decide), sliceFrom_off]
      rfl
  · rfl

theorem rootHeader_eq (s : Str) : rootHeader s = lift (Toon.rootHeader s) := by
  rw [rootHeader, Toon.rootHeader, isArrayHeaderContent_eq, parseArrayHeaderLine_eq]
  split <;> rfl

section
variable {F : Type} [F64 F]

theorem parsePrimitiveToken_eq (t : Str) :
    parsePrimitiveToken (F := F) t = lift (Toon.parsePrimitiveToken t) := by
  rw [parsePrimitiveToken, Toon.parsePrimitiveToken, parseStringLiteral_eq, isNumericLiteral_eq]
  split
  · rfl
  · split
    · cases Toon.parseStringLiteral (trim t) <;> rfl
    · split
      · split
        · rfl
        · split <;> rfl
      · split
        · cases (F64.parse (trim t) : Option F) <;> rfl
        · rfl

theorem mapRowValues_eq : ∀ l : List Str,
    mapRowValues (F := F) l = lift (Toon.mapRowValues l)
  | [] => rfl
  | v :: vs => by
    rw [mapRowValues, Toon.mapRowValues, parsePrimitiveToken_eq, mapRowValues_eq vs]
    cases Toon.parsePrimitiveToken (F := F) v with
    | error e => rfl
    | ok p => cases Toon.mapRowValues (F := F) vs <;> rfl

theorem decodeInline_eq (h : Header) (inline : Str) (strict : Bool) :
    decodeInline (F := F) h inline strict = lift (Toon.decodeInline h inline strict) := by
  rw [decodeInline, Toon.decodeInline]
  split
  · rw [lift_bind]; rfl
  · rw [mapRowValues_eq, lift_bind]
    congr 1
    funext a
    rw [lift_bind]; rfl

theorem tabularLoop_eq (ctx : Ctx) (fields : List FieldName) (d : Char) (length rowDepth : Nat) :
    ∀ (rest : List Line) (last : Option Line) (count : Nat) (start «end» : Option Nat),
    tabularLoop (F := F) ctx fields d length rowDepth rest last count start «end» =
      lift (Toon.tabularLoop ctx fields d length rowDepth rest last count start «end»)
  | [], _, _, _, _ => rfl
  | line :: rest, last, count, start, «end» => by
    rw [tabularLoop.eq_def, Toon.tabularLoop.eq_def]
    dsimp only
    split
    · split
      · rfl
      · split
        · rw [lift_bind]
          congr 1
          funext u
          rw [lift_bind, mapRowValues_eq]
          congr 1
          funext ps
          rw [lift_bind, tabularLoop_eq ctx fields d length rowDepth rest]
          rfl
        · rfl
    · rfl

theorem decodeTabular_eq (ctx : Ctx) (h : Header) (fields : List FieldName) (cur : Cur) (base : Nat) :
    decodeTabular (F := F) ctx h fields cur base = lift (Toon.decodeTabular ctx h fields cur base) := by
  rw [decodeTabular, Toon.decodeTabular, lift_bind, tabularLoop_eq]
  congr 1
  funext out
  rw [lift_bind]
  congr 1
  funext u
  rw [lift_bind]
  congr 1
  funext u
  rw [lift_bind, noExtraRows_eq]
  rfl

/-! ## The mutual block -/

theorem startsWithDash_slice {s : Str} (h : startsWithDash s = true) :
    sliceFrom s 2 = .ok (s.drop 2) := by
  have : ∃ r, s = '-' :: ' ' :: r := by
    unfold startsWithDash at h
    split at h
    · exact ⟨_, rfl⟩
    · simp at h
  obtain ⟨r, rfl⟩ := this
  have h2 : off ('-' :: ' ' :: r) 2 = 2 := by
    rw [show (2 : Nat) = 1 + 1 from rfl, off_cons_succ, show (1 : Nat) = 0 + 1 from rfl, off_cons_succ,
      off_zero, enc_ascii (by decide), enc_ascii (by decide)]
    rfl
  have := sliceFrom_off ('-' :: ' ' :: r) 2
  rwa [h2] at this

/-- All functions of the mutual block agree at one budget. -/
structure Agree (F : Type) [F64 F] (ctx : Ctx) (fuel : Nat) : Prop where
  kv : ∀ content cur base, decodeKV (F := F) ctx fuel content cur base =
    lift (Toon.decodeKV ctx fuel content cur base)
  fields : ∀ cur base computed, decodeFields (F := F) ctx fuel cur base computed =
    lift (Toon.decodeFields ctx fuel cur base computed)
  arr : ∀ h cur base, decodeArray (F := F) ctx fuel h cur base =
    lift (Toon.decodeArray ctx fuel h cur base)
  list : ∀ length itemDepth cur count start «end»,
    listLoop (F := F) ctx fuel length itemDepth cur count start «end» =
      lift (Toon.listLoop ctx fuel length itemDepth cur count start «end»)
  item : ∀ cur base, decodeItem (F := F) ctx fuel cur base = lift (Toon.decodeItem ctx fuel cur base)
  rest : ∀ after cur base, decodeItemRest (F := F) ctx fuel after cur base =
    lift (Toon.decodeItemRest ctx fuel after cur base)
  follow : ∀ cur d, followLoop (F := F) ctx fuel cur d = lift (Toon.followLoop ctx fuel cur d)

theorem agree (ctx : Ctx) : ∀ fuel, Agree F ctx fuel
  | 0 => by
    refine ⟨?_, ?_, ?_, ?_, ?_, ?_, ?_⟩
    · intros; rw [decodeKV, Toon.decodeKV]; rfl
    · intros; rw [decodeFields, Toon.decodeFields]; rfl
    · intros; rw [decodeArray, Toon.decodeArray]; rfl
    · intros; rw [listLoop, Toon.listLoop]; rfl
    · intros; rw [decodeItem, Toon.decodeItem]; rfl
    · intros; rw [decodeItemRest, Toon.decodeItemRest]; rfl
    · intros; rw [followLoop, Toon.followLoop]; rfl
  | fuel + 1 => by
    have ih := agree ctx fuel
    refine ⟨?_, ?_, ?_, ?_, ?_, ?_, ?_⟩
    · intro content cur base
      rw [decodeKV, Toon.decodeKV, parseArrayHeaderLine_eq]
      cases Toon.parseArrayHeaderLine content ',' with
      | error e => rfl
      | ok hdr =>
        simp only [lift_ok, ok_bind]
        cases keyedHeader hdr with
        | some kh =>
          obtain ⟨key, h⟩ := kh
          dsimp only
          rw [ih.arr, lift_bind]; rfl
        | none =>
          dsimp only
          rw [parseKeyToken_eq]
          cases Toon.parseKeyToken content with
          | error e => rfl
          | ok keq =>
            obtain ⟨key, e, q⟩ := keq
            simp only [lift_ok, Except.map, ok_bind]
            rw [sliceFrom_off]
            simp only [ok_bind]
            split
            · cases cur.rest with
              | nil => rfl
              | cons next r =>
                dsimp only
                split
                · rw [ih.fields, lift_bind]; rfl
                · rfl
            · rw [parsePrimitiveToken_eq, lift_bind]; rfl
    · intro cur base computed
      rw [decodeFields, Toon.decodeFields]
      obtain ⟨rs, last⟩ := cur
      cases rs with
      | nil => rfl
      | cons line rest =>
        dsimp only
        split
        · rfl
        · split
          · rw [ih.kv, lift_bind]
            congr 1
            funext p
            rw [ih.fields, lift_bind]; rfl
          · rfl
    · intro h cur base
      rw [decodeArray, Toon.decodeArray]
      cases h.inline with
      | some inline =>
        dsimp only
        rw [decodeInline_eq, lift_bind]; rfl
      | none =>
        dsimp only
        split
        · rw [ih.list, lift_bind]
          congr 1
          funext out
          rw [lift_bind]
          congr 1
          funext u
          rw [lift_bind]
          congr 1
          funext u
          rw [lift_bind]; rfl
        · rw [decodeTabular_eq, lift_bind]; rfl
    · intro length itemDepth cur count start «end»
      rw [listLoop, Toon.listLoop]
      obtain ⟨rs, last⟩ := cur
      cases rs with
      | nil => rfl
      | cons line rest =>
        dsimp only
        split
        · split
          · rfl
          · split
            · rw [ih.item, lift_bind]
              congr 1
              funext p
              rw [ih.list, lift_bind]; rfl
            · rfl
        · rfl
    · intro cur base
      rw [decodeItem, Toon.decodeItem]
      obtain ⟨rs, last⟩ := cur
      cases rs with
      | nil => rfl
      | cons line rest =>
        dsimp only
        split
        · rfl
        · split
          · rename_i hd
            rw [startsWithDash_slice hd]
            simp only [ok_bind]
            split
            · rfl
            · rw [parseArrayHeaderLine_eq, isArrayHeaderContent_eq, lift_bind]
              congr 1
              funext hdr
              have hrest : (match keyedHeader hdr with
                  | some (key, h) =>
                    if h.fields.isSome then do
                      let p ← decodeArray (F := F) ctx fuel h ⟨rest, some line⟩ (base + 1)
                      let p' ← followLoop ctx fuel p.2 (base + 1)
                      return (.startObj :: .key key h.keyQuoted :: p.1 ++ p'.1 ++ [.endObj], p'.2)
                    else decodeItemRest ctx fuel (line.content.drop 2) ⟨rest, some line⟩ base
                  | none => decodeItemRest ctx fuel (line.content.drop 2) ⟨rest, some line⟩ base) =
                  lift (match keyedHeader hdr with
                  | some (key, h) =>
                    if h.fields.isSome then do
                      let p ← Toon.decodeArray (F := F) ctx fuel h ⟨rest, some line⟩ (base + 1)
                      let p' ← Toon.followLoop ctx fuel p.2 (base + 1)
                      return (.startObj :: .key key h.keyQuoted :: p.1 ++ p'.1 ++ [.endObj], p'.2)
                    else Toon.decodeItemRest ctx fuel (line.content.drop 2) ⟨rest, some line⟩ base
                  | none => Toon.decodeItemRest ctx fuel (line.content.drop 2) ⟨rest, some line⟩ base) := by
                cases keyedHeader hdr with
                | none => exact ih.rest _ _ _
                | some kh =>
                  obtain ⟨key, h⟩ := kh
                  dsimp only
                  split
                  · rw [ih.arr, lift_bind]
                    congr 1
                    funext p
                    rw [ih.follow, lift_bind]; rfl
                  · exact ih.rest _ _ _
              cases Toon.isArrayHeaderContent (line.content.drop 2) with
              | false => exact hrest
              | true =>
                cases hdr with
                | none => exact hrest
                | some h => exact ih.arr _ _ _
          · rfl
    · intro after cur base
      rw [decodeItemRest, Toon.decodeItemRest, isKeyValueContent_eq]
      split
      · rw [ih.kv, lift_bind]
        congr 1
        funext p
        obtain ⟨evs, c⟩ := p
        dsimp only
        rw [ih.follow, lift_bind]; rfl
      · rw [parsePrimitiveToken_eq, lift_bind]; rfl
    · intro cur d
      rw [followLoop, Toon.followLoop]
      obtain ⟨rs, last⟩ := cur
      cases rs with
      | nil => rfl
      | cons line rest =>
        dsimp only
        split
        · rfl
        · split
          · rw [ih.kv, lift_bind]
            congr 1
            funext p
            rw [ih.follow, lift_bind]; rfl
          · rfl

theorem rootLoop_eq (ctx : Ctx) : ∀ (fuel : Nat) (cur : Cur),
    rootLoop (F := F) ctx fuel cur = lift (Toon.rootLoop ctx fuel cur)
  | 0, _ => rfl
  | fuel + 1, cur => by
    rw [rootLoop, Toon.rootLoop]
    obtain ⟨rs, last⟩ := cur
    cases rs with
    | nil => rfl
    | cons line rest =>
      dsimp only
      split
      · rfl
      · rw [(agree ctx fuel).kv, lift_bind]
        congr 1
        funext p
        rw [rootLoop_eq ctx fuel, lift_bind]; rfl

theorem decodeLines_eq (ctx : Ctx) (ls : List Line) :
    decodeLines (F := F) ctx ls = lift (Toon.decodeLines ctx ls) := by
  rw [decodeLines.eq_def, Toon.decodeLines.eq_def]
  dsimp only
  cases ls with
  | nil => rfl
  | cons first rest =>
    dsimp only
    rw [rootHeader_eq, lift_bind]
    congr 1
    funext hdr
    cases hdr with
    | some h =>
      dsimp only
      rw [(agree ctx _).arr, lift_bind]; rfl
    | none =>
      dsimp only
      rw [isKeyValueLine_eq]
      have hkv : ∀ fuel, (do
          let p ← decodeKV (F := F) ctx fuel first.content ⟨rest, some first⟩ 0
          let p' ← rootLoop ctx fuel p.2
          return (Ev.startObj :: p.1 ++ p'.1 ++ [.endObj] : List (Ev F)) : Except Stop (List (Ev F))) =
          lift (do
          let p ← Toon.decodeKV (F := F) ctx fuel first.content ⟨rest, some first⟩ 0
          let p' ← Toon.rootLoop ctx fuel p.2
          return (Ev.startObj :: p.1 ++ p'.1 ++ [.endObj] : List (Ev F))) := by
        intro fuel
        rw [(agree ctx fuel).kv, lift_bind]
        congr 1
        funext p
        rw [rootLoop_eq, lift_bind]; rfl
      cases hr : rest with
      | nil =>
        rw [hr] at hkv
        simp only [List.isEmpty_nil, if_true, ok_bind, Bool.true_and]
        split
        · rw [parsePrimitiveToken_eq, lift_bind]; rfl
        · exact hkv _
      | cons a r =>
        rw [hr] at hkv
        simp only [List.isEmpty_cons, Bool.false_eq_true, if_false, pure_ok, ok_bind, Bool.not_true,
          Bool.false_and]
        exact hkv _

theorem decodeStream_eq (indent : Nat) (strict : Bool) (source : List Str) :
    decodeStream (F := F) indent strict source = lift (Toon.decodeStream indent strict source) := by
  rw [decodeStream, Toon.decodeStream, parseLines_eq, lift_bind]
  congr 1
  funext p
  exact decodeLines_eq _ _

theorem decodeFromLines_eq (opts : DecOpts) (lines : List Str) :
    decodeFromLines (F := F) opts lines = lift (Toon.decodeFromLines opts lines) := by
  rw [decodeFromLines, Toon.decodeFromLines, decodeStream_eq, lift_bind]
  congr 1
  funext events
  rw [lift_bind]
  congr 1
  funext node
  split
  · rw [lift_bind]; rfl
  · rfl

end

end Toon.Utf8
