import Verif.Lemmas.DecodeAll

/-! The recursion budget of the decoder never runs out. -/

namespace Toon

/-- Not the model's out-of-fuel error. -/
def NF {α : Type} (x : Except Err α) : Prop := x ≠ .error .fuel

theorem NF.ok {α : Type} (a : α) : NF (.ok a : Except Err α) := by simp [NF]
theorem NF.pure {α : Type} (a : α) : NF (pure a : Except Err α) := by simp [NF, Pure.pure, Except.pure]
theorem NF.err {α : Type} {e : Err} (h : e ≠ .fuel) : NF (.error e : Except Err α) := by simpa [NF] using h

theorem NF.bind {α β : Type} {x : Except Err α} {f : α → Except Err β} (h : NF x) (hf : ∀ a, x = .ok a → NF (f a)) :
    NF (x >>= f) := by
  cases x with
  | error e => simp only [NF, ne_eq, Except.error.injEq] at h ⊢; simpa [Bind.bind, Except.bind] using h
  | ok a => exact hf a rfl

/-! ## Parsers -/

theorem nf_unescape (s : Str) : NF (unescapeString s) := by
  fun_induction unescapeString s <;> simp_all [NF]

theorem nf_stringLiteral (s : Str) : NF (parseStringLiteral s) := by
  unfold parseStringLiteral
  simp only
  split
  · split
    · simp [NF]
    · split
      · simp [NF]
      · exact nf_unescape _
  · simp [NF]

theorem nf_fields (fs : List Str) : NF (parseFields fs) := by
  induction fs with
  | nil => simp [NF, parseFields]
  | cons f fs ih =>
    rw [parseFields]
    have h := nf_stringLiteral (trim f)
    cases hx : parseStringLiteral (trim f) with
    | error e => rw [hx] at h; simpa [NF] using h
    | ok n =>
      simp only
      cases hy : parseFields fs with
      | error e => rw [hy] at ih; simpa [NF] using ih
      | ok ns => simp [NF]

theorem nf_bracketStart (s : Str) : NF (findBracketStart s) := by
  unfold findBracketStart
  simp only
  split
  · split
    · simp [NF]
    · split <;> simp [NF]
  · simp [NF]

theorem nf_headerKey (s : Str) (n : Nat) : NF (parseHeaderKey s n) := by
  unfold parseHeaderKey
  simp only
  split
  · split
    · have h := nf_stringLiteral (trim (s.take n))
      cases hx : parseStringLiteral (trim (s.take n)) with
      | error e => rw [hx] at h; simpa [NF] using h
      | ok n => simp [NF]
    · split <;> simp [NF]
  · simp [NF]

theorem nf_headerFields (s : Str) (a b : Nat) (d : Char) : NF (parseHeaderFields s a b d) := by
  unfold parseHeaderFields
  split
  · simp [NF]
  · split
    · split
      · simp [NF]
      · split
        · split
          · rename_i heq
            have h := heq ▸ nf_fields _
            simpa [NF] using h
          · simp [NF]
        · simp [NF]
    · simp [NF]

theorem nf_header (s : Str) (d : Char) : NF (parseArrayHeaderLine s d) := by
  unfold parseArrayHeaderLine
  split
  · rename_i heq
    have h := nf_bracketStart s
    rw [heq] at h; simpa [NF] using h
  · simp [NF]
  · split
    · simp [NF]
    · split
      · simp [NF]
      · split
        · rename_i heq
          have h := heq ▸ nf_headerKey _ _
          simpa [NF] using h
        · simp only
          split
          · simp [NF]
          · split
            · simp [NF]
            · split
              · rename_i heq
                have h := heq ▸ nf_headerFields _ _ _ _
                simpa [NF] using h
              · simp [NF]

theorem nf_keyToken (s : Str) : NF (parseKeyToken s) := by
  unfold parseKeyToken
  split
  · unfold parseQuotedKey
    split
    · rename_i heq
      split at heq
      · simp at heq; subst heq; simp [NF]
      · split at heq
        · rename_i heq'
          have h := heq' ▸ nf_unescape _
          simp at heq; subst heq; simpa [NF] using h
        · split at heq
          · simp at heq
          · simp at heq; subst heq; simp [NF]
    · simp [NF]
  · unfold parseUnquotedKey
    split
    · rename_i heq
      split at heq
      · simp at heq; subst heq; simp [NF]
      · simp at heq
    · simp [NF]

section
variable {F : Type} [F64 F]

theorem nf_primitive (s : Str) : NF (parsePrimitiveToken (F := F) s) := by
  unfold parsePrimitiveToken
  simp only
  split
  · simp [NF]
  · split
    · have h := nf_stringLiteral (trim s)
      cases hx : parseStringLiteral (trim s) with
      | error e => rw [hx] at h; simpa [NF] using h
      | ok n => simp [NF]
    · split
      · split
        · simp [NF]
        · split <;> simp [NF]
      · split
        · split <;> simp [NF]
        · simp [NF]

theorem nf_row (vs : List Str) : NF (mapRowValues (F := F) vs) := by
  induction vs with
  | nil => simp [NF, mapRowValues]
  | cons v vs ih =>
    rw [mapRowValues]
    have h := nf_primitive (F := F) v
    cases hx : parsePrimitiveToken (F := F) v with
    | error e => rw [hx] at h; simpa [NF] using h
    | ok n =>
      simp only
      cases hy : mapRowValues (F := F) vs with
      | error e => rw [hy] at ih; simpa [NF] using ih
      | ok ns => simp [NF]

omit F [F64 F] in
theorem nf_assertCount (a b : Nat) (w : Counted) (s : Bool) : NF (assertCount a b w s) := by
  unfold assertCount; split <;> simp [NF]
omit F [F64 F] in
theorem nf_extraItems (l : Option Line) (d n : Nat) (s : Bool) : NF (noExtraItems l d n s) := by
  unfold noExtraItems; split
  · simp [NF]
  · split <;> simp [NF]
omit F [F64 F] in
theorem nf_extraRows (l : Option Line) (d n : Nat) (c : Char) (s : Bool) : NF (noExtraRows l d n c s) := by
  unfold noExtraRows; split
  · simp [NF]
  · split <;> simp [NF]
omit F [F64 F] in
theorem nf_blanks (ctx : Ctx) (t : Bool) (a b : Option Nat) : NF (checkBlanks ctx t a b) := by
  unfold checkBlanks; split
  · unfold noBlankInRange; split
    · split <;> simp [NF]
    · simp [NF]
  · simp [NF]

theorem nf_inline (h : Header) (s : Str) (b : Bool) : NF (decodeInline (F := F) h s b) := by
  unfold decodeInline
  split
  · exact (nf_assertCount _ _ _ _).bind fun _ _ => .pure _
  · exact (nf_row _).bind fun _ _ => (nf_assertCount _ _ _ _).bind fun _ _ => .pure _

theorem nf_tabularLoop (ctx : Ctx) (fields : List FieldName) (d : Char) (length rowDepth : Nat)
    (rest : List Line) (last : Option Line) (count : Nat) (s e : Option Nat) :
    NF (tabularLoop (F := F) ctx fields d length rowDepth rest last count s e) := by
  induction rest generalizing last count s e with
  | nil => rw [tabularLoop]; simp [NF]
  | cons line rest ih =>
    rw [tabularLoop.eq_def]
    simp only
    split
    · split
      · simp [NF]
      · split
        · exact (nf_assertCount _ _ _ _).bind fun _ _ => (nf_row _).bind fun _ _ => (ih _ _ _ _).bind fun _ _ => .pure _
        · simp [NF]
    · simp [NF]

theorem nf_tabular (ctx : Ctx) (h : Header) (fields : List FieldName) (cur : Cur) (base : Nat) :
    NF (decodeTabular (F := F) ctx h fields cur base) := by
  unfold decodeTabular
  exact (nf_tabularLoop _ _ _ _ _ _ _ _ _ _).bind fun _ _ => (nf_assertCount _ _ _ _).bind fun _ _ => (nf_blanks _ _ _ _).bind fun _ _ =>
    (nf_extraRows _ _ _ _ _).bind fun _ _ => .pure _

/-! ## The recursion -/

structure FuelClaims (F : Type) [F64 F] (ctx : Ctx) (fuel : Nat) : Prop where
  kv : ∀ content cur base, 5 * cur.rest.length + 3 ≤ fuel → NF (decodeKV (F := F) ctx fuel content cur base)
  fields : ∀ cur base comp, 5 * cur.rest.length + 1 ≤ fuel → NF (decodeFields (F := F) ctx fuel cur base comp)
  array : ∀ h cur base, 5 * cur.rest.length + 2 ≤ fuel → NF (decodeArray (F := F) ctx fuel h cur base)
  list : ∀ length depth cur count s e, 5 * cur.rest.length + 1 ≤ fuel →
    NF (listLoop (F := F) ctx fuel length depth cur count s e)
  item : ∀ cur base, 5 * cur.rest.length ≤ fuel → 0 < fuel → NF (decodeItem (F := F) ctx fuel cur base)
  itemRest : ∀ after cur base, 5 * cur.rest.length + 4 ≤ fuel → NF (decodeItemRest (F := F) ctx fuel after cur base)
  follow : ∀ cur depth, 5 * cur.rest.length + 1 ≤ fuel → NF (followLoop (F := F) ctx fuel cur depth)

theorem fuelClaims [LawfulF64 F] (ctx : Ctx) (fuel : Nat) : FuelClaims F ctx fuel := by
  induction fuel with
  | zero => constructor <;> intros <;> omega
  | succ fuel ih =>
    have tc := treeClaims (F := F) ctx fuel
    constructor
    · -- kv
      intro content cur base hf
      rw [decodeKV]
      refine (nf_header _ _).bind fun hdr _ => ?_
      split
      · exact (ih.array _ _ _ (by omega)).bind fun _ _ => .pure _
      · refine (nf_keyToken _).bind fun k _ => ?_
        simp only
        split
        · split
          · split
            · exact (ih.fields _ _ _ (by omega)).bind fun _ _ => .pure _
            · exact .pure _
          · exact .pure _
        · exact (nf_primitive _).bind fun _ _ => .pure _
    · -- fields
      intro cur base comp hf
      rw [decodeFields]
      split
      · exact .ok _
      · rename_i line rest hr
        rw [hr, List.length_cons] at hf
        split
        · exact .ok _
        · split
          · refine (ih.kv _ _ _ (by simp only; omega)).bind fun r h1 => ?_
            obtain ⟨evs, cur'⟩ := r
            have hl := (tc.kv _ _ _ _ _ h1).2.length
            simp only at hl
            exact (ih.fields _ _ _ (by omega)).bind fun _ _ => .pure _
          · exact .ok _
    · -- array
      intro h cur base hf
      rw [decodeArray]
      split
      · exact (nf_inline _ _ _).bind fun _ _ => .pure _
      · split
        · exact (ih.list _ _ _ _ _ _ (by omega)).bind fun _ _ => (nf_assertCount _ _ _ _).bind fun _ _ =>
            (nf_blanks _ _ _ _).bind fun _ _ => (nf_extraItems _ _ _ _).bind fun _ _ => .pure _
        · exact (nf_tabular _ _ _ _ _).bind fun _ _ => .pure _
    · -- list
      intro length depth cur count s e hf
      rw [listLoop]
      split
      · exact .ok _
      · rename_i line rest hr
        split
        · split
          · exact .ok _
          · split
            · have hl0 : cur.rest.length = rest.length + 1 := by rw [hr]; simp
              refine (ih.item _ _ (by omega) (by omega)).bind fun r h1 => ?_
              obtain ⟨evs, cur'⟩ := r
              obtain ⟨line', rest', hr', hc⟩ := (tc.item _ _ _ _ h1).2
              have hl := hc.length
              have hl1 : cur.rest.length = rest'.length + 1 := by rw [hr']; simp
              simp only at hl
              exact (ih.list _ _ _ _ _ _ (by omega)).bind fun _ _ => .pure _
            · exact .ok _
        · exact .ok _
    · -- item
      intro cur base hf _
      rw [decodeItem]
      split
      · simp [NF]
      · rename_i line rest hr
        rw [hr, List.length_cons] at hf
        simp only
        split
        · exact .ok _
        · split
          · split
            · exact .ok _
            · refine (nf_header _ _).bind fun hdr hh => ?_
              split
              · exact ih.array _ _ _ (by simp only; omega)
              · split
                · rename_i key hd hk
                  split
                  · refine (ih.array _ _ _ (by simp only; omega)).bind fun r h1 => ?_
                    obtain ⟨evs, cur'⟩ := r
                    rw [keyedHeader_some hk] at hh
                    have hl := (tc.array _ _ _ _ _ (parseHeader_cap hh) h1).2.length
                    simp only at hl
                    exact (ih.follow _ _ (by simp only; omega)).bind fun _ _ => .pure _
                  · exact ih.itemRest _ _ _ (by simp only; omega)
                · exact ih.itemRest _ _ _ (by simp only; omega)
          · simp [NF]
    · -- itemRest
      intro after cur base hf
      rw [decodeItemRest]
      split
      · refine (ih.kv _ _ _ (by omega)).bind fun r h1 => ?_
        obtain ⟨evs, cur'⟩ := r
        have hl := (tc.kv _ _ _ _ _ h1).2.length
        exact (ih.follow _ _ (by omega)).bind fun _ _ => .pure _
      · exact (nf_primitive _).bind fun _ _ => .pure _
    · -- follow
      intro cur depth hf
      rw [followLoop]
      split
      · exact .ok _
      · rename_i line rest hr
        rw [hr, List.length_cons] at hf
        split
        · exact .ok _
        · split
          · refine (ih.kv _ _ _ (by simp only; omega)).bind fun r h1 => ?_
            obtain ⟨evs, cur'⟩ := r
            have hl := (tc.kv _ _ _ _ _ h1).2.length
            simp only at hl
            exact (ih.follow _ _ (by omega)).bind fun _ _ => .pure _
          · exact .ok _

theorem nf_rootLoop [LawfulF64 F] (ctx : Ctx) (fuel : Nat) : ∀ cur : Cur, 5 * cur.rest.length + 1 ≤ fuel →
    NF (rootLoop (F := F) ctx fuel cur) := by
  induction fuel with
  | zero => intro cur h; omega
  | succ fuel ih =>
    intro cur hf
    rw [rootLoop]
    split
    · exact .ok _
    · rename_i line rest hr
      rw [hr, List.length_cons] at hf
      split
      · exact .ok _
      · refine ((fuelClaims ctx fuel).kv _ _ _ (by simp only; omega)).bind fun r h1 => ?_
        obtain ⟨evs, cur'⟩ := r
        have hl := ((treeClaims ctx fuel).kv _ _ _ _ _ h1).2.length
        simp only at hl
        exact (ih _ (by omega)).bind fun _ _ => .pure _

theorem nf_decodeLines [LawfulF64 F] (ctx : Ctx) (lines : List Line) : NF (decodeLines (F := F) ctx lines) := by
  unfold decodeLines
  split
  · exact .ok _
  · rename_i first rest
    have hh : NF (rootHeader first.content) := by
      unfold rootHeader
      split
      · exact nf_header _ _
      · exact .ok _
    refine hh.bind fun hdr _ => ?_
    split
    · exact ((fuelClaims ctx _).array _ _ _ (by simp only [List.length_cons]; omega)).bind fun _ _ => .pure _
    · split
      · exact (nf_primitive _).bind fun _ _ => .pure _
      · refine ((fuelClaims ctx _).kv _ _ _ (by simp only [List.length_cons]; omega)).bind fun r h1 => ?_
        obtain ⟨evs, cur'⟩ := r
        have hl := ((treeClaims ctx _).kv _ _ _ _ _ h1).2.length
        simp only at hl
        exact (nf_rootLoop ctx _ _ (by simp only [List.length_cons]; omega)).bind fun _ _ => .pure _

omit F [F64 F] in
theorem nf_parseLines (indent : Nat) (strict : Bool) (source : List Str) (num : Nat) :
    NF (parseLines indent strict source num) := by
  induction source generalizing num with
  | nil => rw [parseLines]; exact .ok _
  | cons raw rest ih =>
    rw [parseLines]
    have h : NF (parseLine raw (num + 1) indent strict) := by
      unfold parseLine
      simp only
      split
      · exact .ok _
      · split
        · split
          · simp [NF]
          · split
            · split <;> simp [NF]
            · split <;> simp [NF]
        · exact .ok _
    cases hx : parseLine raw (num + 1) indent strict with
    | error e => rw [hx] at h; simpa [NF] using h
    | ok sc =>
      simp only
      have := ih (num + 1)
      cases hy : parseLines indent strict rest (num + 1) with
      | error e => rw [hy] at this; simpa [NF] using this
      | ok r =>
        obtain ⟨ls, bs⟩ := r
        simp only
        cases sc <;> exact .ok _

theorem nf_decodeStream [LawfulF64 F] (indent : Nat) (strict : Bool) (source : List Str) :
    NF (decodeStream (F := F) indent strict source) := by
  unfold decodeStream
  exact (nf_parseLines _ _ _ _).bind fun _ _ => nf_decodeLines _ _

end

end Toon
