import Verif.Model.Parser
import Verif.Model.Encoder
import Verif.Lemmas.Shared
import Verif.Spec.Values

/-! Lemmas about tokens: primitives, keys, delimited rows. -/

namespace Toon

/-- The form of a written token: quoted, or plain without any structural character. -/
def TokForm (d : Char) (t : Str) : Prop :=
  (∃ s, t = quoted s) ∨
  (t ≠ [] ∧ NoEdgeWs t ∧ '"' ∉ t ∧ d ∉ t ∧
    ∀ c ∈ [':', '[', ']', '{', '}', '\n', '\r', '\\', '\t'], c ∉ t)

theorem TokForm.ne_nil {d : Char} {t : Str} (h : TokForm d t) : t ≠ [] := by
  rcases h with ⟨s, rfl⟩ | h
  · simp [quoted]
  · exact h.1

theorem TokForm.edge {d : Char} {t : Str} (h : TokForm d t) : NoEdgeWs t := by
  rcases h with ⟨s, rfl⟩ | h
  · exact quoted_noEdgeWs s
  · exact h.2.1

theorem TokForm.lf {d : Char} {t : Str} (h : TokForm d t) : '\n' ∉ t := by
  rcases h with ⟨s, rfl⟩ | h
  · exact (quoted_not_newline s).1
  · exact h.2.2.2.2 '\n' (by simp)

theorem TokForm.cr {d : Char} {t : Str} (h : TokForm d t) : '\r' ∉ t := by
  rcases h with ⟨s, rfl⟩ | h
  · exact (quoted_not_newline s).2.1
  · exact h.2.2.2.2 '\r' (by simp)

/-! ## Writing -/

section
variable {F : Type} [F64 F]

theorem plain_tok {d : Char} {t : Str} (hd : GoodDelim d) (hne : t ≠ [])
    (h : ∀ c ∈ t, isWs c = false ∧ c ≠ '"' ∧ c ≠ ':' ∧ c ≠ '[' ∧ c ≠ ']' ∧ c ≠ '{' ∧ c ≠ '}' ∧
      c ≠ '\n' ∧ c ≠ '\\' ∧ c ≠ ',' ∧ c ≠ '|' ∧ c ≠ '\t' ∧ c ≠ '\r') : TokForm d t := by
  refine Or.inr ⟨hne, ⟨fun c hc => (h c (List.mem_of_mem_head? hc)).1,
    fun c hc => (h c (List.mem_of_getLast? hc)).1⟩, fun hc => (h _ hc).2.1 rfl, ?_, ?_⟩
  · intro hc
    have := h d hc
    rcases hd with rfl | rfl | rfl <;> simp at this
  · intro c hc ht
    have := h c ht
    simp only [List.mem_cons, List.not_mem_nil, or_false] at hc
    rcases hc with rfl | rfl | rfl | rfl | rfl | rfl | rfl | rfl | rfl <;> simp at this

theorem encodeKey_tok {d : Char} (hd : GoodDelim d) (k : Str) : TokForm d (encodeKey k) := by
  unfold encodeKey
  split
  · rename_i h
    apply plain_tok hd (validKey_ne_nil h)
    intro c hc
    have := isKeyChar_cases (validKey_mem h hc)
    simp [this]
  · exact Or.inl ⟨k, rfl⟩

theorem encodeString_tok (d : Char) (s : Str) : TokForm d (encodeStringLiteral s d) := by
  unfold encodeStringLiteral
  split
  · rename_i h
    have h := (isSafeUnquoted_iff s d).mp h
    refine Or.inr ⟨h.ne, h.edge, h.quote, h.delim, ?_⟩
    intro c hc
    simp only [List.mem_cons, List.not_mem_nil, or_false] at hc
    rcases hc with rfl | rfl | rfl | rfl | rfl | rfl | rfl | rfl | rfl
    · exact h.colon
    · exact h.lbracket
    · exact h.rbracket
    · exact h.lbrace
    · exact h.rbrace
    · exact h.lf
    · exact h.cr
    · exact h.backslash
    · exact h.tab
  · exact Or.inl ⟨s, rfl⟩

theorem formatNumber_tok [LawfulF64 F] {d : Char} (hd : GoodDelim d) (x : F) :
    TokForm d (formatNumber x) := by
  unfold formatNumber
  split
  · exact plain_tok hd (by simp) (by decide)
  · split
    · exact plain_tok hd (by decide) (by decide)
    · rename_i h1 h2
      simp only [Bool.not_eq_true, Bool.not_eq_eq_eq_not, Bool.not_true, Bool.not_eq_false] at h1 h2
      have hp := LawfulF64.display_plain x h2 h1
      apply plain_tok hd (plainDecimal_ne_nil hp)
      intro c hc
      have := numChar_cases (plainDecimal_mem hp hc)
      simp [this]

theorem encodePrimitive_tok [LawfulF64 F] {d : Char} (hd : GoodDelim d) (p : Prim F) :
    TokForm d (encodePrimitive p d) := by
  cases p with
  | null => exact plain_tok hd (by simp [encodePrimitive]) (by simp only [encodePrimitive]; decide)
  | bool b => cases b <;> exact plain_tok hd (by simp [encodePrimitive]) (by simp only [encodePrimitive]; decide)
  | num x => exact formatNumber_tok hd x
  | str s => exact encodeString_tok d s

/-! ## Reading tokens -/

theorem parseStringLiteral_quoted (s : Str) : parseStringLiteral (quoted s) = .ok s := by
  unfold parseStringLiteral
  have h0 := findClosingQuote_quoted s []
  rw [List.append_nil] at h0
  simp only [trim_eq_self (quoted_noEdgeWs s)]
  rw [if_pos (by simp [quoted]), h0]
  simp only [quoted_length]
  rw [if_neg (by omega)]
  rw [slice_mid (s := quoted s) (a := ['"']) (b := escapeString s) (c := ['"']) (by simp [quoted])
    (by simp) (by simp; omega)]
  exact unescape_escape s

theorem parseStringLiteral_plain {t : Str} (he : NoEdgeWs t) (hq : '"' ∉ t) :
    parseStringLiteral t = .ok t := by
  unfold parseStringLiteral
  simp only [trim_eq_self he]
  rw [if_neg]
  intro h
  exact hq (List.mem_of_mem_head? h)

theorem parseStringLiteral_encodeKey (k : Str) : parseStringLiteral (encodeKey k) = .ok k := by
  unfold encodeKey
  split
  · rename_i h
    exact parseStringLiteral_plain (validKey_noEdgeWs h) (validKey_not_mem h (by decide))
  · exact parseStringLiteral_quoted k

theorem encodeKey_head (k : Str) : ((encodeKey k).head? == some '"') = !isValidUnquotedKey k := by
  unfold encodeKey
  split
  · rename_i h
    obtain ⟨c, rest, rfl, hc⟩ := validKey_head h
    have := (isAlpha_cases hc).2.1
    simp [h, this]
  · rename_i h; simp [h]

theorem parsePrimitive_string (s : Str) (d : Char) :
    parsePrimitiveToken (F := F) (encodeStringLiteral s d) = .ok (.str s) := by
  unfold encodeStringLiteral
  split
  · rename_i h
    have h := (isSafeUnquoted_iff s d).mp h
    unfold parsePrimitiveToken
    simp only [trim_eq_self h.edge]
    rw [if_neg (by simpa using h.ne), if_neg, if_neg (by simp [h.notLit]), if_neg]
    · intro hn
      unfold isNumericLiteral at hn
      simp only [trim_eq_self h.edge, Bool.and_eq_true] at hn
      have := numericLike_of_syntax h.edge hn.1
      rw [h.notNum] at this
      contradiction
    · intro hq; exact h.quote (List.mem_of_mem_head? hq)
  · show parsePrimitiveToken (quoted s) = _
    unfold parsePrimitiveToken
    simp only [trim_eq_self (quoted_noEdgeWs s)]
    rw [if_neg (by simp [quoted]), if_pos (by simp [quoted]), parseStringLiteral_quoted]

theorem parsePrimitive_number [LawfulF64 F] (x : F) (h : normPrim (.num x) = .num x) :
    parsePrimitiveToken (formatNumber x) = .ok (.num x) := by
  simp only [normPrim] at h
  split at h
  · contradiction
  · rename_i hf
    simp only [Bool.not_eq_eq_eq_not, Bool.not_true, Bool.not_eq_false] at hf
    split at h
    · rename_i hz
      simp only [Prim.num.injEq] at h
      subst h
      unfold formatNumber
      rw [if_pos hz]
      have h0 : trim ['0'] = ['0'] := by decide
      have h1 : isBoolOrNull ['0'] = false := by decide
      have h2 : isNumericSyntax ['0'] = true := by decide
      unfold parsePrimitiveToken isNumericLiteral
      simp only [h0, h1, h2, LawfulF64.parse_zero, hf]
      simp [LawfulF64.zero_isNeg]
    · rename_i hz
      have hz' : F64.isZero x = false := by simpa using hz
      have hp := LawfulF64.display_plain x hf hz'
      unfold formatNumber
      rw [if_neg hz, if_neg (by simp [hf])]
      have ht := trim_eq_self (plainDecimal_noEdgeWs hp)
      have hne := plainDecimal_ne_nil hp
      have hmem := fun c hc => numChar_cases (plainDecimal_mem hp (c := c) hc)
      unfold parsePrimitiveToken isNumericLiteral
      simp only [ht, plainDecimal_syntax hp, LawfulF64.parse_display x hf hz', hf]
      rw [if_neg (by simpa using hne), if_neg, if_neg]
      · simp [hz']
      · simp only [isBoolOrNull, Bool.or_eq_true, beq_iff_eq]
        rintro ((h | h) | h)
        · exact (hmem 't' (by rw [h]; decide)).2.2.2.2.2.2.2.2.2.2.2.2.2.2.1 rfl
        · exact (hmem 'f' (by rw [h]; decide)).2.2.2.2.2.2.2.2.2.2.2.2.2.2.2.1 rfl
        · exact (hmem 'n' (by rw [h]; decide)).2.2.2.2.2.2.2.2.2.2.2.2.2.2.2.2 rfl
      · intro hq; exact (hmem '"' (List.mem_of_mem_head? hq)).2.1 rfl

theorem parsePrimitive_encode [LawfulF64 F] (p : Prim F) (h : normPrim p = p) (d : Char) :
    parsePrimitiveToken (encodePrimitive p d) = .ok p := by
  cases p with
  | null =>
    have h0 : trim "null".toList = "null".toList := by decide
    have h1 : isBoolOrNull "null".toList = true := by decide
    simp only [encodePrimitive, parsePrimitiveToken, h0, h1]
    simp
  | bool b =>
    have h0 : trim "true".toList = "true".toList := by decide
    have h1 : isBoolOrNull "true".toList = true := by decide
    have h0' : trim "false".toList = "false".toList := by decide
    have h1' : isBoolOrNull "false".toList = true := by decide
    cases b
    · simp only [encodePrimitive, parsePrimitiveToken, h0', h1']; simp
    · simp only [encodePrimitive, parsePrimitiveToken, h0, h1]; simp
  | num x => exact parsePrimitive_number x h
  | str s => exact parsePrimitive_string s d

theorem mapRowValues_encode [LawfulF64 F] (ps : List (Prim F)) (h : ∀ p ∈ ps, normPrim p = p) (d : Char) :
    mapRowValues (ps.map (encodePrimitive · d)) = .ok ps := by
  induction ps with
  | nil => rfl
  | cons p ps ih =>
    simp only [List.map_cons, mapRowValues]
    rw [parsePrimitive_encode p (h p (by simp)), ih (fun q hq => h q (by simp [hq]))]

/-! ## Delimited rows -/

theorem delimitedAux_escape (d : Char) (s rest : Str) (vs : List Str) (buf : Str) :
    delimitedAux d (escapeString s ++ '"' :: rest) vs buf true =
      delimitedAux d rest vs (buf ++ escapeString s ++ ['"']) false := by
  induction s generalizing buf with
  | nil => rw [escapeString_nil, List.nil_append, delimitedAux.eq_def]; simp
  | cons c s ih =>
    rw [escapeString_cons, List.append_assoc]
    rcases escapeChar_cases c with ⟨h, hc, hq, _⟩ | ⟨e, h, _⟩
    · rw [h]; simp only [List.singleton_append]
      rw [delimitedAux.eq_def]; simp [hc, hq, ih]
    · rw [h]; simp only [List.cons_append, List.nil_append]
      rw [delimitedAux.eq_def]; simp [ih]

theorem delimitedAux_plain {d : Char} {t : Str} (hq : '"' ∉ t) (hd : d ∉ t) (rest : Str)
    (vs : List Str) (buf : Str) :
    delimitedAux d (t ++ rest) vs buf false = delimitedAux d rest vs (buf ++ t) false := by
  induction t generalizing buf with
  | nil => simp
  | cons c t ih =>
    simp only [List.mem_cons, not_or] at hq hd
    rw [List.cons_append, delimitedAux.eq_def]
    have h1 : ¬ c = '"' := fun e => hq.1 e.symm
    have h2 : ¬ c = d := fun e => hd.1 e.symm
    simp [h1, h2, ih hq.2 hd.2]

theorem delimitedAux_tok {d : Char} {t : Str} (h : TokForm d t) (rest : Str) (vs : List Str) (buf : Str) :
    delimitedAux d (t ++ rest) vs buf false = delimitedAux d rest vs (buf ++ t) false := by
  rcases h with ⟨s, rfl⟩ | ⟨_, _, hq, hd, _⟩
  · rw [quoted_append, delimitedAux.eq_def]
    simp only [Bool.and_false, Bool.false_eq_true, if_false, if_true, Bool.not_false]
    rw [delimitedAux_escape]
    simp [quoted]
  · exact delimitedAux_plain hq hd rest vs buf

theorem goodDelim_ne {d : Char} (h : GoodDelim d) : d ≠ '"' ∧ d ≠ '\\' ∧ d ≠ ':' ∧ d ≠ ']' ∧ d ≠ '}' ∧ d ≠ '[' ∧ d ≠ '{' ∧ d ≠ '\n' ∧ d ≠ ' ' ∧ d ≠ '\r' := by
  rcases h with rfl | rfl | rfl <;> decide

theorem delimitedAux_join {d : Char} (hd : GoodDelim d) (ts : List Str) (hne : ts ≠ [])
    (h : ∀ t ∈ ts, TokForm d t) (vs : List Str) :
    delimitedAux d (joinWith d ts) vs [] false = vs ++ ts := by
  induction ts generalizing vs with
  | nil => exact absurd rfl hne
  | cons t ts ih =>
    have ht := h t (by simp)
    cases ts with
    | nil =>
      have := delimitedAux_tok ht [] vs []
      rw [List.append_nil] at this
      rw [joinWith, this, delimitedAux.eq_def]
      simp [ht.ne_nil, trim_eq_self ht.edge]
    | cons t' ts' =>
      rw [joinWith.eq_def]
      simp only
      rw [delimitedAux_tok ht, delimitedAux.eq_def]
      obtain ⟨h1, h2, _⟩ := goodDelim_ne hd
      simp only [Bool.and_false, Bool.false_eq_true, if_false, h1, Bool.not_false, Bool.and_true,
        decide_true, if_true, List.nil_append, trim_eq_self ht.edge]
      rw [ih (by simp) (fun x hx => h x (by simp [hx]))]
      simp

theorem parseDelimited_join {d : Char} (hd : GoodDelim d) (ts : List Str) (hne : ts ≠ [])
    (h : ∀ t ∈ ts, TokForm d t) : parseDelimitedValues (joinWith d ts) d = ts := by
  simp [parseDelimitedValues, delimitedAux_join hd ts hne h]

theorem parseFields_encode (fs : List Str) :
    parseFields (fs.map encodeKey) = .ok (fs.map fun k => ⟨k, !isValidUnquotedKey k⟩) := by
  induction fs with
  | nil => rfl
  | cons k fs ih =>
    have ht := trim_eq_self (encodeKey_tok (Or.inl rfl) k).edge
    simp only [List.map_cons, parseFields, ht, parseStringLiteral_encodeKey, ih, encodeKey_head]

/-- Facts about the joined text of a row. -/
theorem joinWith_cons_append (d : Char) (t : Str) (ts : List Str) :
    joinWith d (t :: ts) = t ++ (if ts.isEmpty then [] else d :: joinWith d ts) := by
  cases ts <;> simp [joinWith]

theorem mem_joinWith {d c : Char} {ts : List Str} (h : c ∈ joinWith d ts) : c = d ∨ ∃ t ∈ ts, c ∈ t := by
  induction ts with
  | nil => simp [joinWith] at h
  | cons t ts ih =>
    rw [joinWith_cons_append, List.mem_append] at h
    rcases h with h | h
    · exact Or.inr ⟨t, by simp, h⟩
    · split at h
      · simp at h
      · rcases List.mem_cons.mp h with h | h
        · exact Or.inl h
        · rcases ih h with h | ⟨t', ht', hc⟩
          · exact Or.inl h
          · exact Or.inr ⟨t', by simp [ht'], hc⟩

theorem joinWith_ne_nil {d : Char} {ts : List Str} (hne : ts ≠ []) (h : ∀ t ∈ ts, t ≠ []) :
    joinWith d ts ≠ [] := by
  cases ts with
  | nil => exact absurd rfl hne
  | cons t ts =>
    rw [joinWith_cons_append]
    simp [h t]

theorem joinWith_noEdgeWs {d : Char} {ts : List Str} (h : ∀ t ∈ ts, t ≠ [] ∧ NoEdgeWs t) :
    NoEdgeWs (joinWith d ts) := by
  constructor
  · intro c hc
    cases ts with
    | nil => simp [joinWith] at hc
    | cons t ts =>
      rw [joinWith_cons_append] at hc
      have ht := h t (by simp)
      cases ht' : t with
      | nil => exact absurd ht' ht.1
      | cons x xs =>
        rw [ht'] at hc
        simp at hc; subst hc
        exact ht.2.1 x (by simp [ht'])
  · intro c hc
    induction ts with
    | nil => simp [joinWith] at hc
    | cons t ts ih =>
      have ht := h t (by simp)
      rw [joinWith_cons_append] at hc
      split at hc
      · rw [List.append_nil] at hc; exact ht.2.2 c hc
      · rename_i hts
        apply ih (fun t' ht' => h t' (by simp [ht']))
        have hne : joinWith d ts ≠ [] := joinWith_ne_nil (by simpa using hts) (fun t' ht' => (h t' (by simp [ht'])).1)
        rw [List.getLast?_append, List.getLast?_cons] at hc
        cases hl : (joinWith d ts).getLast? with
        | none => simp at hl; exact absurd hl hne
        | some y => rw [hl] at hc; simpa using hc

end

end Toon
