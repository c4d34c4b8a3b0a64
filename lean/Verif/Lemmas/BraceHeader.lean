import Verif.Lemmas.Written

/-! A header with a closing brace inside a column name is not readable. -/

namespace Toon

theorem first_of_mem {c : Char} {s : Str} (h : c ∈ s) : ∃ a b, s = a ++ c :: b ∧ c ∉ a := by
  induction s with
  | nil => simp at h
  | cons x s ih =>
    by_cases hx : x = c
    · exact ⟨[], s, by simp [hx], by simp⟩
    · have hs : c ∈ s := by
        rcases List.mem_cons.mp h with rfl | h
        · exact absurd rfl hx
        · exact h
      obtain ⟨a, b, rfl, ha⟩ := ih hs
      exact ⟨x :: a, b, rfl, by simp [ha]; exact fun e => hx e.symm⟩

theorem closingQuoteAux_prefix (s : Str) : ∀ (p q : Str) (i : Nat), p ++ q = escapeString s → closingQuoteAux p i = none := by
  induction s with
  | nil =>
    intro p q i h
    simp at h
    rw [h.1]
    rfl
  | cons c s ih =>
    intro p q i h
    rw [escapeString_cons] at h
    rcases escapeChar_cases c with ⟨hc, h1, h2, _⟩ | ⟨d, hc, _⟩
    · rw [hc] at h
      cases p with
      | nil => rfl
      | cons x p =>
        simp only [List.cons_append, List.nil_append, List.cons.injEq] at h
        rw [closingQuoteAux.eq_def]
        simp only [h.1, h1, h2, if_false]
        exact ih p q _ h.2
    · rw [hc] at h
      cases p with
      | nil => rfl
      | cons x p =>
        simp only [List.cons_append, List.nil_append, List.cons.injEq] at h
        rw [closingQuoteAux.eq_def]
        simp only [h.1, if_true]
        cases p with
        | nil => rfl
        | cons y p =>
          simp only [List.cons_append, List.cons.injEq] at h
          exact ih p q _ h.2.2

theorem parseStringLiteral_open (a : Str) : parseStringLiteral (trim ('"' :: escapeString a)) = .error .unterminatedString := by
  have h0 : trim ('"' :: escapeString a) = trimEnd ('"' :: escapeString a) := by
    unfold trim
    rw [trimStart_eq_self (by intro c hc; simp at hc; subst hc; decide)]
  have hform : ∃ p q, trim ('"' :: escapeString a) = '"' :: p ∧ p ++ q = escapeString a := by
    rw [h0]
    obtain ⟨q, hq⟩ := trimEnd_prefix ('"' :: escapeString a)
    cases ht : trimEnd ('"' :: escapeString a) with
    | nil =>
      exfalso
      have : trim ('"' :: escapeString a) = [] := by rw [h0, ht]
      have := trim_eq_nil_iff.mp this
      simp [isWs] at this
    | cons x p =>
      rw [ht] at hq
      simp only [List.cons_append, List.cons.injEq] at hq
      exact ⟨p, q, by rw [hq.1.1], hq.1.2.symm⟩
  obtain ⟨p, q, h1, h2⟩ := hform
  unfold parseStringLiteral
  simp only [trim_trim]
  simp only [h1, List.head?_cons, if_true, findClosingQuote, List.drop_zero, closingQuoteAux_prefix a p q _ h2]

theorem delimitedAux_open (d : Char) (s : Str) (vs : List Str) (buf : Str) (hb : buf ≠ []) :
    delimitedAux d (escapeString s) vs buf true = vs ++ [trim (buf ++ escapeString s)] := by
  induction s generalizing buf with
  | nil => rw [escapeString_nil, delimitedAux.eq_def]; simp [hb]
  | cons c s ih =>
    rw [escapeString_cons]
    rcases escapeChar_cases c with ⟨h, hc, hq, _⟩ | ⟨x, h, _⟩
    · rw [h, List.cons_append, List.nil_append, delimitedAux.eq_def]
      simp only [hc, hq, decide_false, Bool.false_and, Bool.false_eq_true, if_false, Bool.not_true, Bool.and_false]
      rw [ih _ (by simp)]
      simp
    · rw [h, List.cons_append, List.cons_append, List.nil_append, delimitedAux.eq_def]
      simp only [decide_true, Bool.and_self, if_true]
      rw [ih _ (by simp)]
      simp

/-- The column list up to its first closing brace ends inside a quoted name. -/
theorem columns_cut {d : Char} (hd : GoodDelim d) (fs : List Str) (h : ∃ f ∈ fs, '}' ∈ f) :
    ∃ J1 J2 toks, joinWith d (fs.map encodeKey) = J1 ++ '}' :: J2 ∧ '}' ∉ J1 ∧
      (∀ vs, delimitedAux d J1 vs [] false = vs ++ toks) ∧ parseFields toks = .error .unterminatedString := by
  induction fs with
  | nil => simp at h
  | cons f fs ih =>
    rw [List.map_cons, joinWith_cons_append]
    by_cases hf : '}' ∈ f
    · have hv : isValidUnquotedKey f = false := by
        apply Bool.eq_false_iff.mpr
        intro hv
        exact validKey_not_mem hv (c := '}') (by decide) hf
      obtain ⟨a, b, rfl, ha⟩ := first_of_mem hf
      rw [encodeKey_invalid hv]
      refine ⟨'"' :: escapeString a, escapeString b ++ '"' ::
        (if (fs.map encodeKey).isEmpty then [] else d :: joinWith d (fs.map encodeKey)),
        [trim ('"' :: escapeString a)], ?_, ?_, ?_, ?_⟩
      · simp only [quoted, escapeString_append, escapeString_cons, escapeChar_neutral (c := '}') (by decide),
          List.cons_append, List.append_assoc, List.nil_append]
      · have := mem_escape (c := '}') (by decide) a
        simp [this, ha]
      · intro vs
        rw [delimitedAux.eq_def]
        simp only [Bool.and_false, Bool.false_eq_true, if_false, if_true, Bool.not_false]
        rw [delimitedAux_open _ _ _ _ (by simp)]
        simp
      · simp only [parseFields, trim_trim, parseStringLiteral_open]
    · obtain ⟨J1, J2, toks, h1, h2, h3, h4⟩ := ih (by
        obtain ⟨g, hg, hb⟩ := h
        rcases List.mem_cons.mp hg with rfl | hg
        · exact absurd hb hf
        · exact ⟨g, hg, hb⟩)
      have hne : (fs.map encodeKey).isEmpty = false := by
        cases fs with
        | nil => simp at h; exact absurd h hf
        | cons _ _ => rfl
      have ht := encodeKey_tok hd f
      obtain ⟨g1, g2, _, _, g5, _⟩ := goodDelim_ne hd
      refine ⟨encodeKey f ++ d :: J1, J2, encodeKey f :: toks, ?_, ?_, ?_, ?_⟩
      · simp [hne, h1]
      · simp only [List.mem_append, List.mem_cons, not_or]
        exact ⟨fun h => hf (rbrace_encodeKey.mp h), fun e => g5 e.symm, h2⟩
      · intro vs
        rw [delimitedAux_tok ht, delimitedAux.eq_def]
        simp only [Bool.and_false, Bool.false_eq_true, if_false, g1, Bool.not_false, Bool.and_true,
          decide_true, if_true, List.nil_append, trim_eq_self ht.edge]
        rw [h3]
        simp
      · simp only [parseFields, trim_eq_self ht.edge, parseStringLiteral_encodeKey, h4]

theorem parseHeader_brace {n : Nat} (hn : n ≤ maxDeclaredLength) (key : Option Str)
    {fs : List Str} {d : Char} (hd : GoodDelim d) (hf : ∃ f ∈ fs, '}' ∈ f) (suffix : Str) :
    parseArrayHeaderLine (formatHeader n key (some fs) d ++ suffix) ',' = .error .unterminatedString := by
  have hn64 : n < 2 ^ 64 := by simp [maxDeclaredLength] at hn; omega
  obtain ⟨J1, J2, toks, hj1, hj2, hj3, hj4⟩ := columns_cut hd fs hf
  rw [formatHeader_eq]
  have hft : fieldsText (some fs) d = '{' :: (J1 ++ '}' :: J2) ++ ['}'] := by
    rw [← hj1]; rfl
  have hB : ∃ B, B = fieldsText (some fs) d ++ ':' :: suffix ∧ B = '{' :: J1 ++ '}' :: (J2 ++ '}' :: ':' :: suffix) :=
    ⟨_, rfl, by rw [hft]; simp⟩
  obtain ⟨B, hB1, hB2⟩ := hB
  have e1 : keyText key ++ '[' :: (lengthText n d ++ ']' :: (fieldsText (some fs) d ++ [':'])) ++ suffix =
      keyText key ++ '[' :: (lengthText n d ++ ']' :: B) := by rw [hB1]; simp
  have e2 : keyText key ++ '[' :: (lengthText n d ++ ']' :: B) = (keyText key ++ '[' :: lengthText n d ++ [']']) ++ B := by
    simp
  rw [e1]
  unfold parseArrayHeaderLine
  rw [findBracketStart_keyText]
  simp only
  have hbe : findFrom ']' (keyText key ++ '[' :: (lengthText n d ++ ']' :: B))
      (keyText key).length = some ((keyText key).length + ((lengthText n d).length + 1)) := by
    rw [findFrom_append, ← List.cons_append,
      findChar_at (by simp [lengthText_not_mem hd (c := ']') (by decide) (by decide)])]
    simp
  rw [hbe]
  simp only
  have hlen : (keyText key ++ '[' :: lengthText n d ++ [']']).length =
      (keyText key).length + ((lengthText n d).length + 1) + 1 := by simp; omega
  have hcol := findColon_eq (keyText key ++ '[' :: lengthText n d ++ [']']) B hlen
  have hcp : ∃ j, colonPos B = some (J1.length + 2 + j) := by
    have h1 : findChar '{' B = some 0 := by rw [hB2]; simp
    have h2 : ∃ j, findChar ':' B = some (j + 1) := by
      cases hc : findChar ':' (J1 ++ '}' :: (J2 ++ '}' :: ':' :: suffix)) with
      | none => have := findChar_eq_none.mp hc; simp at this
      | some j =>
        refine ⟨j, ?_⟩
        rw [hB2]
        simp only [List.cons_append] at hc ⊢
        simp [findChar, hc]
    obtain ⟨j, h2⟩ := h2
    have h3 : findFrom '}' B 0 = some (J1.length + 1) := by
      rw [findFrom_zero, hB2, findChar_at (by simp [hj2])]
      simp
    have h4 : ∃ i, findFrom ':' B (J1.length + 1 + 1) = some (J1.length + 2 + i) := by
      rw [show B = ('{' :: J1 ++ ['}']) ++ (J2 ++ '}' :: ':' :: suffix) by rw [hB2]; simp,
        findFrom_append' _ _ (by simp)]
      cases hc : findChar ':' (J2 ++ '}' :: ':' :: suffix) with
      | none => have := findChar_eq_none.mp hc; simp at this
      | some i => exact ⟨i, by simp⟩
    obtain ⟨i, h4⟩ := h4
    refine ⟨i, ?_⟩
    unfold colonPos
    simp only [h1, h2, h3, h4]
    simp
  obtain ⟨j, hcp⟩ := hcp
  rw [hcp] at hcol
  rw [e2, hcol]
  simp only [Option.map_some]
  have hkey : parseHeaderKey ((keyText key ++ '[' :: lengthText n d ++ [']']) ++ B)
      (keyText key).length = .ok (key, readQuoted key) := by
    rw [← e2, parseHeaderKey_keyText]; cases key <;> rfl
  rw [hkey]
  simp only
  have hseg : slice ((keyText key ++ '[' :: lengthText n d ++ [']']) ++ B)
      ((keyText key).length + 1) ((keyText key).length + ((lengthText n d).length + 1)) = lengthText n d := by
    apply slice_mid (a := keyText key ++ ['[']) (c := ']' :: B) (by simp) (by simp)
    simp; omega
  rw [hseg, parseBracketSegment_lengthText hn64 hd]
  simp only
  rw [if_neg (by omega)]
  generalize hx : keyText key ++ '[' :: lengthText n d ++ [']'] = x at hlen ⊢
  unfold parseHeaderFields
  rw [← hlen]
  have h1 : findFrom '{' (x ++ B) x.length = some x.length := by
    rw [findFrom_append, hB2]; simp
  have h2 : findFrom '}' (x ++ B) x.length = some (x.length + (J1.length + 1)) := by
    rw [findFrom_append, hB2, findChar_at (by simp [hj2])]
    simp
  have h3 : slice (x ++ B) (x.length + 1) (x.length + (J1.length + 1)) = J1 := by
    apply slice_mid (a := x ++ ['{']) (c := '}' :: (J2 ++ '}' :: ':' :: suffix)) (by rw [hB2]; simp) (by simp)
    simp; omega
  have h4 : parseDelimitedValues J1 d = toks := by
    have := hj3 []
    simpa [parseDelimitedValues] using this
  simp only [h1, h2]
  rw [if_pos (by omega), if_pos (by omega), h3, h4, hj4]

end Toon
