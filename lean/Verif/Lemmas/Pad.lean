import Verif.Lemmas.Declared
import Verif.Lemmas.Cells
import Verif.Lemmas.Arrays
import Verif.Spec.LineEnds

/-! Parsing a line with white space appended. -/

namespace Toon

/-- The second text is the first one, or the first one is not blank and the second one has white space
appended. -/
def Pad (a b : Str) : Prop := b = a ∨ (¬ BlankLine a ∧ ∃ w, TrailingSpace w ∧ b = a ++ w)

theorem trailing_not {w : Str} (h : TrailingSpace w) {c : Char} (hc : isWs c = false ∨ c = '\t') : c ∉ w := by
  intro hm
  rcases hc with hc | hc
  · have := (h c hm).1; rw [hc] at this; simp at this
  · exact (h c hm).2 hc

theorem trailing_all {w : Str} (h : TrailingSpace w) : w.all isWs = true := by
  rw [List.all_eq_true]; exact fun c hc => (h c hc).1

theorem trailing_drop {w : Str} (h : TrailingSpace w) (n : Nat) : TrailingSpace (w.drop n) :=
  fun c hc => h c (List.mem_of_mem_drop hc)

theorem trim_trailing {w : Str} (h : w.all isWs = true) (s : Str) : trim (s ++ w) = trim s := by
  obtain ⟨t, ht, hw⟩ := trimStart_suffix s
  obtain ⟨u, hu, hw'⟩ := trimEnd_prefix (trimStart s)
  have h1 : s = t ++ trim s ++ u := by
    conv => lhs; rw [ht, hu]
    simp [trim]
  conv => lhs; rw [h1, List.append_assoc]
  exact trim_pad (trim_noEdgeWs s) hw (by simp [hw', h])

theorem trimStart_trailing {a : Str} (ha : ¬ BlankLine a) (w : Str) : trimStart (a ++ w) = trimStart a ++ w := by
  induction a with
  | nil => exact absurd (by intro c hc; simp at hc) ha
  | cons x xs ih =>
    cases hx : isWs x with
    | true =>
      have h2 : ¬ BlankLine xs := by
        intro h; apply ha; intro c hc
        rcases List.mem_cons.1 hc with rfl | hc
        · exact hx
        · exact h c hc
      have := ih h2
      simp only [trimStart, List.cons_append, List.dropWhile_cons, hx, if_true] at this ⊢
      exact this
    | false => simp [trimStart, hx]

theorem findChar_trailing {c : Char} {w : Str} (h : c ∉ w) : ∀ a : Str, findChar c (a ++ w) = findChar c a := by
  intro a
  induction a with
  | nil => exact findChar_eq_none.2 h
  | cons x xs ih => simp only [List.cons_append, findChar, ih]

theorem findFrom_trailing {c : Char} {w : Str} (h : c ∉ w) (a : Str) (n : Nat) : findFrom c (a ++ w) n = findFrom c a n := by
  unfold findFrom
  rw [List.drop_append, findChar_trailing (fun hm => h (List.mem_of_mem_drop hm))]

theorem closingQuoteAux_trailing {w : Str} (hw : '"' ∉ w) (a : Str) (i : Nat) :
    closingQuoteAux (a ++ w) i = closingQuoteAux a i := by
  have hnone : ∀ (w : Str), '"' ∉ w → ∀ i, closingQuoteAux w i = none := by
    intro w hw i
    fun_induction closingQuoteAux w i <;> simp_all
  fun_induction closingQuoteAux a i with
  | case1 i => exact hnone w hw i
  | case2 i =>
    cases w with
    | nil => rfl
    | cons y w =>
      simp only [List.cons_append, List.nil_append, closingQuoteAux]
      simp only [if_true]
      exact hnone w (fun h => hw (List.mem_cons_of_mem _ h)) _
  | case3 i x rest ih =>
    simp only [List.cons_append, closingQuoteAux, if_true]
    exact ih
  | case4 rest i h =>
    simp only [List.cons_append]
    rw [closingQuoteAux.eq_def]
    simp
  | case5 c rest i h1 h2 ih =>
    simp only [List.cons_append]
    rw [closingQuoteAux.eq_def]
    simp only [h1, h2, if_false]
    exact ih

theorem closingQuote_trailing {w : Str} (hw : '"' ∉ w) {a : Str} (ha : a ≠ []) :
    findClosingQuote (a ++ w) 0 = findClosingQuote a 0 := by
  cases a with
  | nil => exact absurd rfl ha
  | cons x xs =>
    simp only [findClosingQuote, List.cons_append, List.drop_zero]
    exact closingQuoteAux_trailing hw xs 1

theorem unquotedCharAux_trailing {t : Char} {w : Str} (hq : t ∉ w) (a : Str) (i : Nat) (q : Bool) :
    unquotedCharAux t (a ++ w) i q = unquotedCharAux t a i q := by
  fun_induction unquotedCharAux t a i q with
  | case1 i q => exact unquotedCharAux_none hq i q
  | case2 i q c h =>
    cases w with
    | nil => simp [unquotedCharAux, h]
    | cons y w =>
      simp only [List.cons_append, List.nil_append]
      rw [unquotedCharAux.eq_def]
      simp only [h, if_true]
      exact unquotedCharAux_none (fun hm => hq (List.mem_cons_of_mem _ hm)) _ _
  | case3 i q c h x rest ih =>
    simp only [List.cons_append]
    rw [unquotedCharAux.eq_def]
    simp only [h, if_true]
    exact ih
  | case4 i q rest h1 ih =>
    simp only [List.cons_append]
    rw [unquotedCharAux.eq_def]
    simp only [h1]
    simpa using ih
  | case5 i q c rest h1 h2 h3 =>
    simp only [List.cons_append]
    rw [unquotedCharAux.eq_def]
    simp only [h1, h2, h3, if_true]
    simp
  | case6 i q c rest h1 h2 h3 ih =>
    simp only [List.cons_append]
    rw [unquotedCharAux.eq_def]
    simp only [h1, h2, h3]
    simpa using ih

theorem findUnquoted_trailing {t : Char} {w : Str} (h : t ∉ w) (a : Str) : findUnquotedChar (a ++ w) t = findUnquotedChar a t := by
  unfold findUnquotedChar
  rw [unquotedCharAux_trailing h]

theorem slice_trailing (a w : Str) (i j : Nat) (hj : j ≤ a.length) : slice (a ++ w) i j = slice a i j := by
  unfold slice
  rw [List.drop_append]
  by_cases hi : i ≤ a.length
  · rw [List.take_append_of_le_length (by simp; omega)]
  · rw [show j - i = 0 by omega]; simp

theorem drop_trailing (a w : Str) {n : Nat} (hn : n ≤ a.length) : (a ++ w).drop n = a.drop n ++ w :=
  List.drop_append_of_le_length hn

theorem delimitedAux_trailing {d : Char} {w : Str} (hd : d ∉ w) (hq : '"' ∉ w) (hw : w.all isWs = true) : ∀ (a : Str) (vs : List Str)
    (buf : Str) (inQ : Bool), (a ≠ [] ∨ buf ≠ [] ∨ vs ≠ []) →
    delimitedAux d (a ++ w) vs buf inQ = delimitedAux d a vs buf inQ := by
  have hend : ∀ (w : Str), d ∉ w → '"' ∉ w → w.all isWs = true → ∀ (vs : List Str) (buf : Str) (inQ : Bool), (buf ≠ [] ∨ vs ≠ []) →
      delimitedAux d w vs buf inQ = vs ++ [trim buf] := by
    intro w
    induction w with
    | nil =>
      intro _ _ _ vs buf inQ h
      rw [delimitedAux.eq_def]
      simp only
      rw [if_pos]
      rcases h with h | h <;> simp [h]
    | cons x w ih =>
      intro h1 h2 h3 vs buf inQ h
      simp only [List.all_cons, Bool.and_eq_true] at h3
      have hx1 : x ≠ '\\' := by rintro rfl; exact absurd h3.1 (by decide)
      have hx2 : x ≠ '"' := fun h => h2 (by simp [h])
      have hx3 : x ≠ d := fun h => h1 (by simp [h])
      rw [delimitedAux.eq_def]
      simp only [hx1, hx2, hx3, decide_false, Bool.false_and, Bool.false_eq_true, if_false]
      rw [ih (fun h => h1 (List.mem_cons_of_mem _ h)) (fun h => h2 (List.mem_cons_of_mem _ h)) h3.2 vs (buf ++ [x]) inQ (by simp),
        trim_trailing (by simp [h3.1])]
  intro a vs buf inQ
  fun_induction delimitedAux d a vs buf inQ with
  | case1 vs buf inQ h =>
    intro _
    rw [List.nil_append, hend w hd hq hw vs buf inQ (by simpa using h)]
  | case2 vs buf inQ h =>
    intro h2
    simp at h
    simp [h] at h2
  | case3 ch vs buf inQ h ih =>
    intro _
    simp only [Bool.and_eq_true, decide_eq_true_eq] at h
    obtain ⟨rfl, rfl⟩ := h
    cases w with
    | nil => rw [List.append_nil, delimitedAux.eq_def]; simp
    | cons y w =>
      rw [List.cons_append, List.nil_append, delimitedAux.eq_def]
      simp only [decide_true, Bool.and_self, if_true]
      simp only [List.all_cons, Bool.and_eq_true] at hw
      rw [hend w (fun h => hd (List.mem_cons_of_mem _ h)) (fun h => hq (List.mem_cons_of_mem _ h)) hw.2 vs _ true (by simp),
        show buf ++ ['\\', y] = (buf ++ ['\\']) ++ [y] by simp, trim_trailing (by simp [hw.1])]
      rw [hend [] (by simp) (by simp) rfl vs _ true (by simp)]
  | case4 vs buf inQ ch h x rest ih =>
    intro _
    simp only [List.cons_append]
    rw [delimitedAux.eq_def]
    simp only [h, if_true]
    exact ih (by simp)
  | case5 vs buf inQ rest h ih =>
    intro _
    simp only [List.cons_append]
    rw [delimitedAux.eq_def]
    simp only [h]
    simpa using ih (by simp)
  | case6 vs buf inQ ch rest h1 h2 h3 ih =>
    intro _
    simp only [List.cons_append]
    rw [delimitedAux.eq_def]
    simp only [h1, h2, h3, if_true]
    simpa using ih (by simp)
  | case7 vs buf inQ ch rest h1 h2 h3 ih =>
    intro _
    simp only [List.cons_append]
    rw [delimitedAux.eq_def]
    simp only [h1, h2, h3]
    simpa using ih (by simp)

/-! ## Positions -/

theorem findFrom_lt {c : Char} {s : Str} {i j : Nat} (h : findFrom c s i = some j) : j < s.length := by
  have h2 := congrArg List.length (findFrom_some h).2
  simp only [List.length_append, List.length_take, List.length_cons, List.length_drop] at h2
  omega

theorem findChar_lt {c : Char} {s : Str} {j : Nat} (h : findChar c s = some j) : j < s.length := by
  rw [findChar_from] at h; exact findFrom_lt h

theorem closingQuoteAux_bound {s : Str} {i j : Nat} (h : closingQuoteAux s i = some j) : i ≤ j ∧ j < i + s.length := by
  fun_induction closingQuoteAux s i with
  | case1 => simp at h
  | case2 => simp at h
  | case3 i x rest ih => have := ih h; simp; omega
  | case4 => simp at h; simp; omega
  | case5 c rest i h1 h2 ih => have := ih h; simp; omega

theorem closingQuote_lt {s : Str} {j : Nat} (h : findClosingQuote s 0 = some j) : 1 ≤ j ∧ j < s.length := by
  unfold findClosingQuote at h
  cases s with
  | nil => simp at h
  | cons x xs =>
    simp only [List.drop_zero] at h
    have := closingQuoteAux_bound h
    simp; omega

theorem findBracketStart_lt {s : Str} {j : Nat} (h : findBracketStart s = .ok (some j)) : j < s.length := by
  have h2 := congrArg List.length (findBracketStart_some h)
  simp only [List.length_append, List.length_take, List.length_cons, List.length_drop] at h2
  omega

/-! ## Lines -/

theorem not_blank_ne {a : Str} (h : ¬ BlankLine a) : a ≠ [] := by
  rintro rfl; exact h (by intro c hc; simp at hc)

theorem pad_head_append {a : Str} (h : a ≠ []) (w : Str) : (a ++ w).head? = a.head? := by
  cases a with
  | nil => exact absurd rfl h
  | cons x xs => rfl

theorem trimStart_ne {a : Str} (h : ¬ BlankLine a) : trimStart a ≠ [] := by
  intro h2
  apply h
  have : trim a = [] := by simp [trim, h2, trimEnd]
  exact trim_eq_nil.1 this

theorem pad_trim {a b : Str} (h : Pad a b) : trim b = trim a := by
  rcases h with rfl | ⟨_, w, hw, rfl⟩
  · rfl
  · exact trim_trailing (trailing_all hw) a

theorem pad_findBracket {a b : Str} (h : Pad a b) : findBracketStart b = findBracketStart a := by
  rcases h with rfl | ⟨ha, w, hw, rfl⟩
  · rfl
  have hq : '"' ∉ w := trailing_not hw (by decide)
  have hb : '[' ∉ w := trailing_not hw (by decide)
  unfold findBracketStart
  simp only [trimStart_trailing ha, pad_head_append (trimStart_ne ha), closingQuote_trailing hq (trimStart_ne ha),
    findChar_trailing hb, findFrom_trailing hb]
  split
  · cases hc : findClosingQuote (trimStart a) 0 with
    | none => rfl
    | some j =>
      simp only
      have hj := closingQuote_lt hc
      have hh : (((trimStart a ++ w).drop (j + 1)).head? ≠ some '[') = (((trimStart a).drop (j + 1)).head? ≠ some '[') := by
        rw [drop_trailing _ _ (by omega)]
        cases hd : (trimStart a).drop (j + 1) with
        | nil =>
          simp only [List.nil_append, List.head?_nil]
          cases w with
          | nil => rfl
          | cons y w =>
            have : y ≠ '[' := fun h => hb (by simp [h])
            simp [this]
        | cons y ys => rfl
      simp only [hh]
      have hl : (a ++ w).length - (trimStart a ++ w).length = a.length - (trimStart a).length := by simp; omega
      rw [hl]
  · rfl

theorem pad_header {a b : Str} (h : Pad a b) (d : Char) : parseArrayHeaderLine b d = parseArrayHeaderLine a d := by
  have hbr := pad_findBracket h
  rcases h with rfl | ⟨ha, w, hw, rfl⟩
  · rfl
  have h1 : ']' ∉ w := trailing_not hw (by decide)
  have h2 : ':' ∉ w := trailing_not hw (by decide)
  have h3 : '{' ∉ w := trailing_not hw (by decide)
  have h4 : '}' ∉ w := trailing_not hw (by decide)
  have hbe : ∀ n, findBraceEnd (a ++ w) n = findBraceEnd a n := by
    intro n
    unfold findBraceEnd
    simp only [findFrom_trailing h2, findFrom_trailing h3, findFrom_trailing h4]
  unfold parseArrayHeaderLine
  rw [hbr]
  cases hs : findBracketStart a with
  | error e => rfl
  | ok o =>
    cases o with
    | none => rfl
    | some bs =>
      simp only [findFrom_trailing h1]
      cases he : findFrom ']' a bs with
      | none => rfl
      | some be =>
        simp only [hbe, findFrom_trailing h2]
        cases hc : findFrom ':' a (findBraceEnd a be) with
        | none => rfl
        | some ci =>
          have hsl := findBracketStart_lt hs
          have hel := findFrom_lt he
          have hcl := findFrom_lt hc
          have hk : parseHeaderKey (a ++ w) bs = parseHeaderKey a bs := by
            unfold parseHeaderKey
            rw [List.take_append_of_le_length (by omega)]
          have hf : ∀ dl, parseHeaderFields (a ++ w) be ci dl = parseHeaderFields a be ci dl := by
            intro dl
            unfold parseHeaderFields
            simp only [findFrom_trailing h3, findFrom_trailing h4]
            cases findFrom '{' a (be + 1) with
            | none => rfl
            | some x =>
              simp only
              cases hy : findFrom '}' a x with
              | none => rfl
              | some y =>
                simp only [slice_trailing a w (x + 1) y (by have := findFrom_lt hy; omega)]
          simp only [hk, hf, slice_trailing a w (bs + 1) be (by omega), drop_trailing a w (show ci + 1 ≤ a.length by omega),
            trim_trailing (trailing_all hw)]

theorem pad_keyToken {a b : Str} (h : Pad a b) : parseKeyToken b = parseKeyToken a := by
  rcases h with rfl | ⟨ha, w, hw, rfl⟩
  · rfl
  have hne := not_blank_ne ha
  have hq : '"' ∉ w := trailing_not hw (by decide)
  have hc : ':' ∉ w := trailing_not hw (by decide)
  unfold parseKeyToken parseQuotedKey parseUnquotedKey
  simp only [pad_head_append hne, closingQuote_trailing hq hne, findChar_trailing hc]
  split
  · cases hj : findClosingQuote a 0 with
    | none => rfl
    | some j =>
      have hl := closingQuote_lt hj
      simp only [slice_trailing a w 1 j (by omega)]
      have hh : (((a ++ w).drop (j + 1)).head? = some ':') = ((a.drop (j + 1)).head? = some ':') := by
        rw [drop_trailing _ _ (by omega)]
        cases hd : a.drop (j + 1) with
        | nil =>
          simp only [List.nil_append, List.head?_nil]
          cases w with
          | nil => rfl
          | cons y w =>
            have : y ≠ ':' := fun h => hc (by simp [h])
            simp [this]
        | cons y ys => rfl
      simp only [hh]
  · cases hj : findChar ':' a with
    | none => rfl
    | some j =>
      have hl := findChar_lt hj
      simp only
      rw [List.take_append_of_le_length (by omega)]

theorem keyToken_le {a : Str} {k : Str} {e : Nat} {q : Bool} (h : parseKeyToken a = .ok (k, e, q)) : e ≤ a.length := by
  unfold parseKeyToken parseQuotedKey parseUnquotedKey at h
  split at h
  · cases hj : findClosingQuote a 0 with
    | none => simp [hj] at h
    | some j =>
      simp only [hj] at h
      cases hu : unescapeString (slice a 1 j) with
      | error e => simp [hu] at h
      | ok key =>
        simp only [hu] at h
        by_cases hh : (a.drop (j + 1)).head? = some ':'
        · simp only [hh, if_true, Except.ok.injEq, Prod.mk.injEq] at h
          have : a.drop (j + 1) ≠ [] := by intro h0; simp [h0] at hh
          have : j + 1 < a.length := by
            rw [Ne, List.drop_eq_nil_iff] at this; omega
          omega
        · simp only [if_neg hh] at h
          simp at h
  · cases hj : findChar ':' a with
    | none => simp [hj] at h
    | some j =>
      simp only [hj, Except.ok.injEq, Prod.mk.injEq] at h
      have := findChar_lt hj
      omega

theorem pad_keyRest {a b : Str} (h : Pad a b) {k : Str} {e : Nat} {q : Bool} (hk : parseKeyToken a = .ok (k, e, q)) :
    trim (b.drop e) = trim (a.drop e) := by
  rcases h with rfl | ⟨ha, w, hw, rfl⟩
  · rfl
  rw [drop_trailing _ _ (keyToken_le hk), trim_trailing (trailing_all hw)]

theorem pad_isArrayHeader {a b : Str} (h : Pad a b) : isArrayHeaderContent b = isArrayHeaderContent a := by
  rcases h with rfl | ⟨ha, w, hw, rfl⟩
  · rfl
  unfold isArrayHeaderContent
  rw [trimStart_trailing ha, pad_head_append (trimStart_ne ha), findUnquoted_trailing (trailing_not hw (by decide))]

theorem pad_isKeyValue {a b : Str} (h : Pad a b) : isKeyValueContent b = isKeyValueContent a := by
  rcases h with rfl | ⟨ha, w, hw, rfl⟩
  · rfl
  unfold isKeyValueContent
  rw [findUnquoted_trailing (trailing_not hw (by decide))]

theorem pad_isKeyValueLine {a b : Str} (h : Pad a b) : isKeyValueLine b = isKeyValueLine a := by
  rcases h with rfl | ⟨ha, w, hw, rfl⟩
  · rfl
  have hne := not_blank_ne ha
  have hc : w.contains ':' = false := by
    rw [← Bool.not_eq_true, List.contains_iff_mem]; exact trailing_not hw (by decide)
  unfold isKeyValueLine
  simp only [pad_head_append hne, closingQuote_trailing (trailing_not hw (by decide) : '"' ∉ w) hne]
  have happ : ∀ x : Str, (x ++ w).contains ':' = x.contains ':' := by
    intro x
    rw [Bool.eq_iff_iff, List.contains_iff_mem, List.contains_iff_mem, List.mem_append]
    rw [← Bool.not_eq_true, List.contains_iff_mem] at hc
    exact ⟨fun h => h.resolve_right hc, Or.inl⟩
  split
  · cases hj : findClosingQuote a 0 with
    | none => rfl
    | some j =>
      have hl := closingQuote_lt hj
      simp only
      rw [drop_trailing _ _ (by omega), happ]
  · exact happ a

theorem pad_values {a b : Str} (h : Pad a b) {d : Char} (hd : GoodDelim d) : parseDelimitedValues b d = parseDelimitedValues a d := by
  rcases h with rfl | ⟨ha, w, hw, rfl⟩
  · rfl
  refine delimitedAux_trailing (trailing_not hw ?_) (trailing_not hw (by decide)) (trailing_all hw) a [] [] false (Or.inl (not_blank_ne ha))
  rcases hd with rfl | rfl | rfl <;> decide

theorem pad_dataRow {a b : Str} (h : Pad a b) {d : Char} (hd : GoodDelim d) : isDataRow b d = isDataRow a d := by
  rcases h with rfl | ⟨ha, w, hw, rfl⟩
  · rfl
  have : d ∉ w := trailing_not hw (by rcases hd with rfl | rfl | rfl <;> decide)
  unfold isDataRow
  rw [findUnquoted_trailing this, findUnquoted_trailing (trailing_not hw (by decide))]

theorem pad_token {F : Type} [F64 F] {a b : Str} (h : Pad a b) : parsePrimitiveToken (F := F) b = parsePrimitiveToken a := by
  unfold parsePrimitiveToken
  rw [pad_trim h]

theorem header_delim {a : Str} {h : Header} (hh : parseArrayHeaderLine a ',' = .ok (some h)) : GoodDelim h.delim := by
  unfold parseArrayHeaderLine at hh
  repeat' split at hh
  all_goals first | (simp at hh; done) | skip
  rename_i hb _ _ _ _
  simp only [Except.ok.injEq, Option.some.injEq] at hh
  subst hh
  simp only
  unfold parseBracketSegment at hb
  split at hb
  · obtain ⟨_, _, h2⟩ := Option.map_eq_some_iff.1 hb
    simp only [Prod.mk.injEq] at h2; rw [← h2.2]; decide
  · obtain ⟨_, _, h2⟩ := Option.map_eq_some_iff.1 hb
    simp only [Prod.mk.injEq] at h2; rw [← h2.2]; decide
  · obtain ⟨_, _, h2⟩ := Option.map_eq_some_iff.1 hb
    simp only [Prod.mk.injEq] at h2; rw [← h2.2]; decide

end Toon
