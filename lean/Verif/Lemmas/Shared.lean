import Verif.Model.Shared
import Verif.Spec.Float
import Verif.Lemmas.Str

/-! Lemmas about escaping, quoting and numeric literals. -/

namespace Toon

/-! ## Escaping -/

@[simp] theorem escapeString_nil : escapeString [] = [] := rfl
@[simp] theorem escapeString_cons (c : Char) (s : Str) :
    escapeString (c :: s) = escapeChar c ++ escapeString s := by simp [escapeString]
@[simp] theorem escapeString_append (a b : Str) :
    escapeString (a ++ b) = escapeString a ++ escapeString b := by simp [escapeString]

/-- The shapes of an escaped character. -/
theorem escapeChar_cases (c : Char) :
    (escapeChar c = [c] ∧ c ≠ '\\' ∧ c ≠ '"' ∧ c ≠ '\n' ∧ c ≠ '\r' ∧ c ≠ '\t') ∨
    (∃ d, escapeChar c = ['\\', d] ∧ unescapeChar d = some c ∧
      (d = '\\' ∨ d = '"' ∨ d = 'n' ∨ d = 'r' ∨ d = 't') ∧
      (c = '\\' ∨ c = '"' ∨ c = '\n' ∨ c = '\r' ∨ c = '\t')) := by
  unfold escapeChar
  by_cases h1 : c = '\\'
  · subst h1; right; exact ⟨'\\', by decide⟩
  by_cases h2 : c = '"'
  · subst h2; right; exact ⟨'"', by decide⟩
  by_cases h3 : c = '\n'
  · subst h3; right; exact ⟨'n', by decide⟩
  by_cases h4 : c = '\r'
  · subst h4; right; exact ⟨'r', by decide⟩
  by_cases h5 : c = '\t'
  · subst h5; right; exact ⟨'t', by decide⟩
  left; simp [h1, h2, h3, h4, h5]

theorem unescape_escapeChar (c : Char) (s : Str) :
    unescapeString (escapeChar c ++ s) =
      match unescapeString s with
      | .error e => .error e
      | .ok out => .ok (c :: out) := by
  rcases escapeChar_cases c with ⟨h, hc, _⟩ | ⟨d, h, hd, _⟩
  · rw [h]; simp only [List.singleton_append]; rw [unescapeString.eq_def]; simp [hc]
    cases unescapeString s <;> rfl
  · rw [h]; simp only [List.cons_append, List.nil_append]; rw [unescapeString.eq_def]; simp [hd]
    cases unescapeString s <;> rfl

theorem unescape_escape (s : Str) : unescapeString (escapeString s) = .ok s := by
  induction s with
  | nil => rfl
  | cons c s ih => rw [escapeString_cons, unescape_escapeChar, ih]

theorem escape_not_newline (s : Str) : '\n' ∉ escapeString s ∧ '\r' ∉ escapeString s ∧ '\t' ∉ escapeString s := by
  induction s with
  | nil => simp
  | cons c s ih =>
    rw [escapeString_cons]
    simp only [List.mem_append, not_or]
    rcases escapeChar_cases c with ⟨h, h1, h2, h3, h4, h5⟩ | ⟨d, h, _, hd, _⟩
    · rw [h]; simp only [List.mem_singleton]
      exact ⟨⟨fun e => h3 e.symm, ih.1⟩, ⟨fun e => h4 e.symm, ih.2.1⟩, ⟨fun e => h5 e.symm, ih.2.2⟩⟩
    · rw [h]
      rcases hd with rfl | rfl | rfl | rfl | rfl <;>
        refine ⟨⟨by decide, ih.1⟩, ⟨by decide, ih.2.1⟩, ⟨by decide, ih.2.2⟩⟩

/-- Characters untouched by escaping. -/
def Neutral (c : Char) : Prop :=
  c ≠ '\\' ∧ c ≠ '"' ∧ c ≠ 'n' ∧ c ≠ 'r' ∧ c ≠ 't' ∧ c ≠ '\n' ∧ c ≠ '\r' ∧ c ≠ '\t'

instance (c : Char) : Decidable (Neutral c) := inferInstanceAs (Decidable (_ ∧ _))

theorem escapeChar_neutral {c : Char} (h : Neutral c) : escapeChar c = [c] := by
  obtain ⟨h1, h2, _, _, _, h6, h7, h8⟩ := h
  simp [escapeChar, h1, h2, h6, h7, h8]

theorem mem_escape {c : Char} (h : Neutral c) (s : Str) : c ∈ escapeString s ↔ c ∈ s := by
  induction s with
  | nil => simp
  | cons x s ih =>
    rw [escapeString_cons, List.mem_append, ih, List.mem_cons]
    obtain ⟨h1, h2, h3, h4, h5, h6, h7, h8⟩ := h
    rcases escapeChar_cases x with ⟨hx, _⟩ | ⟨d, hx, _, hd, hc⟩
    · rw [hx]; simp
    · rw [hx]
      have : c ≠ d := by rcases hd with rfl | rfl | rfl | rfl | rfl <;> assumption
      have : c ≠ x := by rcases hc with rfl | rfl | rfl | rfl | rfl <;> assumption
      simp [*]

/-! ## Closing quotes -/

theorem closingQuoteAux_escape (s rest : Str) (i : Nat) :
    closingQuoteAux (escapeString s ++ '"' :: rest) i = some (i + (escapeString s).length) := by
  induction s generalizing i with
  | nil => rw [escapeString_nil, List.nil_append, closingQuoteAux.eq_def]; simp
  | cons c s ih =>
    rw [escapeString_cons, List.append_assoc]
    rcases escapeChar_cases c with ⟨h, hc, hq, _⟩ | ⟨d, h, _⟩
    · rw [h]; simp only [List.singleton_append]
      rw [closingQuoteAux.eq_def]; simp [hc, hq, ih]; omega
    · rw [h]; simp only [List.cons_append, List.nil_append]
      rw [closingQuoteAux.eq_def]; simp [ih]; omega

/-- The quoted form of a string. -/
def quoted (s : Str) : Str := '"' :: escapeString s ++ ['"']

theorem quoted_length (s : Str) : (quoted s).length = (escapeString s).length + 2 := by
  simp [quoted]

theorem quoted_append (s rest : Str) : quoted s ++ rest = '"' :: (escapeString s ++ '"' :: rest) := by
  simp [quoted]

theorem findClosingQuote_quoted (s rest : Str) :
    findClosingQuote (quoted s ++ rest) 0 = some ((escapeString s).length + 1) := by
  rw [quoted_append]
  simp only [findClosingQuote, List.drop_zero, closingQuoteAux_escape]
  congr 1; omega

theorem quoted_noEdgeWs (s : Str) : NoEdgeWs (quoted s) := by
  constructor
  · intro c hc; simp [quoted] at hc; subst hc; decide
  · intro c hc
    simp [quoted] at hc
    rw [← List.cons_append, List.getLast?_append] at hc
    simp at hc; subst hc; decide

theorem quoted_not_newline (s : Str) : '\n' ∉ quoted s ∧ '\r' ∉ quoted s ∧ '\t' ∉ quoted s := by
  have := escape_not_newline s
  simp [quoted, this]

/-! ## Scanning for an unquoted character -/

theorem unquotedCharAux_escape (t : Char) (s rest : Str) (i : Nat) :
    unquotedCharAux t (escapeString s ++ '"' :: rest) i true =
      unquotedCharAux t rest (i + (escapeString s).length + 1) false := by
  induction s generalizing i with
  | nil => rw [escapeString_nil, List.nil_append, unquotedCharAux.eq_def]; simp
  | cons c s ih =>
    rw [escapeString_cons, List.append_assoc]
    rcases escapeChar_cases c with ⟨h, hc, hq, _⟩ | ⟨d, h, _⟩
    · rw [h]; simp only [List.singleton_append]
      rw [unquotedCharAux.eq_def]; simp [hc, hq, ih]; congr 1; omega
    · rw [h]; simp only [List.cons_append, List.nil_append]
      rw [unquotedCharAux.eq_def]; simp [ih]; congr 1; omega

theorem unquotedCharAux_quoted (t : Char) (s rest : Str) (i : Nat) :
    unquotedCharAux t (quoted s ++ rest) i false =
      unquotedCharAux t rest (i + (quoted s).length) false := by
  rw [quoted_append, unquotedCharAux.eq_def]
  simp only [Bool.false_and, Bool.false_eq_true, if_false, if_true, Bool.not_false]
  rw [unquotedCharAux_escape, quoted_length]
  congr 1; omega

theorem unquotedCharAux_plain {t : Char} {s : Str} (h : '"' ∉ s) (ht : t ∉ s) (rest : Str) (i : Nat) :
    unquotedCharAux t (s ++ rest) i false = unquotedCharAux t rest (i + s.length) false := by
  induction s generalizing i with
  | nil => simp
  | cons c s ih =>
    simp only [List.mem_cons, not_or] at h ht
    rw [List.cons_append, unquotedCharAux.eq_def]
    have h1 : ¬ c = '"' := fun e => h.1 e.symm
    have h2 : ¬ c = t := fun e => ht.1 e.symm
    simp [h1, h2, ih h.2 ht.2]
    congr 1; omega

theorem unquotedCharAux_hit {t : Char} (ht : t ≠ '"') (rest : Str) (i : Nat) :
    unquotedCharAux t (t :: rest) i false = some i := by
  rw [unquotedCharAux.eq_def]; simp [ht]

/-! ## Keys and safe strings -/

theorem isAlpha_cases {c : Char} (h : isIdStart c = true) :
    isWs c = false ∧ c ≠ '"' ∧ c ≠ '-' ∧ c ≠ ':' ∧ c ≠ '[' ∧ c ≠ ']' ∧ c ≠ '{' ∧ c ≠ '}' ∧ c ≠ '\n' ∧ c ≠ ' ' := by
  have key : (65 ≤ c.toNat ∧ c.toNat ≤ 90) ∨ (97 ≤ c.toNat ∧ c.toNat ≤ 122) ∨ c.toNat = 95 := by
    simp only [isIdStart, Char.isAlpha, Char.isUpper, Char.isLower, Bool.or_eq_true, Bool.and_eq_true,
      decide_eq_true_eq, beq_iff_eq] at h
    rcases h with (⟨a, b⟩ | ⟨a, b⟩) | rfl
    · left; exact ⟨a, b⟩
    · right; left; exact ⟨a, b⟩
    · right; right; rfl
  constructor
  · simp only [isWs, Bool.or_eq_false_iff, Bool.and_eq_false_iff, decide_eq_false_iff_not, beq_eq_false_iff_ne]
    omega
  · refine ⟨?_, ?_, ?_, ?_, ?_, ?_, ?_, ?_, ?_⟩ <;> (rintro rfl; revert key; decide)

theorem isKeyChar_cases {c : Char} (h : (c.isAlphanum || c == '_' || c == '.') = true) :
    isWs c = false ∧ c ≠ '"' ∧ c ≠ '-' ∧ c ≠ ':' ∧ c ≠ '[' ∧ c ≠ ']' ∧ c ≠ '{' ∧ c ≠ '}' ∧ c ≠ '\n' ∧ c ≠ ' '
      ∧ c ≠ '\\' ∧ c ≠ ',' ∧ c ≠ '|' ∧ c ≠ '\t' ∧ c ≠ '\r' := by
  have key : (65 ≤ c.toNat ∧ c.toNat ≤ 90) ∨ (97 ≤ c.toNat ∧ c.toNat ≤ 122) ∨
      (48 ≤ c.toNat ∧ c.toNat ≤ 57) ∨ c.toNat = 95 ∨ c.toNat = 46 := by
    simp only [Char.isAlphanum, Char.isAlpha, Char.isUpper, Char.isLower, Char.isDigit, Bool.or_eq_true,
      Bool.and_eq_true, decide_eq_true_eq, beq_iff_eq] at h
    rcases h with ((( ⟨a, b⟩ | ⟨a, b⟩) | ⟨a, b⟩) | rfl) | rfl
    · left; exact ⟨a, b⟩
    · right; left; exact ⟨a, b⟩
    · right; right; left; exact ⟨a, b⟩
    · right; right; right; left; rfl
    · right; right; right; right; rfl
  constructor
  · simp only [isWs, Bool.or_eq_false_iff, Bool.and_eq_false_iff, decide_eq_false_iff_not, beq_eq_false_iff_ne]
    omega
  · refine ⟨?_, ?_, ?_, ?_, ?_, ?_, ?_, ?_, ?_, ?_, ?_, ?_, ?_, ?_⟩ <;> (rintro rfl; revert key; decide)

theorem keyChar_of_idStart {c : Char} (h : isIdStart c = true) : (c.isAlphanum || c == '_' || c == '.') = true := by
  simp only [isIdStart, Bool.or_eq_true] at h
  simp only [Char.isAlphanum, Bool.or_eq_true]
  rcases h with h | h
  · exact Or.inl (Or.inl (Or.inl h))
  · exact Or.inl (Or.inr h)

theorem validKey_mem {k : Str} (h : isValidUnquotedKey k = true) {c : Char} (hc : c ∈ k) :
    (c.isAlphanum || c == '_' || c == '.') = true := by
  cases k with
  | nil => simp at hc
  | cons x xs =>
    simp only [isValidUnquotedKey, Bool.and_eq_true, List.all_eq_true] at h
    rcases List.mem_cons.mp hc with rfl | hc
    · exact keyChar_of_idStart h.1
    · exact h.2 c hc

theorem validKey_not_mem {k : Str} (h : isValidUnquotedKey k = true) {c : Char}
    (hc : (c.isAlphanum || c == '_' || c == '.') = false) : c ∉ k := by
  intro hm; rw [validKey_mem h hm] at hc; exact absurd hc (by simp)

theorem validKey_ne_nil {k : Str} (h : isValidUnquotedKey k = true) : k ≠ [] := by
  rintro rfl; simp [isValidUnquotedKey] at h

theorem validKey_noEdgeWs {k : Str} (h : isValidUnquotedKey k = true) : NoEdgeWs k := by
  constructor
  · intro c hc
    exact (isKeyChar_cases (validKey_mem h (List.mem_of_mem_head? hc))).1
  · intro c hc
    exact (isKeyChar_cases (validKey_mem h (List.mem_of_getLast? hc))).1

theorem validKey_head {k : Str} (h : isValidUnquotedKey k = true) :
    ∃ c rest, k = c :: rest ∧ isIdStart c = true := by
  cases k with
  | nil => simp [isValidUnquotedKey] at h
  | cons c rest =>
    simp only [isValidUnquotedKey, Bool.and_eq_true] at h
    exact ⟨c, rest, rfl, h.1⟩

/-- What `is_safe_unquoted` guarantees. -/
structure SafeStr (s : Str) (d : Char) : Prop where
  ne : s ≠ []
  edge : NoEdgeWs s
  notLit : isBoolOrNull s = false
  notNum : isNumericLike s = false
  colon : ':' ∉ s
  quote : '"' ∉ s
  backslash : '\\' ∉ s
  lbracket : '[' ∉ s
  rbracket : ']' ∉ s
  lbrace : '{' ∉ s
  rbrace : '}' ∉ s
  lf : '\n' ∉ s
  cr : '\r' ∉ s
  tab : '\t' ∉ s
  delim : d ∉ s
  dash : s.head? ≠ some '-'

theorem isSafeUnquoted_iff (s : Str) (d : Char) : isSafeUnquoted s d = true ↔ SafeStr s d := by
  unfold isSafeUnquoted
  constructor
  · intro h
    split at h; contradiction
    split at h; contradiction
    split at h; contradiction
    split at h; contradiction
    split at h; contradiction
    split at h; contradiction
    split at h; contradiction
    split at h; contradiction
    split at h; contradiction
    rename_i h1 h2 h3 h4 h5 h6 h7 h8 h9
    simp only [List.isEmpty_iff, bne_iff_ne, ne_eq, Decidable.not_not, Bool.or_eq_true, not_or,
      Bool.not_eq_true, List.contains_iff_mem, beq_iff_eq] at *
    exact ⟨h1, noEdgeWs_of_trim h2, h3.1, h3.2, h4, h5.1, h5.2, h6.1.1.1, h6.1.1.2, h6.1.2, h6.2,
      h7.1.1, h7.1.2, h7.2, h8, h9⟩
  · intro h
    rw [if_neg (by simpa using h.ne), if_neg (by simp [trim_eq_self h.edge]),
      if_neg (by simp [h.notLit, h.notNum]), if_neg (by simpa using h.colon),
      if_neg (by simp [h.quote, h.backslash]), if_neg (by simp [h.lbracket, h.rbracket, h.lbrace, h.rbrace]),
      if_neg (by simp [h.lf, h.cr, h.tab]), if_neg (by simpa using h.delim), if_neg (by simpa using h.dash)]

/-! ## Numeric literals -/

theorem spanDigits_digits {ds : Str} (h : ∀ c ∈ ds, c.isDigit = true) {r : Str}
    (hr : ∀ c, r.head? = some c → c.isDigit = false) : spanDigits (ds ++ r) = (ds, r) := by
  induction ds with
  | nil =>
    cases r with
    | nil => rfl
    | cons x xs =>
      have := hr x rfl
      simp [spanDigits, this]
  | cons d ds ih =>
    have hd := h d (by simp)
    have := ih (fun c hc => h c (by simp [hc]))
    simp only [spanDigits, Prod.mk.injEq] at this ⊢
    simp [hd, this]

theorem spanDigits_all {ds : Str} (h : ∀ c ∈ ds, c.isDigit = true) : spanDigits ds = (ds, []) := by
  have := spanDigits_digits h (r := []) (by simp)
  simpa using this

theorem spanDigits_fst (s : Str) : ∀ c ∈ (spanDigits s).1, c.isDigit = true := by
  intro c hc
  exact List.all_eq_true.mp (List.all_takeWhile (p := Char.isDigit) (l := s)) c hc

theorem spanDigits_append (s : Str) : (spanDigits s).1 ++ (spanDigits s).2 = s :=
  List.takeWhile_append_dropWhile

theorem spanDigits_snd_head (s : Str) : ∀ c, (spanDigits s).2.head? = some c → c.isDigit = false := by
  intro c hc
  have := List.head?_dropWhile_not Char.isDigit s
  simp only [spanDigits] at hc
  rw [hc] at this
  simpa using this

/-- Numeric syntax is numeric-like: an unquoted safe string is never read back as a number. -/
theorem numericLike_of_syntax {s : Str} (ht : NoEdgeWs s) (h : isNumericSyntax s = true) :
    isNumericLike s = true := by
  unfold isNumericSyntax at h
  unfold isNumericLike
  rw [trim_eq_self ht]
  cases hs : stripMinus s with
  | none => simp [hs] at h
  | some body =>
    simp only [hs] at h ⊢
    cases body with
    | nil => simp at h
    | cons c r =>
      simp only at h
      split at h
      · rename_i hc
        simp only [beq_iff_eq] at hc; subst hc
        cases r with
        | nil => simpa [spanDigits] using h
        | cons d r' =>
          simp only at h
          split at h
          · contradiction
          · rename_i hd
            have h0 : Char.isDigit '0' = true := by decide
            simp only [Bool.not_eq_true] at hd
            simp [spanDigits, h0, hd, h]
      · split at h
        · rename_i hc0 hc
          simp only [Bool.not_eq_true, beq_eq_false_iff_ne] at hc0
          have h1 : (spanDigits (c :: r)).1 = c :: r.takeWhile Char.isDigit := by
            simp [spanDigits, hc]
          simp [h1, hc0, h]
        · contradiction

theorem stripMinus_cons {c : Char} {r : Str} (hc : c ≠ '-') : stripMinus (c :: r) = some (c :: r) := by
  unfold stripMinus
  split
  · contradiction
  · simp_all
  · simp_all
  · rfl

theorem stripMinus_minus {c : Char} {r : Str} : stripMinus ('-' :: c :: r) = some (c :: r) := by
  simp [stripMinus]

theorem plainDecimal_syntax {s : Str} (h : PlainDecimal s) : isNumericSyntax s = true := by
  obtain ⟨sign, ip, fr, rfl, hs, hne, hd, hz, hf⟩ := h
  cases ip with
  | nil => exact absurd rfl hne
  | cons c ip =>
    have hcd := hd c (by simp)
    have hcm : c ≠ '-' := by rintro rfl; revert hcd; decide
    have hstrip : stripMinus (sign ++ (c :: ip) ++ fr) = some (c :: (ip ++ fr)) := by
      rcases hs with rfl | rfl
      · simpa using stripMinus_cons hcm
      · simp [stripMinus]
    have hfr : ∀ x, fr.head? = some x → x.isDigit = false := by
      rcases hf with rfl | ⟨ds, rfl, _⟩
      · simp
      · intro x hx; simp at hx; subst hx; decide
    have htail : numTail fr = true := by
      rcases hf with rfl | ⟨ds, rfl, hne', hds⟩
      · rfl
      · unfold numTail
        simp [spanDigits_all hds, hne']
    unfold isNumericSyntax
    rw [hstrip]
    simp only
    split
    · rename_i h0
      simp only [beq_iff_eq] at h0; subst h0
      have : ip = [] := by
        rcases hz with hz | hz
        · simpa using hz
        · simp at hz
      subst this
      cases fr with
      | nil => exact htail
      | cons x xs =>
        have := hfr x rfl
        simp [this, htail]
    · rw [← List.cons_append, spanDigits_digits hd hfr]
      exact htail

theorem plainDecimal_mem {s : Str} (h : PlainDecimal s) {c : Char} (hc : c ∈ s) :
    c.isDigit = true ∨ c = '-' ∨ c = '.' := by
  obtain ⟨sign, ip, fr, rfl, hs, hne, hd, hz, hf⟩ := h
  simp only [List.mem_append] at hc
  rcases hc with (hc | hc) | hc
  · rcases hs with rfl | rfl
    · simp at hc
    · simp at hc; exact Or.inr (Or.inl hc)
  · exact Or.inl (hd c hc)
  · rcases hf with rfl | ⟨ds, rfl, _, hds⟩
    · simp at hc
    · rcases List.mem_cons.mp hc with rfl | hc
      · exact Or.inr (Or.inr rfl)
      · exact Or.inl (hds c hc)

theorem plainDecimal_ne_nil {s : Str} (h : PlainDecimal s) : s ≠ [] := by
  obtain ⟨sign, ip, fr, rfl, hs, hne, _⟩ := h
  simp [hne]

theorem numChar_cases {c : Char} (h : c.isDigit = true ∨ c = '-' ∨ c = '.') :
    isWs c = false ∧ c ≠ '"' ∧ c ≠ ':' ∧ c ≠ '[' ∧ c ≠ ']' ∧ c ≠ '{' ∧ c ≠ '}' ∧ c ≠ '\n' ∧ c ≠ ' '
      ∧ c ≠ '\\' ∧ c ≠ ',' ∧ c ≠ '|' ∧ c ≠ '\t' ∧ c ≠ '\r' ∧ c ≠ 't' ∧ c ≠ 'f' ∧ c ≠ 'n' := by
  have key : (48 ≤ c.toNat ∧ c.toNat ≤ 57) ∨ c.toNat = 45 ∨ c.toNat = 46 := by
    rcases h with h | rfl | rfl
    · simp only [Char.isDigit, Bool.and_eq_true, decide_eq_true_eq] at h
      left; exact h
    · right; left; rfl
    · right; right; rfl
  constructor
  · simp only [isWs, Bool.or_eq_false_iff, Bool.and_eq_false_iff, decide_eq_false_iff_not, beq_eq_false_iff_ne]
    omega
  · refine ⟨?_, ?_, ?_, ?_, ?_, ?_, ?_, ?_, ?_, ?_, ?_, ?_, ?_, ?_, ?_, ?_⟩ <;> (rintro rfl; revert key; decide)

theorem plainDecimal_noEdgeWs {s : Str} (h : PlainDecimal s) : NoEdgeWs s := by
  constructor
  · intro c hc
    exact (numChar_cases (plainDecimal_mem h (List.mem_of_mem_head? hc))).1
  · intro c hc
    exact (numChar_cases (plainDecimal_mem h (List.mem_of_getLast? hc))).1

end Toon
