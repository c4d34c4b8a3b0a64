import Verif.Lemmas.NumGrammar
import Verif.Lemmas.RoundTrip
import Verif.Lemmas.Float64
import Verif.Lemmas.Dec

/-!
# C05-C10, C21: tokens, keys, rows and headers

Specifications: `Spec/Tokens.lean` (escapes, numeric grammar), `Spec/Values.lean` (`bareKey`,
`GoodDelim`, `PlainPrim`).
-/

namespace Toon

section
variable {F : Type} [F64 F] [LawfulF64 F]

omit [LawfulF64 F] in
/-- C05.  Every string written as a value token is read back as that string. -/
theorem C05_string_token (s : Str) (d : Char) :
    parsePrimitiveToken (F := F) (encodePrimitive (F := F) (.str s) d) = .ok (.str s) :=
  parsePrimitive_string s d

example : encodePrimitive (F := B64) (.str "1e5".toList) ',' = "\"1e5\"".toList := by decide +kernel
example : encodePrimitive (F := B64) (.str "a|b".toList) ',' = "a|b".toList := by decide +kernel
example : encodePrimitive (F := B64) (.str "a|b\n".toList) '|' = "\"a|b\\n\"".toList := by decide +kernel

/-- C06.  Every primitive other than NaN, an infinity or negative zero is read back unchanged. -/
theorem C06_primitive_token (p : Prim F) (d : Char) (hp : PlainPrim p) :
    parsePrimitiveToken (encodePrimitive p d) = .ok p :=
  parsePrimitive_encode p ((normPrim_plain p).mpr hp) d

example : PlainPrim (.num (⟨true, 1023, 2 ^ 51⟩ : B64)) ∧
    encodePrimitive (.num (⟨true, 1023, 2 ^ 51⟩ : B64)) ',' = "-1.5".toList := by
  constructor
  · simp only [PlainPrim]
    have h1 : F64.isFinite (⟨true, 1023, 2 ^ 51⟩ : B64) = true := by decide +kernel
    have h2 : F64.isZero (⟨true, 1023, 2 ^ 51⟩ : B64) = false := by decide +kernel
    exact ⟨h1, by rw [h2]; simp⟩
  · decide +kernel

omit F [F64 F] [LawfulF64 F] in
/-- C07.  Unescaping succeeds exactly on the texts whose backslashes all start one of the five legal
escapes, and gives the string the text stands for. -/
theorem C07_unescape_iff (e s : Str) : unescapeString e = .ok s ↔ Denotes e s :=
  ⟨unescape_denotes, denotes_unescape⟩

omit F [F64 F] [LawfulF64 F] in
/-- C07.  Escaping gives a text that stands for the string, and that has no newline, carriage return,
tab or bare quote in it. -/
theorem C07_escape (s : Str) : Denotes (escapeString s) s ∧ QuotedBody (escapeString s) :=
  ⟨unescape_denotes (unescape_escape s), escape_quotedBody s⟩

omit F [F64 F] [LawfulF64 F] in
/-- C07.  Unescaping inverts escaping. -/
theorem C07_unescape_escape (s : Str) : unescapeString (escapeString s) = .ok s := unescape_escape s

omit F [F64 F] [LawfulF64 F] in
/-- C07.  The first unescaped quote after an opening quote is the one the encoder wrote. -/
theorem C07_closing_quote (s rest : Str) :
    findClosingQuote ('"' :: (escapeString s ++ '"' :: rest)) 0 = some ((escapeString s).length + 1) := by
  have := findClosingQuote_quoted s rest
  rwa [quoted_append] at this

example : escapeString "a\"\\\n".toList = "a\\\"\\\\\\n".toList := by decide
example : unescapeString "\\x".toList = .error (.badEscape (some 'x')) := by decide
example : unescapeString "a\\".toList = .error (.badEscape none) := by decide

/-- C08.  Splitting an encoded row at its delimiter gives the encoded cells. -/
theorem C08_row_split (ps : List (Prim F)) (d : Char) (hd : GoodDelim d) :
    parseDelimitedValues (encodeAndJoin ps d) d = ps.map (encodePrimitive · d) := by
  by_cases h : ps = []
  · subst h; rfl
  · unfold encodeAndJoin
    apply parseDelimited_join hd _ (by simpa using h)
    intro t ht
    obtain ⟨p, _, rfl⟩ := List.mem_map.mp ht
    exact encodePrimitive_tok hd p

/-- C08.  Reading an encoded row gives the cells back, in number and order. -/
theorem C08_row_values (ps : List (Prim F)) (d : Char) (hd : GoodDelim d) (hp : ∀ p ∈ ps, PlainPrim p) :
    mapRowValues (parseDelimitedValues (encodeAndJoin ps d) d) = .ok ps := by
  rw [C08_row_split ps d hd]
  exact mapRowValues_encode ps (fun p h => (normPrim_plain p).mpr (hp p h)) d

example : encodeAndJoin [(.str "a,b".toList : Prim B64), .str [], .null, .str "c|d".toList] ',' =
    "\"a,b\",\"\",null,c|d".toList := by decide +kernel

omit F [F64 F] [LawfulF64 F] in
/-- C09.  A key written before a colon is read back; the quoted flag tells whether it was written with
quotes, which happens exactly when it is not of the form `[A-Za-z_][A-Za-z0-9_.]*`; reading goes on
just after the colon. -/
theorem C09_key (k rest : Str) :
    ∃ pos, parseKeyToken (encodeKey k ++ ':' :: rest) = .ok (k, pos, !bareKey k) ∧
      (encodeKey k ++ ':' :: rest).drop pos = rest ∧
      encodeKey k = if bareKey k then k else '"' :: escapeString k ++ ['"'] := by
  refine ⟨_, by rw [parseKeyToken_encode, bareKey_eq], drop_keyColon k rest, ?_⟩
  rw [bareKey_eq]
  rfl

example : parseKeyToken "\"a:b\": 1".toList = .ok ("a:b".toList, 6, true) := by decide +kernel

omit F [F64 F] [LawfulF64 F] in
/-- C10.  A written array header followed by any text on the line is read back: key, quoted flag,
length, delimiter, column names with their flags, and the (trimmed) text after the colon. -/
theorem C10_header (n : Nat) (key : Option Str) (cols : Option (List Str)) (d : Char) (text : Str)
    (hn : n ≤ 100000000) (hd : GoodDelim d) (hc : ∀ cs, cols = some cs → cs ≠ [] ∧ ∀ c ∈ cs, '}' ∉ c) :
    ∃ h : Header, parseArrayHeaderLine (formatHeader n key cols d ++ text) ',' = .ok (some h) ∧
      h.key = key ∧ h.length = n ∧ h.delim = d ∧
      (∀ k, key = some k → h.keyQuoted = !bareKey k) ∧
      h.fields = cols.map (·.map fun c => ⟨c, !bareKey c⟩) ∧
      h.inline = if trim text = [] then none else some (trim text) := by
  refine ⟨_, parseHeader_format hn key hd hc text, rfl, rfl, rfl, ?_, ?_, ?_⟩
  · rintro k rfl; simp only [readQuoted, bareKey_eq]
  · have : (fun c : Str => (⟨c, !bareKey c⟩ : FieldName)) = fun c => ⟨c, !isValidUnquotedKey c⟩ := by
      funext c; rw [bareKey_eq]
    simp only [this]; rfl
  · simp only [List.isEmpty_iff]

example : formatHeader 2 (some "a b".toList) (some ["id".toList, "x|y".toList]) '|' =
    "\"a b\"[2|]{id|\"x|y\"}:".toList := by decide

omit F [F64 F] [LawfulF64 F] in
/-- C21.  The numeric scanner accepts exactly the numeric grammar. -/
theorem C21_grammar (s : Str) : isNumericSyntax s = true ↔ NumGrammar s := numericSyntax_grammar s

omit [LawfulF64 F] in
/-- C21.  A token is read as a number exactly when, without surrounding whitespace, it matches the
numeric grammar and has a finite value; the number is that value, with negative zero replaced by
zero. -/
theorem C21_number_token (t : Str) (x : F) :
    parsePrimitiveToken t = .ok (.num x) ↔
      NumGrammar (trim t) ∧ ∃ y : F, F64.parse (trim t) = some y ∧ F64.isFinite y = true ∧
        x = if F64.isZero y && F64.isNeg y then F64.zero else y := by
  constructor
  · intro h
    unfold parsePrimitiveToken at h
    simp only at h
    split at h
    · simp at h
    · split at h
      · split at h <;> simp at h
      · split at h
        · split at h
          · simp at h
          · split at h <;> simp at h
        · split at h
          · rename_i hn
            simp only [isNumericLiteral, trim_trim, Bool.and_eq_true] at hn
            cases hp : (F64.parse (trim t) : Option F) with
            | none => rw [hp] at h; simp at h
            | some y =>
              rw [hp] at h hn
              simp only [Except.ok.injEq, Prim.num.injEq] at h
              exact ⟨(numericSyntax_grammar _).mp hn.1, y, rfl, hn.2, h.symm⟩
          · simp at h
  · rintro ⟨hg, y, hp, hf, rfl⟩
    have hne := grammar_ne_nil hg
    have hq : (trim t).head? ≠ some '"' := by
      intro h
      exact (grammar_notWs hg (List.mem_of_mem_head? h)).2 rfl
    unfold parsePrimitiveToken
    simp only
    rw [if_neg (by simpa using hne), if_neg hq, grammar_notLit hg]
    simp only [Bool.false_eq_true, if_false]
    have hn : isNumericLiteral F (trim t) = true := by
      simp only [isNumericLiteral, trim_trim, (numericSyntax_grammar _).mpr hg, hp, hf, Bool.and_self]
    rw [hn]
    simp only [if_true, hp]

omit [LawfulF64 F] in
/-- C21.  A string that matches the numeric grammar is written with quotes. -/
theorem C21_string_quoted (s : Str) (d : Char) (h : NumGrammar s) :
    encodePrimitive (F := F) (.str s) d = '"' :: escapeString s ++ ['"'] := by
  simp only [encodePrimitive, encodeStringLiteral, unsafe_of_grammar h d, Bool.false_eq_true, if_false]

example : NumGrammar "-12.50E+3".toList := (C21_grammar _).mp (by decide)
example : ¬ NumGrammar "007".toList := fun h => absurd ((C21_grammar _).mpr h) (by decide)
example : ¬ NumGrammar "1.".toList := fun h => absurd ((C21_grammar _).mpr h) (by decide)
/-- A number too large for binary64 is read as a string. -/
example : parsePrimitiveToken (F := B64) "1e309".toList = .ok (.str "1e309".toList) := by decide +kernel
example : parsePrimitiveToken (F := B64) "-0".toList = .ok (.num F64.zero) := by decide +kernel
example : parsePrimitiveToken (F := B64) " 1.5e0 ".toList = .ok (.num ⟨false, 1023, 2 ^ 51⟩) := by decide +kernel

end

end Toon
