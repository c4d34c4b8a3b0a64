import Verif.Lemmas.Cells
import Verif.Lemmas.Dec
import Verif.Lemmas.Float64
import Verif.Lemmas.RoundTrip
import Verif.Lemmas.ScanSim
import Verif.Spec.WhiteSpace

/-!
# C45, C46, C47: cells, tokens, keys and the quoting rule, exactly

For every text, not only for texts the encoder writes.
-/

namespace Toon

/-- C45.  A row is cut into exactly the pieces between the delimiters that are outside quotes, without
surrounding whitespace; the empty row has no cells. -/
theorem C45_cells (d : Char) (hd : GoodDelim d) (text : Str) (cells : List Str) :
    parseDelimitedValues text d = cells ↔ Cells d text cells :=
  parseDelimited_cells (by rcases hd with rfl | rfl | rfl <;> decide) text cells

/-- C45.  The cells of a text are unique. -/
theorem C45_unique (d : Char) (text : Str) (a b : List Str) (ha : Cells d text a) (hb : Cells d text b) : a = b := by
  rcases ha with ⟨h1, rfl⟩ | ⟨h1, ps, h2, rfl⟩ <;> rcases hb with ⟨h3, rfl⟩ | ⟨h3, qs, h4, rfl⟩
  · rfl
  · exact absurd h1 h3
  · exact absurd h3 h1
  · rw [splitsInto_unique h2 h4]

section
variable {F : Type} [F64 F]

/-- C46.  What a token is read as. -/
theorem C46_token (t : Str) (p : Prim F) : parsePrimitiveToken t = .ok p ↔ TokenMeans (trim t) p :=
  parsePrimitiveToken_iff t p

/-- C46.  A token stands for at most one value. -/
theorem C46_unique (t : Str) (p q : Prim F) (hp : TokenMeans (trim t) p) (hq : TokenMeans (trim t) q) : p = q := by
  have h1 := (C46_token t p).mpr hp
  rw [(C46_token t q).mpr hq] at h1
  exact (Except.ok.inj h1).symm

/-- C46.  A token is rejected exactly when it starts with a quote and is not one quoted literal with
legal escapes. -/
theorem C46_rejected (t : Str) : (∃ e, parsePrimitiveToken (F := F) t = .error e) ↔
    (trim t).head? = some '"' ∧ ¬ ∃ body s, trim t = '"' :: body ++ ['"'] ∧ QuotedDenotes body s := by
  constructor
  · rintro ⟨e, he⟩
    have hq : (trim t).head? = some '"' := by
      cases hh : decide ((trim t).head? = some '"') with
      | true => simpa using hh
      | false =>
        simp only [decide_eq_false_iff_not] at hh
        exfalso
        unfold parsePrimitiveToken at he
        simp only [hh, if_false] at he
        split at he
        · simp at he
        · split at he
          · split at he
            · simp at he
            · split at he <;> simp at he
          · split at he
            · split at he <;> simp at he
            · simp at he
    refine ⟨hq, ?_⟩
    rintro ⟨body, s, hb, hs⟩
    have := (C46_token (F := F) t (.str s)).mpr (hb ▸ .quoted hs)
    rw [he] at this; simp at this
  · rintro ⟨hq, hn⟩
    rcases hp : parsePrimitiveToken (F := F) t with e | p
    · exact ⟨e, rfl⟩
    · exfalso
      have := (C46_token t p).mp hp
      generalize hx : trim t = x at this hq
      cases this with
      | empty => simp at hq
      | quoted hd => exact hn ⟨_, _, hx, hd⟩
      | number hg _ _ => exact absurd rfl (grammar_notWs hg (List.mem_of_mem_head? hq)).2
      | bare _ hne _ _ _ _ => exact absurd hq hne
      | _ => exact absurd hq (by decide)

/-- C46, whole documents.  A one-line text without a colon is the value its token stands for, or is
rejected. -/
theorem C46_document (opts : DecOpts) (c : Char) (r : Str) (v : Json F) (hc : isWs c = false)
    (hn : '\n' ∉ c :: r) (hcol : ':' ∉ c :: r) :
    decode opts (c :: r) = .ok v ↔ ∃ p, v = .prim p ∧ TokenMeans (trim (c :: r)) p := by
  have hsp : c ≠ ' ' := by rintro rfl; revert hc; decide
  have htab : c ≠ '\t' := by rintro rfl; revert hc; decide
  have hb : ¬ BlankLine (c :: r) := fun h => by have := h c (by simp); rw [hc] at this; simp at this
  have hpl : ∀ n, parseLine (c :: r) n opts.indent opts.strict = .ok (.line ⟨0, c :: r, n⟩) := by
    intro n
    have hb' := fun h => hb ((blankLine_iff _).mp h)
    unfold parseLine
    simp only [List.takeWhile_cons] at hb' ⊢
    simp [hsp, htab] at hb' ⊢
    simp [computeDepth, hb']
  have hnone : findUnquotedChar (c :: r) ':' = none := findUnquotedChar_none hcol
  have hh : rootHeader (c :: r) = .ok none := by
    unfold rootHeader isArrayHeaderContent
    simp [hnone]
  have hk : isKeyValueLine (c :: r) = false := by
    unfold isKeyValueLine
    split
    · split
      · rename_i closing _
        rw [Bool.eq_false_iff]
        intro h
        simp only [List.contains_eq_mem, decide_eq_true_eq] at h
        exact hcol (List.mem_of_mem_drop h)
      · rfl
    · simpa using hcol
  have hs : decodeStream (F := F) opts.indent opts.strict [c :: r] =
      (parsePrimitiveToken (F := F) (trim (c :: r))).map fun p => [.prim p] := by
    unfold decodeStream
    simp only [parseLines, hpl, bind, Except.bind, decodeLines, hh, hk, List.isEmpty_nil, Bool.not_false,
      Bool.and_self, if_true]
    cases parsePrimitiveToken (F := F) (trim (c :: r)) <;> rfl
  unfold decode decodeFromLines
  rw [splitOn_of_not_mem hn, hs]
  have htok := fun p => C46_token (F := F) (trim (c :: r)) p
  rw [trim_trim] at htok
  rcases hp : parsePrimitiveToken (F := F) (trim (c :: r)) with e | p
  · simp only [Except.map, bind, Except.bind]
    constructor
    · intro h; simp at h
    · rintro ⟨p, _, hm⟩
      have := (htok p).mpr hm
      rw [hp] at this; simp at this
  · simp only [Except.map, bind, Except.bind]
    have key : ∀ res : Except Err (Json F), res = .ok (.prim p) → (res = .ok v ↔
        ∃ p, v = Json.prim p ∧ TokenMeans (trim (c :: r)) p) := by
      rintro _ rfl
      constructor
      · intro h; cases h; exact ⟨p, rfl, (htok p).mp hp⟩
      · rintro ⟨q, rfl, hm⟩
        have := (htok q).mpr hm
        rw [hp] at this; cases this; rfl
    apply key
    cases opts.expand <;> rfl

/-- C46.  A quoted key is read exactly when the line is one quoted literal with legal escapes, directly
followed by a colon. -/
theorem C46_quoted_key (s k : Str) (pos : Nat) (q : Bool) :
    parseKeyToken ('"' :: s) = .ok (k, pos, q) ↔
      q = true ∧ ∃ body rest, s = body ++ '"' :: ':' :: rest ∧ QuotedDenotes body k ∧
        ('"' :: s).drop pos = rest ∧ pos ≤ ('"' :: s).length := by
  rw [parseKeyToken_quoted_iff]
  refine and_congr Iff.rfl ⟨?_, ?_⟩
  · rintro ⟨body, rest, rfl, hq, rfl⟩
    exact ⟨body, rest, rfl, hq, by simp, by simp⟩
  · rintro ⟨body, rest, rfl, hq, hd, hl⟩
    refine ⟨body, rest, rfl, hq, ?_⟩
    have := congrArg List.length hd
    simp at this hl
    omega

/-- C46.  A bare key is the text before the first colon, without surrounding whitespace. -/
theorem C46_bare_key (s k : Str) (pos : Nat) (q : Bool) (hs : s.head? ≠ some '"') :
    parseKeyToken s = .ok (k, pos, q) ↔
      q = false ∧ ∃ a rest, s = a ++ ':' :: rest ∧ ':' ∉ a ∧ k = trim a ∧ pos = a.length + 1 :=
  parseKeyToken_bare_iff s k pos q hs

/-- C45, C47.  The white space that is taken off cells, that makes a line blank and that forces quotes at the ends of a
string is the white space of Unicode. -/
theorem C47_white_space (c : Char) : isWs c = true ↔ c.toNat ∈ whiteSpaceCodes := by
  simp only [isWs, whiteSpaceCodes, Bool.or_eq_true, Bool.and_eq_true, decide_eq_true_eq, beq_iff_eq, List.mem_cons, List.not_mem_nil, or_false]
  omega

/-- C47.  A string is written without quotes exactly when it is plain text; otherwise it is escaped
between quotes. -/
theorem C47_string (s : Str) (d : Char) :
    (PlainText s d → encodePrimitive (F := F) (.str s) d = s) ∧
    (¬ PlainText s d → encodePrimitive (F := F) (.str s) d = '"' :: escapeString s ++ ['"']) := by
  rw [← isSafeUnquoted_plain]
  constructor
  · intro h; simp only [encodePrimitive, encodeStringLiteral, h, if_true]
  · intro h; simp only [encodePrimitive, encodeStringLiteral, h]; rfl

end

/-! Cases: a trailing empty cell, a delimiter inside quotes with an escaped quote, text after a closing
quote, leading zeros. -/

example : Cells ',' " a ,\"b,\\\"c\",".toList ["a".toList, "\"b,\\\"c\"".toList, []] :=
  (C45_cells ',' (.inl rfl) _ _).mp (by decide +kernel)
example : Cells '|' "".toList [] := .inl ⟨rfl, rfl⟩
example : TokenMeans (F := B64) "\"a\\n\"".toList (.str "a\n".toList) :=
  .quoted (body := "a\\n".toList) (.plain (by decide) (by decide) (.escape (by decide) .nil))
example : ∃ e, parsePrimitiveToken (F := B64) "\"a\" b".toList = .error e := ⟨.trailingChars, by decide +kernel⟩
example : decode (F := B64) ⟨2, true, false⟩ "x y ".toList = .ok (.prim (.str "x y".toList)) := by decide +kernel
example : parseKeyToken "\"a:b\": 1".toList = .ok ("a:b".toList, 6, true) := by decide +kernel
example : NumberLike "-007 agents".toList := .inr ⟨['-'], '0', "7 agents".toList, rfl, .inr rfl, by decide⟩
example : PlainText "a b.c/d".toList ',' := (isSafeUnquoted_plain _ _).mp (by decide +kernel)
example : ¬ PlainText "05".toList ',' := fun h => absurd ((isSafeUnquoted_plain _ _).mpr h) (by decide +kernel)

end Toon
