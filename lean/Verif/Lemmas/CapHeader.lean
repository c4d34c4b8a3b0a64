import Verif.Lemmas.BraceHeader
import Verif.Lemmas.Declared

/-! Headers of arrays over the length limit, and headers found in quoted strings. -/

namespace Toon

theorem colonPos_written (fields : Option (List Str)) (d : Char) (suffix : Str) :
    ∃ j, colonPos (fieldsText fields d ++ ':' :: suffix) = some j := by
  cases fields with
  | none =>
    refine ⟨0, ?_⟩
    simp only [fieldsText, List.nil_append, colonPos, findChar_cons_self]
    cases findChar '{' (':' :: suffix) <;> simp
  | some fs =>
    rw [show fieldsText (some fs) d = '{' :: joinWith d (fs.map encodeKey) ++ ['}'] from rfl]
    generalize joinWith d (fs.map encodeKey) = J
    generalize hB : '{' :: J ++ ['}'] ++ ':' :: suffix = B
    have hB1 : B = '{' :: (J ++ '}' :: ':' :: suffix) := by rw [← hB]; simp
    have h1 : findChar '{' B = some 0 := by rw [hB1]; simp
    have h2 : ∃ j, findChar ':' B = some (j + 1) := by
      cases hc : findChar ':' (J ++ '}' :: ':' :: suffix) with
      | none => have := findChar_eq_none.mp hc; simp at this
      | some j => exact ⟨j, by rw [hB1]; simp [findChar, hc]⟩
    obtain ⟨j, h2⟩ := h2
    obtain ⟨x, y, hx, hJ, hy⟩ : ∃ x y : Str, '}' ∉ x ∧ J ++ '}' :: ':' :: suffix = x ++ '}' :: y ∧ ':' ∈ y := by
      cases hc : cut '}' J with
      | none => exact ⟨J, ':' :: suffix, cut_none.mp hc, rfl, by simp⟩
      | some p =>
        obtain ⟨x, y⟩ := p
        obtain ⟨rfl, hx⟩ := cut_some hc
        exact ⟨x, y ++ '}' :: ':' :: suffix, hx, by simp, by simp⟩
    have h3 : findFrom '}' B 0 = some (x.length + 1) := by
      rw [findFrom_zero, hB1, hJ, ← List.cons_append, findChar_at (by simp [hx])]
      simp
    have h4 : ∃ i, findFrom ':' B (x.length + 1 + 1) = some i := by
      rw [show B = ('{' :: x ++ ['}']) ++ y by rw [hB1, hJ]; simp, findFrom_append' _ _ (by simp)]
      cases hc : findChar ':' y with
      | none => exact absurd hy (findChar_eq_none.mp hc)
      | some i => exact ⟨_, rfl⟩
    obtain ⟨i, h4⟩ := h4
    refine ⟨i, ?_⟩
    unfold colonPos
    simp only [h1, h2, h3, h4]
    simp

/-- The header of an array over the limit is an error. -/
theorem parseHeader_over {n : Nat} (hn : maxDeclaredLength < n) (hn64 : n < 2 ^ 64) (key : Option Str)
    (fields : Option (List Str)) {d : Char} (hd : GoodDelim d) (suffix : Str) :
    parseArrayHeaderLine (formatHeader n key fields d ++ suffix) ',' = .error (.lengthCap n) := by
  rw [formatHeader_eq]
  have e1 : keyText key ++ '[' :: (lengthText n d ++ ']' :: (fieldsText fields d ++ [':'])) ++ suffix =
      keyText key ++ '[' :: (lengthText n d ++ ']' :: (fieldsText fields d ++ ':' :: suffix)) := by simp
  rw [e1]
  obtain ⟨j, hcp⟩ := colonPos_written fields d suffix
  generalize fieldsText fields d ++ ':' :: suffix = B at hcp ⊢
  have e2 : keyText key ++ '[' :: (lengthText n d ++ ']' :: B) = (keyText key ++ '[' :: lengthText n d ++ [']']) ++ B := by
    simp
  unfold parseArrayHeaderLine
  rw [findBracketStart_keyText]
  simp only
  have hbe : findFrom ']' (keyText key ++ '[' :: (lengthText n d ++ ']' :: B))
      (keyText key).length = some ((keyText key).length + ((lengthText n d).length + 1)) := by
    rw [findFrom_append, ← List.cons_append,
      findChar_at (by simp [lengthText_not_mem hd (c := ']') (by decide) (by decide)])]
    simp
  rw [hbe]
  simp only
  have hlen : (keyText key ++ '[' :: lengthText n d ++ [']']).length =
      (keyText key).length + ((lengthText n d).length + 1) + 1 := by simp; omega
  have hcol := findColon_eq (keyText key ++ '[' :: lengthText n d ++ [']']) B hlen
  rw [hcp] at hcol
  rw [e2, hcol]
  simp only [Option.map_some]
  have hkey : parseHeaderKey ((keyText key ++ '[' :: lengthText n d ++ [']']) ++ B)
      (keyText key).length = .ok (key, readQuoted key) := by
    rw [← e2, parseHeaderKey_keyText]; cases key <;> rfl
  rw [hkey]
  simp only
  have hseg : slice ((keyText key ++ '[' :: lengthText n d ++ [']']) ++ B)
      ((keyText key).length + 1) ((keyText key).length + ((lengthText n d).length + 1)) = lengthText n d := by
    apply slice_mid (a := keyText key ++ ['[']) (c := ']' :: B) (by simp) (by simp)
    simp; omega
  rw [hseg, parseBracketSegment_lengthText hn64 hd]
  simp only
  rw [if_pos (by omega)]

/-- A header in a line that ends with a quote has values on its own line. -/
theorem parseHeader_inline {c : Str} {h : Header} (hp : parseArrayHeaderLine (c ++ ['"']) ',' = .ok (some h)) :
    ∃ t, h.inline = some t := by
  unfold parseArrayHeaderLine at hp
  split at hp <;> try (simp at hp; done)
  split at hp <;> try (simp at hp; done)
  split at hp <;> try (simp at hp; done)
  rename_i j hj
  obtain ⟨_, hs⟩ := findFrom_some hj
  have hq : '"' ∈ (c ++ ['"']).drop (j + 1) := by
    have hl := congrArg List.getLast? hs
    rw [List.getLast?_append, List.getLast?_append, List.getLast?_cons, List.getLast?_cons (a := ':')] at hl
    cases hd : ((c ++ ['"']).drop (j + 1)).getLast? with
    | none => rw [hd] at hl; simp at hl
    | some q =>
      rw [hd] at hl
      simp at hl
      subst hl
      exact List.mem_of_getLast? hd
  have hne : (trim ((c ++ ['"']).drop (j + 1))).isEmpty = false := by
    apply Bool.eq_false_iff.mpr
    intro he
    have := List.all_eq_true.mp (trim_eq_nil_iff.mp (List.isEmpty_iff.mp he)) _ hq
    revert this; decide
  split at hp <;> try (simp at hp; done)
  simp only at hp
  split at hp <;> try (simp at hp; done)
  split at hp <;> try (simp at hp; done)
  split at hp <;> try (simp at hp; done)
  simp only [hne, Bool.false_eq_true, if_false, Except.ok.injEq, Option.some.injEq] at hp
  rw [← hp]
  exact ⟨_, rfl⟩

theorem headerLike_bracket {s : Str} (h : headerLike s = true) : '[' ∈ s := by
  unfold headerLike at h
  cases hc : cut '[' s with
  | none => simp [hc] at h
  | some p =>
    obtain ⟨a, b⟩ := p
    rw [(cut_some hc).1]
    simp

theorem encodeString_headerLike {s : Str} (h : headerLike s = true) (d : Char) : encodeStringLiteral s d = quoted s := by
  have hb := headerLike_bracket h
  unfold encodeStringLiteral
  rw [if_neg]
  · rfl
  · unfold isSafeUnquoted
    have : s.contains '[' = true := by simpa using hb
    simp only [this, Bool.true_or, if_true]
    repeat' split
    all_goals simp

end Toon
