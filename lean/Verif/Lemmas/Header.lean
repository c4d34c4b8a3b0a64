import Verif.Spec.HeaderLike
import Verif.Lemmas.Tokens

/-! Lemmas about array headers and keys in lines. -/

namespace Toon

/-! ## `cut` -/

theorem cut_none {c : Char} {s : Str} : cut c s = none ↔ c ∉ s := by
  induction s with
  | nil => simp [cut]
  | cons x xs ih =>
    simp only [cut, List.mem_cons, not_or]
    by_cases hx : x = c
    · simp [hx]
    · rw [if_neg hx, Option.map_eq_none_iff, ih]
      exact ⟨fun h => ⟨fun e => hx e.symm, h⟩, fun h => h.2⟩

theorem cut_append {c : Char} {a : Str} (h : c ∉ a) (b : Str) : cut c (a ++ c :: b) = some (a, b) := by
  induction a with
  | nil => simp [cut]
  | cons x xs ih =>
    simp only [List.mem_cons, not_or] at h
    simp only [List.cons_append, cut]
    rw [if_neg (fun e => h.1 e.symm), ih h.2]
    rfl

theorem cut_some {c : Char} {s a b : Str} (h : cut c s = some (a, b)) : s = a ++ c :: b ∧ c ∉ a := by
  have hm : c ∈ s := by
    apply Classical.byContradiction
    intro hn
    rw [cut_none.mpr hn] at h
    contradiction
  obtain ⟨a', b', rfl, hn⟩ := mem_split_first hm
  rw [cut_append hn] at h
  simp only [Option.some.injEq, Prod.mk.injEq] at h
  obtain ⟨rfl, rfl⟩ := h
  exact ⟨rfl, hn⟩

/-! ## Pieces of the header parser -/

/-- Where the colon of a header is, relative to the end of the bracket. -/
def colonPos (b : Str) : Option Nat :=
  match findChar '{' b, findChar ':' b with
  | some i, some j =>
    if i < j then
      match findFrom '}' b i with
      | some e => findFrom ':' b (e + 1)
      | none => some j
    else some j
  | _, some j => some j
  | _, none => none

theorem findFrom_add {c : Char} (x b : Str) (i : Nat) :
    findFrom c (x ++ b) (x.length + i) = (findFrom c b i).map (x.length + ·) := by
  simp only [findFrom]
  rw [show (x ++ b).drop (x.length + i) = b.drop i by rw [List.drop_append]; simp]
  cases findChar c (b.drop i) <;> simp
  omega

theorem findFrom_zero {c : Char} (b : Str) : findFrom c b 0 = findChar c b := by
  simp [findFrom]

theorem findColon_eq (x b : Str) {be : Nat} (hx : x.length = be + 1) :
    findFrom ':' (x ++ b) (findBraceEnd (x ++ b) be) = (colonPos b).map (x.length + ·) := by
  unfold findBraceEnd colonPos
  rw [← hx]
  have e1 := findFrom_add (c := '{') x b 0
  have e2 := findFrom_add (c := ':') x b 0
  simp only [Nat.add_zero, findFrom_zero] at e1 e2
  rw [e1, e2]
  cases h1 : findChar '{' b with
  | none =>
    simp only [Option.map_none]
    rw [e2]
    cases findChar ':' b <;> simp
  | some i =>
    cases h2 : findChar ':' b with
    | none => simp [e2, h2]
    | some j =>
      simp only [Option.map_some, Nat.add_lt_add_iff_left]
      by_cases hij : i < j
      · simp only [hij, if_true]
        rw [findFrom_add]
        cases h3 : findFrom '}' b i with
        | none => simp [e2, h2]
        | some e =>
          simp only [Option.map_some, Nat.add_assoc]
          rw [findFrom_add]
      · simp [hij, e2, h2]

theorem colonPos_isSome (b : Str) : (colonPos b).isSome = reachesColon b := by
  unfold colonPos reachesColon
  cases hb : cut '{' b with
  | none =>
    have hb' := cut_none.mp hb
    rw [findChar_eq_none.mpr hb']
    cases hc : findChar ':' b with
    | none => have := findChar_eq_none.mp hc; simp [this]
    | some j =>
      obtain ⟨a, r, rfl, _⟩ := findChar_some hc
      simp
  | some pq =>
    obtain ⟨p, q⟩ := pq
    obtain ⟨rfl, hp⟩ := cut_some hb
    simp only [findChar_at hp]
    by_cases hpc : ':' ∈ p
    · obtain ⟨p1, p2, rfl, hp1⟩ := mem_split_first hpc
      have : findChar ':' (p1 ++ ':' :: p2 ++ '{' :: q) = some p1.length := by
        rw [List.append_assoc, List.cons_append, findChar_at hp1]
      simp only [this]
      rw [if_neg (by simp)]
      simp
    · have h2 : findChar ':' (p ++ '{' :: q) = (findChar ':' q).map (fun j => p.length + (j + 1)) := by
        rw [findChar_append_of_not_mem hpc]
        simp only [findChar, if_neg (show ¬ '{' = ':' by decide)]
        cases findChar ':' q <;> simp
      have hf : (p.contains ':') = false := by simpa using hpc
      simp only [h2, hf]
      cases hq : cut '}' q with
      | none =>
        have hq' := cut_none.mp hq
        have h3 : findFrom '}' (p ++ '{' :: q) p.length = none := by
          rw [findFrom_append, findChar_eq_none.mpr (by simp [hq'])]
          rfl
        cases hc : findChar ':' q with
        | none => have := findChar_eq_none.mp hc; simp [this]
        | some j =>
          obtain ⟨a, r, rfl, _⟩ := findChar_some hc
          simp only [Option.map_some, h3]
          simp
      | some rs =>
        obtain ⟨r, s⟩ := rs
        obtain ⟨rfl, hr⟩ := cut_some hq
        have h3 : findFrom '}' (p ++ '{' :: (r ++ '}' :: s)) p.length = some (p.length + (r.length + 1)) := by
          rw [findFrom_append, ← List.cons_append, findChar_at (by simp [hr])]
          simp
        have h4 : findFrom ':' (p ++ '{' :: (r ++ '}' :: s)) (p.length + (r.length + 1) + 1)
            = (findChar ':' s).map (fun j => p.length + (r.length + 1) + 1 + j) := by
          rw [show p ++ '{' :: (r ++ '}' :: s) = (p ++ '{' :: r ++ ['}']) ++ s by simp,
            findFrom_append' _ _ (by simp; omega)]
        cases hc : findChar ':' s with
        | none =>
          have hs := findChar_eq_none.mp hc
          cases hc2 : findChar ':' (r ++ '}' :: s) with
          | none => simp [hs]
          | some j =>
            simp only [Option.map_some, h3, h4, hc]
            simp [hs]
        | some j =>
          have hs : ':' ∈ s := by
            obtain ⟨a, t, rfl, _⟩ := findChar_some hc; simp
          cases hc2 : findChar ':' (r ++ '}' :: s) with
          | none =>
            have := findChar_eq_none.mp hc2
            simp [hs] at this
          | some k =>
            simp only [Option.map_some, h3, h4, hc]
            simp [hs]

theorem findBracketStart_plain {k rest : Str} (hk : '[' ∉ k)
    (hh : (k ++ rest).head? ≠ some '"') (hw : ∀ c, (k ++ rest).head? = some c → isWs c = false) :
    findBracketStart (k ++ rest) = .ok ((findChar '[' rest).map (k.length + ·)) := by
  unfold findBracketStart
  simp only [trimStart_eq_self hw]
  rw [if_neg hh, findChar_append_of_not_mem hk]

theorem findBracketStart_quoted_bracket (s rest : Str) :
    findBracketStart (quoted s ++ '[' :: rest) = .ok (some (quoted s).length) := by
  unfold findBracketStart
  have hw : trimStart (quoted s ++ '[' :: rest) = quoted s ++ '[' :: rest := by
    apply trimStart_eq_self
    intro c hc
    simp [quoted] at hc
    subst hc; decide
  simp only [hw]
  rw [if_pos (by simp [quoted]), findClosingQuote_quoted]
  simp only
  have hd : (quoted s ++ '[' :: rest).drop ((escapeString s).length + 1 + 1) = '[' :: rest := by
    rw [List.drop_left' (quoted_length s)]
  rw [hd]
  simp only [List.head?_cons, ne_eq, not_true_eq_false, if_false, Nat.sub_self, Nat.zero_add]
  rw [findFrom_append' _ _ (quoted_length s).symm]
  simp [quoted_length]

theorem findBracketStart_quoted_other (s rest : Str) (h : rest.head? ≠ some '[') :
    findBracketStart (quoted s ++ rest) = .ok none := by
  unfold findBracketStart
  have hw : trimStart (quoted s ++ rest) = quoted s ++ rest := by
    apply trimStart_eq_self
    intro c hc
    simp [quoted] at hc
    subst hc; decide
  simp only [hw]
  rw [if_pos (by simp [quoted]), findClosingQuote_quoted]
  simp only
  rw [List.drop_left' (quoted_length s), if_pos h]

/-- The text in front of the bracket: an encoded key or nothing. -/
def keyText : Option Str → Str
  | some k => encodeKey k
  | none => []

theorem findBracketStart_keyText (key : Option Str) (rest : Str) :
    findBracketStart (keyText key ++ '[' :: rest) = .ok (some (keyText key).length) := by
  cases key with
  | none =>
    have := findBracketStart_plain (k := []) (rest := '[' :: rest) (by simp) (by simp)
      (by intro c hc; simp at hc; subst hc; decide)
    simpa [keyText] using this
  | some k =>
    simp only [keyText, encodeKey]
    split
    · rename_i h
      obtain ⟨c, r, rfl, hc⟩ := validKey_head h
      have hcc := isAlpha_cases hc
      rw [findBracketStart_plain (validKey_not_mem h (by decide))]
      · simp
      · simp [hcc.2.1]
      · intro x hx; simp at hx; subst hx; exact hcc.1
    · exact findBracketStart_quoted_bracket k rest

theorem parseHeaderKey_keyText (key : Option Str) (rest : Str) :
    parseHeaderKey (keyText key ++ rest) (keyText key).length =
      .ok (key, match key with
        | some k => !isValidUnquotedKey k
        | none => false) := by
  unfold parseHeaderKey
  cases key with
  | none => simp [keyText]
  | some k =>
    have hpos : (encodeKey k).length > 0 :=
      List.length_pos_iff.mpr (encodeKey_tok (Or.inl rfl) k).ne_nil
    rw [show keyText (some k) = encodeKey k from rfl, if_pos hpos]
    simp only [List.take_left', trim_eq_self (encodeKey_tok (Or.inl rfl) k).edge]
    have hh := encodeKey_head k
    by_cases hv : isValidUnquotedKey k = true
    · rw [hv] at hh
      have hne : (encodeKey k).head? ≠ some '"' := by
        intro h; rw [h] at hh; simp at hh
      rw [if_neg hne, if_neg (by simpa using (encodeKey_tok (Or.inl rfl) k).ne_nil)]
      simp [encodeKey, hv]
    · have hv' : isValidUnquotedKey k = false := by simpa using hv
      rw [hv'] at hh
      have he : (encodeKey k).head? = some '"' := by
        simpa using hh
      rw [if_pos he, parseStringLiteral_encodeKey]
      simp [hv']

/-- The text inside the brackets. -/
def lengthText (n : Nat) (d : Char) : Str := natDigits n ++ (if d = ',' then [] else [d])

theorem parseBracketSegment_lengthText {n : Nat} (hn : n < 2 ^ 64) {d : Char} (hd : GoodDelim d) :
    parseBracketSegment (lengthText n d) ',' = some (n, d) := by
  unfold parseBracketSegment lengthText
  rcases hd with rfl | rfl | rfl
  · simp only [if_true, List.append_nil]
    have hl : ∀ c, (natDigits n).getLast? = some c → c.isDigit = true :=
      fun c hc => natDigits_mem (List.mem_of_getLast? hc)
    split
    · rename_i h; exact absurd (hl _ h) (by decide)
    · rename_i h; exact absurd (hl _ h) (by decide)
    · simp [parseUsize_natDigits hn]
  · simp [parseUsize_natDigits hn]
  · simp [parseUsize_natDigits hn]

theorem lengthText_not_mem {n : Nat} {d c : Char} (hd : GoodDelim d) (hc : c.isDigit = false)
    (hne : c ≠ ',' ∧ c ≠ '|' ∧ c ≠ '\t') : c ∉ lengthText n d := by
  unfold lengthText
  simp only [List.mem_append, not_or]
  refine ⟨not_mem_natDigits hc, ?_⟩
  rcases hd with rfl | rfl | rfl <;> simp [hne]

theorem rbrace_encodeKey {k : Str} : '}' ∈ encodeKey k ↔ '}' ∈ k := by
  unfold encodeKey
  split
  · exact Iff.rfl
  · have := mem_escape (c := '}') (by decide) k
    simp [this]

/-- The text of the column list. -/
def fieldsText (fields : Option (List Str)) (d : Char) : Str :=
  match fields with
  | some fs => '{' :: joinWith d (fs.map encodeKey) ++ ['}']
  | none => []

theorem formatHeader_eq (n : Nat) (key : Option Str) (fields : Option (List Str)) (d : Char) :
    formatHeader n key fields d =
      keyText key ++ '[' :: (lengthText n d ++ ']' :: (fieldsText fields d ++ [':'])) := by
  unfold formatHeader keyText lengthText fieldsText
  by_cases hd : d = ','
  · cases key <;> cases fields <;> simp [hd]
  · cases key <;> cases fields <;> simp [hd]

/-- The columns read back from a header. -/
def readFields (fields : Option (List Str)) : Option (List FieldName) :=
  fields.map (·.map fun k => ⟨k, !isValidUnquotedKey k⟩)

/-- The key flag read back from a header. -/
def readQuoted (key : Option Str) : Bool :=
  match key with
  | some k => !isValidUnquotedKey k
  | none => false

theorem colonPos_fields {fields : Option (List Str)} {d : Char} (hd : GoodDelim d)
    (hf : ∀ fs, fields = some fs → ∀ f ∈ fs, '}' ∉ f) (suffix : Str) :
    colonPos (fieldsText fields d ++ ':' :: suffix) = some (fieldsText fields d).length := by
  cases fields with
  | none =>
    simp only [fieldsText, List.nil_append, List.length_nil, colonPos, findChar_cons_self]
    cases findChar '{' (':' :: suffix) <;> simp
  | some fs =>
    have hb : '}' ∉ joinWith d (fs.map encodeKey) := by
      intro h
      rcases mem_joinWith h with h | ⟨t, ht, h⟩
      · exact (goodDelim_ne hd).2.2.2.2.1 h.symm
      · obtain ⟨f, hf', rfl⟩ := List.mem_map.mp ht
        exact hf fs rfl f hf' (rbrace_encodeKey.mp h)
    rw [show fieldsText (some fs) d = '{' :: joinWith d (fs.map encodeKey) ++ ['}'] from rfl]
    generalize joinWith d (fs.map encodeKey) = J at hb
    have h1 : findChar '{' ('{' :: J ++ ['}'] ++ ':' :: suffix) = some 0 := by simp
    have h2 : ∃ j, findChar ':' ('{' :: J ++ ['}'] ++ ':' :: suffix) = some (j + 1) := by
      cases hc : findChar ':' (J ++ ['}'] ++ ':' :: suffix) with
      | none => have := findChar_eq_none.mp hc; simp at this
      | some j =>
        refine ⟨j, ?_⟩
        simp only [List.cons_append, List.append_assoc, List.nil_append] at hc ⊢
        simp [findChar, hc]
    obtain ⟨j, h2⟩ := h2
    have h3 : findFrom '}' ('{' :: J ++ ['}'] ++ ':' :: suffix) 0 = some (J.length + 1) := by
      rw [findFrom_zero, show '{' :: J ++ ['}'] ++ ':' :: suffix = ('{' :: J) ++ '}' :: (':' :: suffix) by simp,
        findChar_at (by simp [hb])]
      simp
    have h4 : findFrom ':' ('{' :: J ++ ['}'] ++ ':' :: suffix) (J.length + 1 + 1) = some (J.length + 1 + 1) := by
      rw [findFrom_append' _ _ (by simp)]
      simp
    unfold colonPos
    simp only [h1, h2, h3, h4]
    simp

theorem parseHeaderFields_format {fields : Option (List Str)} {d : Char} (hd : GoodDelim d)
    (hf : ∀ fs, fields = some fs → fs ≠ [] ∧ ∀ f ∈ fs, '}' ∉ f) (suffix x : Str) {be : Nat}
    (hx : x.length = be + 1) :
    parseHeaderFields (x ++ (fieldsText fields d ++ ':' :: suffix)) be
      (x.length + (fieldsText fields d).length) d = .ok (readFields fields) := by
  unfold parseHeaderFields
  rw [← hx]
  cases fields with
  | none =>
    rw [show fieldsText none d = [] from rfl]
    simp only [List.nil_append, List.length_nil, Nat.add_zero, readFields, Option.map_none]
    rw [findFrom_append]
    cases h : findChar '{' (':' :: suffix) with
    | none => simp
    | some i =>
      simp only [Option.map_some]
      rw [if_neg (by omega)]
  | some fs =>
    obtain ⟨hne, hb⟩ := hf fs rfl
    have hb : '}' ∉ joinWith d (fs.map encodeKey) := by
      intro h
      rcases mem_joinWith h with h | ⟨t, ht, h⟩
      · exact (goodDelim_ne hd).2.2.2.2.1 h.symm
      · obtain ⟨f, hf', rfl⟩ := List.mem_map.mp ht
        exact hb f hf' (rbrace_encodeKey.mp h)
    have hp : parseDelimitedValues (joinWith d (fs.map encodeKey)) d = fs.map encodeKey := by
      apply parseDelimited_join hd _ (by simpa using hne)
      intro t ht
      obtain ⟨f, _, rfl⟩ := List.mem_map.mp ht
      exact encodeKey_tok hd f
    rw [show fieldsText (some fs) d = '{' :: joinWith d (fs.map encodeKey) ++ ['}'] from rfl]
    generalize joinWith d (fs.map encodeKey) = J at hb hp
    have h1 : findFrom '{' (x ++ ('{' :: J ++ ['}'] ++ ':' :: suffix)) x.length = some x.length := by
      rw [findFrom_append]; simp
    have h2 : findFrom '}' (x ++ ('{' :: J ++ ['}'] ++ ':' :: suffix)) x.length = some (x.length + (J.length + 1)) := by
      rw [findFrom_append, show '{' :: J ++ ['}'] ++ ':' :: suffix = ('{' :: J) ++ '}' :: (':' :: suffix) by simp,
        findChar_at (by simp [hb])]
      simp
    have h3 : slice (x ++ ('{' :: J ++ ['}'] ++ ':' :: suffix)) (x.length + 1) (x.length + (J.length + 1)) = J := by
      apply slice_mid (a := x ++ ['{']) (c := '}' :: ':' :: suffix) (by simp) (by simp)
      simp; omega
    simp only [h1, h2, h3, hp, parseFields_encode]
    simp only [readFields, Option.map_some, List.length_append, List.length_cons, List.length_nil]
    rw [if_pos (by omega), if_pos (by omega)]

/-- Reading a written header back. -/
theorem parseHeader_format {n : Nat} (hn : n ≤ maxDeclaredLength) (key : Option Str)
    {fields : Option (List Str)} {d : Char} (hd : GoodDelim d)
    (hf : ∀ fs, fields = some fs → fs ≠ [] ∧ ∀ f ∈ fs, '}' ∉ f) (suffix : Str) :
    parseArrayHeaderLine (formatHeader n key fields d ++ suffix) ',' =
      .ok (some {
        key := key, keyQuoted := readQuoted key, length := n, delim := d,
        fields := readFields fields,
        inline := if (trim suffix).isEmpty then none else some (trim suffix) }) := by
  have hn64 : n < 2 ^ 64 := by simp [maxDeclaredLength] at hn; omega
  rw [formatHeader_eq]
  -- the whole text, cut in three different ways
  have e1 : keyText key ++ '[' :: (lengthText n d ++ ']' :: (fieldsText fields d ++ [':'])) ++ suffix =
      keyText key ++ '[' :: (lengthText n d ++ ']' :: (fieldsText fields d ++ ':' :: suffix)) := by simp
  have e2 : keyText key ++ '[' :: (lengthText n d ++ ']' :: (fieldsText fields d ++ ':' :: suffix)) =
      (keyText key ++ '[' :: lengthText n d ++ [']']) ++ (fieldsText fields d ++ ':' :: suffix) := by simp
  rw [e1]
  unfold parseArrayHeaderLine
  rw [findBracketStart_keyText]
  simp only
  have hbe : findFrom ']' (keyText key ++ '[' :: (lengthText n d ++ ']' :: (fieldsText fields d ++ ':' :: suffix)))
      (keyText key).length = some ((keyText key).length + ((lengthText n d).length + 1)) := by
    rw [findFrom_append, ← List.cons_append,
      findChar_at (by simp [lengthText_not_mem hd (c := ']') (by decide) (by decide)])]
    simp
  rw [hbe]
  simp only
  have hlen : (keyText key ++ '[' :: lengthText n d ++ [']']).length =
      (keyText key).length + ((lengthText n d).length + 1) + 1 := by simp; omega
  have hcol := findColon_eq (keyText key ++ '[' :: lengthText n d ++ [']']) (fieldsText fields d ++ ':' :: suffix) hlen
  rw [colonPos_fields hd (fun fs h => (hf fs h).2)] at hcol
  rw [e2, hcol]
  simp only [Option.map_some]
  have hkey : parseHeaderKey ((keyText key ++ '[' :: lengthText n d ++ [']']) ++ (fieldsText fields d ++ ':' :: suffix))
      (keyText key).length = .ok (key, readQuoted key) := by
    rw [← e2, parseHeaderKey_keyText]; cases key <;> rfl
  rw [hkey]
  simp only
  have hseg : slice ((keyText key ++ '[' :: lengthText n d ++ [']']) ++ (fieldsText fields d ++ ':' :: suffix))
      ((keyText key).length + 1) ((keyText key).length + ((lengthText n d).length + 1)) = lengthText n d := by
    apply slice_mid (a := keyText key ++ ['[']) (c := ']' :: (fieldsText fields d ++ ':' :: suffix)) (by simp) (by simp)
    simp; omega
  rw [hseg, parseBracketSegment_lengthText hn64 hd]
  simp only
  rw [if_neg (by omega), parseHeaderFields_format hd hf suffix _ hlen]
  simp only
  have hdrop : ((keyText key ++ '[' :: lengthText n d ++ [']']) ++ (fieldsText fields d ++ ':' :: suffix)).drop
      ((keyText key ++ '[' :: lengthText n d ++ [']']).length + (fieldsText fields d).length + 1) = suffix := by
    rw [show (keyText key ++ '[' :: lengthText n d ++ [']']) ++ (fieldsText fields d ++ ':' :: suffix) =
      ((keyText key ++ '[' :: lengthText n d ++ [']']) ++ fieldsText fields d ++ [':']) ++ suffix by simp]
    apply List.drop_left'
    simp; omega
  rw [hdrop]

/-! ## Key-value lines -/

theorem encodeKey_valid {k : Str} (h : isValidUnquotedKey k = true) : encodeKey k = k := by
  simp [encodeKey, h]

theorem encodeKey_invalid {k : Str} (h : isValidUnquotedKey k = false) : encodeKey k = quoted k := by
  simp [encodeKey, h, quoted]

theorem parseQuotedKey_quoted (k rest : Str) :
    parseQuotedKey (quoted k ++ ':' :: rest) = .ok (k, (quoted k).length + 1) := by
  unfold parseQuotedKey
  rw [findClosingQuote_quoted]
  simp only
  rw [slice_mid (s := quoted k ++ ':' :: rest) (a := ['"']) (b := escapeString k) (c := '"' :: ':' :: rest)
    (by simp [quoted]) (by simp) (by simp; omega), unescape_escape]
  simp only
  rw [List.drop_left' (quoted_length k)]
  simp [quoted_length]

theorem parseKeyToken_encode (k rest : Str) :
    parseKeyToken (encodeKey k ++ ':' :: rest) = .ok (k, (encodeKey k).length + 1, !isValidUnquotedKey k) := by
  unfold parseKeyToken
  cases hv : isValidUnquotedKey k with
  | true =>
    rw [encodeKey_valid hv]
    obtain ⟨c, r, hk, hc⟩ := validKey_head hv
    have hh : (k ++ ':' :: rest).head? ≠ some '"' := by
      rw [hk]; simp [(isAlpha_cases hc).2.1]
    rw [if_neg hh]
    unfold parseUnquotedKey
    rw [findChar_at (validKey_not_mem hv (by decide))]
    simp [trim_eq_self (validKey_noEdgeWs hv)]
  | false =>
    rw [encodeKey_invalid hv, if_pos (by simp [quoted]), parseQuotedKey_quoted]
    rfl

theorem drop_keyColon (k rest : Str) : (encodeKey k ++ ':' :: rest).drop ((encodeKey k).length + 1) = rest := by
  rw [show encodeKey k ++ ':' :: rest = (encodeKey k ++ [':']) ++ rest by simp]
  exact List.drop_left' (by simp)

theorem unquotedColon_keyColon (k rest : Str) :
    findUnquotedChar (encodeKey k ++ ':' :: rest) ':' = some (encodeKey k).length := by
  unfold findUnquotedChar
  rw [if_pos (by decide)]
  cases hv : isValidUnquotedKey k with
  | true =>
    rw [encodeKey_valid hv, unquotedCharAux_plain (validKey_not_mem hv (by decide)) (validKey_not_mem hv (by decide)),
      unquotedCharAux_hit (by decide)]
    simp
  | false =>
    rw [encodeKey_invalid hv, unquotedCharAux_quoted, unquotedCharAux_hit (by decide)]
    simp

theorem isKeyValueContent_keyColon (k rest : Str) : isKeyValueContent (encodeKey k ++ ':' :: rest) = true := by
  simp [isKeyValueContent, unquotedColon_keyColon]

theorem encodeKey_head_cases (k : Str) :
    ∃ c r, encodeKey k = c :: r ∧ isWs c = false ∧ c ≠ '[' ∧ c ≠ '-' ∧ c ≠ ' ' := by
  cases hv : isValidUnquotedKey k with
  | true =>
    rw [encodeKey_valid hv]
    obtain ⟨c, r, hk, hc⟩ := validKey_head hv
    have := isAlpha_cases hc
    exact ⟨c, r, hk, by simp [this]⟩
  | false =>
    rw [encodeKey_invalid hv]
    exact ⟨'"', escapeString k ++ ['"'], rfl, by decide⟩

theorem notArrayHeader_key (k rest : Str) : isArrayHeaderContent (encodeKey k ++ rest) = false := by
  obtain ⟨c, r, hk, hw, hb, _⟩ := encodeKey_head_cases k
  unfold isArrayHeaderContent
  rw [trimStart_eq_self (by rw [hk]; intro x hx; simp at hx; subst hx; exact hw), hk]
  simp [hb]

theorem isKeyValueLine_keyText (k rest : Str) (h : ':' ∈ rest) :
    (encodeKey k ++ rest).head? ≠ some '"' → (encodeKey k ++ rest).contains ':' = true := by
  intro _; simp [h]

/-! ## Header-like values -/

theorem parseHeaderKey_plain {content : Str} {n : Nat} (hn : n > 0)
    (hh : (trim (content.take n)).head? ≠ some '"') :
    ∃ r, parseHeaderKey content n = .ok (r, false) := by
  unfold parseHeaderKey
  rw [if_pos hn]
  simp only
  rw [if_neg hh]
  split
  · exact ⟨_, rfl⟩
  · exact ⟨_, rfl⟩

theorem decimalValue_eq (s : Str) (acc : Nat) :
    decimalValue s acc = s.foldl (fun acc c => acc * 10 + (c.toNat - 48)) acc := by
  induction s generalizing acc with
  | nil => rfl
  | cons c s ih => simp only [decimalValue, List.foldl_cons, ih]; rfl

theorem isNumber64_eq (s : Str) : isNumber64 s = true ↔
    (s ≠ [] ∧ s.all Char.isDigit = true ∧ digitsVal s < 2 ^ 64) := by
  simp [isNumber64, decimalValue_eq, digitsVal, and_assoc]

theorem parseUsize_isSome (s : Str) : (parseUsize s).isSome =
    match s with
    | '+' :: ds => isNumber64 ds
    | ds => isNumber64 ds := by
  have key : ∀ ds : Str, (if ds.isEmpty then (none : Option Nat)
      else if ds.all Char.isDigit then (if digitsVal ds < 2 ^ 64 then some (digitsVal ds) else none)
      else none).isSome = isNumber64 ds := by
    intro ds
    apply Bool.eq_iff_iff.mpr
    rw [isNumber64_eq]
    split
    · rename_i h; simp at h; simp [h]
    · rename_i h
      simp at h
      split
      · rename_i h1
        split
        · rename_i h2; simp [h, h2]; simpa using h1
        · rename_i h2; simp only [Option.isSome_none, Bool.false_eq_true, false_iff]; exact fun hh => h2 hh.2.2
      · rename_i h1; simp only [Option.isSome_none, Bool.false_eq_true, false_iff]; exact fun hh => h1 hh.2.1
  unfold parseUsize
  split
  · rename_i ds; exact key ds
  · rename_i h
    split
    · exact absurd rfl (h _)
    · exact key s

theorem parseBracketSegment_isSome {seg : Str} (ht : '\t' ∉ seg) (d : Char) :
    (parseBracketSegment seg d).isSome = isLengthText seg := by
  unfold parseBracketSegment isLengthText
  split
  · rename_i h; exact absurd (List.mem_of_getLast? h) ht
  · rename_i h
    simp only [Option.isSome_map, h, if_true]
    exact parseUsize_isSome _
  · rename_i h1 h2
    simp only [Option.isSome_map]
    rw [if_neg h2]
    exact parseUsize_isSome _

theorem escape_eq_self {s : Str} (h : '\\' ∉ escapeString s) : escapeString s = s := by
  induction s with
  | nil => rfl
  | cons c s ih =>
    rw [escapeString_cons] at h ⊢
    simp only [List.mem_append, not_or] at h
    rcases escapeChar_cases c with ⟨hc, _⟩ | ⟨d, hc, _⟩
    · rw [hc, ih h.2]; rfl
    · rw [hc] at h; simp at h

theorem not_lengthText_of_mem {c : Char} {seg : Str} (hc : c ∈ seg) (hd : c.isDigit = false)
    (h1 : c ≠ '|') (h2 : c ≠ '+') : isLengthText seg = false := by
  have key : ∀ ds : Str, c ∈ ds → isNumber64 ds = false := by
    intro ds hm
    apply Bool.eq_false_iff.mpr
    intro h
    have := (isNumber64_eq ds).mp h
    have := List.all_eq_true.mp this.2.1 c hm
    rw [hd] at this; contradiction
  have key2 : ∀ b : Str, c ∈ b → (match b with
    | '+' :: ds => isNumber64 ds
    | ds => isNumber64 ds) = false := by
    intro b hm
    split
    · rcases List.mem_cons.mp hm with h | h
      · exact absurd h h2
      · exact key _ h
    · exact key _ hm
  unfold isLengthText
  apply key2
  split
  · rename_i hl
    obtain ⟨ys, rfl⟩ := List.getLast?_eq_some_iff.mp hl
    simp at hc ⊢
    rcases hc with hc | hc
    · exact hc
    · exact absurd hc h1
  · exact hc

/-- Escaping does not change whether a bracket content declares a length. -/
theorem parseBracketSegment_escape (seg : Str) (d : Char) :
    (parseBracketSegment (escapeString seg) d).isSome = (isLengthText seg) := by
  rw [parseBracketSegment_isSome (escape_not_newline seg).2.2]
  by_cases h : '\\' ∈ escapeString seg
  · rw [not_lengthText_of_mem h (by decide) (by decide) (by decide)]
    -- some character of `seg` is escaped
    have : ∃ c ∈ seg, c = '\\' ∨ c = '"' ∨ c = '\n' ∨ c = '\r' ∨ c = '\t' := by
      obtain ⟨c, hc, hm⟩ := List.mem_flatMap.mp h
      refine ⟨c, hc, ?_⟩
      rcases escapeChar_cases c with ⟨he, h1, _⟩ | ⟨e, _, _, _, hx⟩
      · rw [he] at hm; simp at hm; exact absurd hm.symm h1
      · exact hx
    obtain ⟨c, hc, hx⟩ := this
    symm
    rcases hx with rfl | rfl | rfl | rfl | rfl <;>
      exact not_lengthText_of_mem hc (by decide) (by decide) (by decide)
  · rw [escape_eq_self h]

theorem reachesColon_escape (b : Str) : reachesColon (escapeString b ++ ['"']) = reachesColon b := by
  have hc : ∀ s : Str, (escapeString s).contains ':' = s.contains ':' := by
    intro s
    apply Bool.eq_iff_iff.mpr
    simp [mem_escape (c := ':') (by decide) s]
  have hc2 : ∀ s : Str, (escapeString s ++ ['"']).contains ':' = s.contains ':' := by
    intro s
    apply Bool.eq_iff_iff.mpr
    simp [mem_escape (c := ':') (by decide) s]
  unfold reachesColon
  cases hb : cut '{' b with
  | none =>
    have hb' := cut_none.mp hb
    rw [cut_none.mpr (by simp [mem_escape (c := '{') (by decide), hb'])]
    exact hc2 b
  | some pq =>
    obtain ⟨p, q⟩ := pq
    obtain ⟨rfl, hp⟩ := cut_some hb
    have e1 : escapeString (p ++ '{' :: q) ++ ['"'] = escapeString p ++ '{' :: (escapeString q ++ ['"']) := by
      rw [escapeString_append, escapeString_cons, escapeChar_neutral (by decide)]; simp
    rw [e1, cut_append (by rwa [mem_escape (by decide)])]
    simp only [hc]
    cases hq : cut '}' q with
    | none =>
      have hq' := cut_none.mp hq
      rw [cut_none.mpr (by simp [mem_escape (c := '}') (by decide), hq'])]
      simp only [hc2]
    | some rs =>
      obtain ⟨r, s⟩ := rs
      obtain ⟨rfl, hr⟩ := cut_some hq
      have e2 : escapeString (r ++ '}' :: s) ++ ['"'] = escapeString r ++ '}' :: (escapeString s ++ ['"']) := by
        rw [escapeString_append, escapeString_cons, escapeChar_neutral (by decide)]; simp
      rw [e2, cut_append (by rwa [mem_escape (by decide)])]
      simp only [hc2]

/-- The header test on `key: "..."` with an unquoted key. -/
theorem parseHeader_quotedValue {k : Str} (hk : isValidUnquotedKey k = true) (s : Str) :
    (headerLike s = false → parseArrayHeaderLine (k ++ ':' :: ' ' :: quoted s) ',' = .ok none) ∧
    (headerLike s = true → (∃ e, parseArrayHeaderLine (k ++ ':' :: ' ' :: quoted s) ',' = .error e) ∨
      ∃ h, parseArrayHeaderLine (k ++ ':' :: ' ' :: quoted s) ',' = .ok (some h) ∧
        ∃ k', h.key = some k' ∧ ':' ∈ k' ∧ h.keyQuoted = false ∧ k.length < k'.length) := by
  obtain ⟨c0, r0, hk0, hc0⟩ := validKey_head hk
  have hc0' := isAlpha_cases hc0
  have hP : '[' ∉ k ++ [':', ' ', '"'] := by
    simp [validKey_not_mem hk (c := '[') (by decide)]
  have e0 : k ++ ':' :: ' ' :: quoted s = (k ++ [':', ' ', '"']) ++ (escapeString s ++ ['"']) := by
    simp [quoted]
  have hbs := findBracketStart_plain (k := k ++ [':', ' ', '"']) (rest := escapeString s ++ ['"']) hP
    (by rw [hk0]; simp [hc0'.2.1]) (by rw [hk0]; intro x hx; simp at hx; subst hx; exact hc0'.1)
  unfold headerLike
  cases h1 : cut '[' s with
  | none =>
    have h1' := cut_none.mp h1
    refine ⟨fun _ => ?_, fun h => by simp at h⟩
    unfold parseArrayHeaderLine
    rw [e0, hbs, findChar_eq_none.mpr (by simp [mem_escape (c := '[') (by decide), h1'])]
    rfl
  | some pa =>
    obtain ⟨p, a⟩ := pa
    obtain ⟨rfl, hp⟩ := cut_some h1
    have e1 : escapeString (p ++ '[' :: a) ++ ['"'] = escapeString p ++ '[' :: (escapeString a ++ ['"']) := by
      rw [escapeString_append, escapeString_cons, escapeChar_neutral (by decide)]; simp
    have hpe : '[' ∉ escapeString p := by rwa [mem_escape (by decide)]
    rw [e1, findChar_at hpe] at hbs
    rw [e0, e1]
    simp only [Option.map_some] at hbs
    -- K is everything in front of the bracket
    generalize hK : (k ++ [':', ' ', '"']) ++ escapeString p = K
    have hKlen : (k ++ [':', ' ', '"']).length + (escapeString p).length = K.length := by rw [← hK]; simp; omega
    rw [hKlen] at hbs
    rw [← List.append_assoc, hK] at hbs ⊢
    simp only
    cases h2 : cut ']' a with
    | none =>
      have h2' := cut_none.mp h2
      refine ⟨fun _ => ?_, fun h => by simp at h⟩
      unfold parseArrayHeaderLine
      rw [hbs]
      simp only
      rw [findFrom_append, findChar_eq_none.mpr (by simp [mem_escape (c := ']') (by decide), h2'])]
      rfl
    | some sb =>
      obtain ⟨seg, b⟩ := sb
      obtain ⟨rfl, hseg⟩ := cut_some h2
      simp only
      have e2 : escapeString (seg ++ ']' :: b) ++ ['"'] = escapeString seg ++ ']' :: (escapeString b ++ ['"']) := by
        rw [escapeString_append, escapeString_cons, escapeChar_neutral (by decide)]; simp
      rw [e2] at hbs ⊢
      have hse : ']' ∉ '[' :: escapeString seg := by simp [mem_escape (c := ']') (by decide), hseg]
      have hbe : findFrom ']' (K ++ '[' :: (escapeString seg ++ ']' :: (escapeString b ++ ['"']))) K.length =
          some (K.length + ((escapeString seg).length + 1)) := by
        rw [findFrom_append, ← List.cons_append, findChar_at hse]; simp
      have e3 : K ++ '[' :: (escapeString seg ++ ']' :: (escapeString b ++ ['"'])) =
          (K ++ '[' :: escapeString seg ++ [']']) ++ (escapeString b ++ ['"']) := by simp
      have hlen : (K ++ '[' :: escapeString seg ++ [']']).length = K.length + ((escapeString seg).length + 1) + 1 := by
        simp; omega
      have hcol := findColon_eq (K ++ '[' :: escapeString seg ++ [']']) (escapeString b ++ ['"']) hlen
      have hsome := colonPos_isSome (escapeString b ++ ['"'])
      rw [reachesColon_escape] at hsome
      have hKpos : K.length > 0 := by rw [← hKlen]; simp; omega
      have hsl : slice ((K ++ '[' :: escapeString seg ++ [']']) ++ (escapeString b ++ ['"']))
          (K.length + 1) (K.length + ((escapeString seg).length + 1)) = escapeString seg := by
        apply slice_mid (a := K ++ ['[']) (c := ']' :: (escapeString b ++ ['"'])) (by simp) (by simp)
        simp; omega
      have htake : ((K ++ '[' :: escapeString seg ++ [']']) ++ (escapeString b ++ ['"'])).take K.length = K := by
        rw [← e3]; simp
      -- the raw key starts with the key itself and contains the colon
      have hKc : ∃ w, trim K = k ++ ':' :: w := by
        have hKe : K = k ++ ([':', ' ', '"'] ++ escapeString p) := by rw [← hK]; simp
        have ht1 : trimStart K = K := by
          apply trimStart_eq_self
          rw [hKe, hk0]; intro x hx; simp at hx; subst hx; exact hc0'.1
        obtain ⟨w, hw, hws⟩ := trimEnd_prefix K
        have hT : trim K = trimEnd K := by rw [trim, ht1]
        rw [hT]
        -- the trimmed-off suffix cannot reach the quote
        have hq : ∃ u, K = k ++ ':' :: ' ' :: '"' :: u := ⟨escapeString p, by rw [hKe]; simp⟩
        obtain ⟨u, hu⟩ := hq
        have hwq : w.length ≤ u.length := by
          apply Classical.byContradiction
          intro hgt
          -- then `"` would be whitespace
          have hmem : '"' ∈ w := by
            have hl : (trimEnd K).length + w.length = k.length + 3 + u.length := by
              have h7 := congrArg List.length hw
              have h8 := congrArg List.length hu
              simp at h7 h8
              omega
            have : w = K.drop (trimEnd K).length := by
              have h9 : (trimEnd K ++ w).drop (trimEnd K).length = w := by simp
              rw [← hw] at h9
              exact h9.symm
            have hle : (trimEnd K).length ≤ k.length + 2 := by omega
            rw [this]
            have h5 : '"' ∈ K.drop (k.length + 2) := by
              rw [hu, show k ++ ':' :: ' ' :: '"' :: u = (k ++ [':', ' ']) ++ '"' :: u by simp,
                List.drop_left' (by simp)]
              simp
            have h6 : K.drop (k.length + 2) = (K.drop (trimEnd K).length).drop (k.length + 2 - (trimEnd K).length) := by
              rw [List.drop_drop]; congr 1; omega
            rw [h6] at h5
            exact List.mem_of_mem_drop h5
          have := List.all_eq_true.mp hws '"' hmem
          revert this; decide
        have hpre : (trimEnd K).length ≥ k.length + 1 := by
          have h7 := congrArg List.length hw
          have h8 := congrArg List.length hu
          simp at h7 h8
          omega
        have : k ++ [':'] <+: trimEnd K := by
          apply List.prefix_of_prefix_length_le (l₃ := K)
          · exact ⟨' ' :: '"' :: u, by rw [hu]; simp⟩
          · exact ⟨w, hw.symm⟩
          · simp; omega
        obtain ⟨v, hv⟩ := this
        exact ⟨v, by rw [← hv]; simp⟩
      obtain ⟨w, hw⟩ := hKc
      have hhead : (trim K).head? ≠ some '"' := by rw [hw, hk0]; simp [hc0'.2.1]
      have hkey : parseHeaderKey ((K ++ '[' :: escapeString seg ++ [']']) ++ (escapeString b ++ ['"'])) K.length =
          .ok (some (trim K), false) := by
        unfold parseHeaderKey
        rw [if_pos hKpos]
        simp only [htake]
        rw [if_neg hhead, if_neg (by rw [hw]; simp)]
      have hps := parseBracketSegment_escape seg ','
      unfold parseArrayHeaderLine
      rw [hbs]
      simp only
      rw [hbe]
      simp only
      rw [e3, hcol]
      cases hcp : colonPos (escapeString b ++ ['"']) with
      | none =>
        rw [hcp] at hsome
        rw [show reachesColon b = false from hsome.symm]
        simp
      | some j =>
        rw [hcp] at hsome
        rw [show reachesColon b = true from hsome.symm]
        simp only [Option.map_some, Bool.and_true]
        rw [hkey]
        simp only
        rw [hsl]
        cases hpb : parseBracketSegment (escapeString seg) ',' with
        | none =>
          rw [hpb] at hps
          rw [show isLengthText seg = false from hps.symm]
          simp
        | some nd =>
          rw [hpb] at hps
          rw [show isLengthText seg = true from hps.symm]
          refine ⟨fun h => by simp at h, fun _ => ?_⟩
          obtain ⟨n, d⟩ := nd
          simp only
          split
          · exact Or.inl ⟨_, rfl⟩
          · split
            · exact Or.inl ⟨_, rfl⟩
            · exact Or.inr ⟨_, rfl, trim K, rfl, by rw [hw]; simp, rfl, by rw [hw]; simp⟩

/-- The header test fails on a key-value line unless the value is a header-like string. -/
theorem parseHeader_keyValue {k t : Str} {d : Char} (ht : TokForm d t)
    (h : ∀ s, t = quoted s → isValidUnquotedKey k = true → headerLike s = false) :
    parseArrayHeaderLine (encodeKey k ++ ':' :: ' ' :: t) ',' = .ok none := by
  cases hv : isValidUnquotedKey k with
  | true =>
    rw [encodeKey_valid hv]
    rcases ht with ⟨s, rfl⟩ | ⟨_, _, hq, _, hall⟩
    · exact (parseHeader_quotedValue hv s).1 (h s rfl hv)
    · obtain ⟨c0, r0, hk0, hc0⟩ := validKey_head hv
      have hc0' := isAlpha_cases hc0
      unfold parseArrayHeaderLine
      rw [findBracketStart_plain (validKey_not_mem hv (by decide))
        (by rw [hk0]; simp [hc0'.2.1]) (by rw [hk0]; intro x hx; simp at hx; subst hx; exact hc0'.1),
        findChar_eq_none.mpr (by simp [hall '[' (by simp)])]
      rfl
  | false =>
    unfold parseArrayHeaderLine
    rw [encodeKey_invalid hv, findBracketStart_quoted_other _ _ (by simp)]

/-- The header test fails on `key:`. -/
theorem parseHeader_keyOnly (k : Str) : parseArrayHeaderLine (encodeKey k ++ [':']) ',' = .ok none := by
  unfold parseArrayHeaderLine
  cases hv : isValidUnquotedKey k with
  | true =>
    rw [encodeKey_valid hv]
    obtain ⟨c0, r0, hk0, hc0⟩ := validKey_head hv
    have hc0' := isAlpha_cases hc0
    rw [findBracketStart_plain (validKey_not_mem hv (by decide))
      (by rw [hk0]; simp [hc0'.2.1]) (by rw [hk0]; intro x hx; simp at hx; subst hx; exact hc0'.1),
      findChar_eq_none.mpr (by simp)]
    rfl
  | false => rw [encodeKey_invalid hv, findBracketStart_quoted_other _ _ (by simp)]

end Toon
