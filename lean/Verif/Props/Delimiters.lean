import Verif.Lemmas.ShallowRows
import Verif.Props.ExpandExact
import Verif.Lemmas.Dec
import Verif.Lemmas.Float64

/-!
# C66: only the three delimiters of the format can be read back

The library and the JavaScript interface take any character as the delimiter; the command line does not.
-/

namespace Toon

/-- A character that is not a delimiter of the format, and neither a digit nor a closing bracket. -/
def ForeignDelim (d : Char) : Prop := ¬ GoodDelim d ∧ d.isDigit = false ∧ d ≠ ']'

instance (d : Char) : Decidable (ForeignDelim d) := inferInstanceAs (Decidable (_ ∧ _ ∧ _))

theorem append_cons_unique {α : Type} {x : α} : ∀ {a a' b b' : List α}, x ∉ a → x ∉ a' → a ++ x :: b = a' ++ x :: b' →
    a = a' ∧ b = b'
  | [], [], _, _, _, _, h => ⟨rfl, by simpa using h⟩
  | [], y :: a', _, _, _, h2, h => by simp only [List.nil_append, List.cons_append, List.cons.injEq] at h; exact absurd (by simp [h.1]) h2
  | y :: a, [], _, _, h1, _, h => by simp only [List.nil_append, List.cons_append, List.cons.injEq] at h; exact absurd (by simp [h.1]) h1
  | y :: a, z :: a', _, _, h1, h2, h => by
    simp only [List.cons_append, List.cons.injEq] at h
    obtain ⟨rfl, h⟩ := h
    obtain ⟨rfl, rfl⟩ := append_cons_unique (fun hm => h1 (by simp [hm])) (fun hm => h2 (by simp [hm])) h
    exact ⟨rfl, rfl⟩

/-- A line that begins with a number and a foreign delimiter in brackets is no header. -/
theorem foreign_noHeader {d : Char} (hd : ForeignDelim d) {num rest : Str} (hnum : ∀ c ∈ num, c.isDigit = true) (h : Header) :
    ¬ HeaderMeans ('[' :: num ++ d :: ']' :: rest) h := by
  rintro ⟨pre, seg, cols, after, ⟨rest', hb, hseg, _⟩, _, ⟨plus, digits, mark, rfl, _, hdig, _, _, hmark⟩, _⟩
  obtain ⟨hgood, hdd, hbr⟩ := hd
  have hcut : num ++ d :: ']' :: rest = plus ++ digits ++ mark ++ ']' :: rest' := by
    generalize hc : '[' :: num ++ d :: ']' :: rest = c at hb
    cases hb with
    | @quoted ws body r hw _ =>
      exfalso
      cases ws with
      | nil => simp at hc
      | cons x ws =>
        simp only [List.cons_append, List.cons.injEq] at hc
        have := hw x (by simp)
        rw [← hc.1] at this
        exact absurd this (by decide)
    | @bare _ r _ hp =>
      cases pre with
      | nil => simpa using hc
      | cons x pre =>
        exfalso
        simp only [List.cons_append, List.cons.injEq] at hc
        exact hp (by rw [← hc.1]; simp)
  have hn1 : ']' ∉ num ++ [d] := by
    intro hm
    rcases List.mem_append.mp hm with hm | hm
    · exact absurd (hnum _ hm) (by decide)
    · simp only [List.mem_singleton] at hm; exact hbr hm.symm
  have heq : num ++ [d] = plus ++ digits ++ mark := by
    have e1 : num ++ d :: ']' :: rest = (num ++ [d]) ++ ']' :: rest := by simp
    rw [e1] at hcut
    exact (append_cons_unique hn1 hseg hcut).1
  have hlast := congrArg List.getLast? heq
  simp only [List.getLast?_append, List.getLast?_singleton, Option.some_or] at hlast
  rcases hmark with ⟨rfl, _⟩ | ⟨rfl, _⟩ | ⟨rfl, _⟩
  · have hne := hdig.1
    have hmem : d ∈ digits := by
      simp only [List.getLast?_nil, Option.none_or] at hlast
      cases hdl : digits.getLast? with
      | none => exact absurd (List.getLast?_eq_none_iff.mp hdl) hne
      | some x =>
        rw [hdl] at hlast
        simp only [Option.some_or, Option.some.injEq] at hlast
        subst hlast
        exact List.mem_of_getLast? hdl
    rw [hdig.2 d hmem] at hdd
    simp at hdd
  · simp at hlast; subst hlast; exact hgood (Or.inr (Or.inl rfl))
  · simp at hlast; subst hlast; exact hgood (Or.inr (Or.inr rfl))

section
variable {F : Type} [F64 F] [LawfulF64 F]

/-- The text of an array begins with its length and the delimiter in brackets. -/
theorem foreign_text {opts : EncOpts} (hd : ForeignDelim opts.delim) (items : List (Json F)) :
    ∃ num rest : Str, (∀ c ∈ num, c.isDigit = true) ∧ encode opts (.arr items) = '[' :: num ++ opts.delim :: ']' :: rest := by
  have hne : opts.delim ≠ ',' := fun h => hd.1 (Or.inl h)
  obtain ⟨l, h1, h2⟩ := document_layout opts (normalize (.arr items))
  have hrows : encodeLines opts (.arr items) = (l.documentRows opts.delim).map (rowText opts.indent) := by
    rw [← h2, encodeLines, encodeJsonValue, rowsIn, List.map_map]; rfl
  have hmark : ∀ (n : Nat) (r : Str), ∃ num rest : Str, (∀ c ∈ num, c.isDigit = true) ∧
      lengthMark opts.delim n ++ r = '[' :: num ++ opts.delim :: ']' :: rest := by
    intro n r
    refine ⟨natDigits n, r, fun c hc => List.all_eq_true.mp (natDigits_isDigit n) c hc, ?_⟩
    rw [lengthMark, if_neg hne, natDigits_toString]
    simp
  have hfirst : ∃ r : Str, ∃ n rows, l.documentRows opts.delim = (0, lengthMark opts.delim n ++ r) :: rows := by
    rw [normalize, DocumentLayout] at h1
    cases h1 with
    | inline _ => exact ⟨_, _, _, by simp only [Layout.documentRows, Layout.entryRows, inlineText, List.nil_append, List.append_assoc]; rfl⟩
    | table _ _ => exact ⟨_, _, _, by simp only [Layout.documentRows, Layout.entryRows, tableText, List.nil_append, List.append_assoc]; rfl⟩
    | list _ _ _ => exact ⟨_, _, _, by simp only [Layout.documentRows, Layout.entryRows, List.nil_append, List.append_assoc]; rfl⟩
  obtain ⟨r, n, rows, hfirst⟩ := hfirst
  rw [encode, hrows, hfirst]
  cases rows with
  | nil =>
    obtain ⟨num, rest, h3, h4⟩ := hmark n r
    refine ⟨num, rest, h3, ?_⟩
    rw [← h4]
    simp [rowText, joinWith]
  | cons row rows =>
    obtain ⟨num, rest, h3, h4⟩ := hmark n (r ++ '\n' :: joinWith '\n' ((row :: rows).map (rowText opts.indent)))
    refine ⟨num, rest, h3, ?_⟩
    rw [← h4]
    simp [rowText, joinWith]

/-- C66.  An array written with a foreign delimiter never comes back as an array: not strictly, not in lax mode, with any
indentation unit, with or without path expansion. -/
theorem C66_foreign (opts : EncOpts) (dopts : DecOpts) (hd : ForeignDelim opts.delim) (items items' : List (Json F)) :
    decode dopts (encode opts (.arr items)) ≠ .ok (.arr items') := by
  intro h
  obtain ⟨num, rest, hnum, htext⟩ := foreign_text hd items
  have tree : ∃ t : ETree F, TextMeans dopts.indent dopts.strict (splitOn '\n' (encode opts (.arr items))) t ∧
      ∃ n ts, t = .arr n ts := by
    cases hx : dopts.expand with
    | false =>
      obtain ⟨t, h1, h2⟩ := (C58_value dopts hx _ _).mp h
      refine ⟨t, h1, ?_⟩
      cases t <;> simp [ETree.json] at h2
      exact ⟨_, _, rfl⟩
    | true =>
      obtain ⟨t, h1, h2, _⟩ := C58_expanded dopts hx _ _ h
      refine ⟨t, h1, ?_⟩
      cases t <;> simp [expanded] at h2
      exact ⟨_, _, rfl⟩
  obtain ⟨t, ⟨ls, bs, r, hs, hdoc⟩, n, ts, rfl⟩ := tree
  -- the first line
  have hhead : ∃ first more, splitOn '\n' (encode opts (.arr items)) = ('[' :: first) :: more ∧ ∀ hdr, ¬ HeaderMeans ('[' :: first) hdr := by
    have hlf : '\n' ∉ '[' :: num := by
      intro hm
      rcases List.mem_cons.mp hm with hm | hm
      · exact absurd hm (by decide)
      · exact absurd (hnum _ hm) (by decide)
    rw [htext]
    by_cases hnl : opts.delim = '\n'
    · rw [hnl, splitOn_append hlf]
      refine ⟨num, _, rfl, ?_⟩
      rintro hdr ⟨pre, seg, cols, after, ⟨rest', hb, _, _⟩, _⟩
      have : ']' ∈ '[' :: num := by
        generalize '[' :: num = c at hb
        cases hb <;> simp
      rcases List.mem_cons.mp this with hm | hm
      · exact absurd hm (by decide)
      · exact absurd (hnum _ hm) (by decide)
    · have hlf' : '\n' ∉ '[' :: num ++ [opts.delim, ']'] := by
        intro hm
        rcases List.mem_append.mp hm with hm | hm
        · exact hlf hm
        · simp only [List.mem_cons, List.not_mem_nil, or_false] at hm
          rcases hm with hm | hm
          · exact hnl hm.symm
          · exact absurd hm (by decide)
      have key : ∃ r more, splitOn '\n' (('[' :: num ++ [opts.delim, ']']) ++ rest) = (('[' :: num ++ [opts.delim, ']']) ++ r) :: more := by
        by_cases hr : '\n' ∈ rest
        · obtain ⟨a, b, rfl, ha⟩ := List.eq_append_cons_of_mem hr
          exact ⟨a, _, by rw [← List.append_assoc, splitOn_append (fun h => (List.mem_append.mp h).elim hlf' ha)]⟩
        · exact ⟨rest, [], splitOn_of_not_mem (by rw [List.mem_append]; exact fun h => h.elim hlf' hr)⟩
      obtain ⟨r, more, hk⟩ := key
      refine ⟨num ++ opts.delim :: ']' :: r, more, by simpa using hk, fun hdr => ?_⟩
      exact foreign_noHeader hd hnum hdr
  obtain ⟨first, more, hsplit, hno⟩ := hhead
  rw [hsplit] at hs
  generalize hsrc : ('[' :: first) :: more = src at hs
  cases hs with
  | nil => cases hsrc
  | @blank _ raw _ _ _ hb _ =>
    cases hsrc
    exact absurd (hb '[' (by simp)) (by decide)
  | @line _ spaces content _ ls _ _ _ _ _ =>
    simp only [List.cons.injEq] at hsrc
    have hc : '[' :: first = content := by
      cases spaces with
      | zero => simpa using hsrc.1
      | succ k => exact absurd (congrArg List.head? hsrc.1) (by simp [List.replicate_succ])
    subst hc
    cases hdoc with
    | array _ _ hh _ => exact hno _ hh

end

/-! ## Witnesses -/

private theorem text_eq (opts : EncOpts) (v : Json B64) (l : Layout B64) (text : Str)
    (h : DocumentLayout opts.fold opts.flattenDepth (v.mapPrims Prim.plain) l)
    (e : separated '\n' ((l.documentRows opts.delim).map (rowText opts.indent)) = text) : encode opts v = text :=
  (C56_text opts v l h).trans e

/-- Three values at the root come back as one entry of an object: its name is the header without the colon and its value
one string. -/
theorem C66_root_witness (i fd : Nat) (fold : Bool) :
    decode (F := B64) ⟨2, true, false⟩ (encode ⟨i, ';', fold, fd⟩ (.arr [.prim (.bool true), .prim (.null : Prim B64), .prim (.bool false)]))
      = .ok (.obj [("[3;]".toList, .prim (.str "true;null;false".toList))]) := by
  rw [text_eq ⟨i, ';', fold, fd⟩ (.arr [.prim (.bool true), .prim .null, .prim (.bool false)]) (.inline [.bool true, .null, .bool false]) "[3;]: true;null;false".toList
    (ValueLayout.inline rfl) (by
      simp only [Layout.documentRows, Layout.entryRows, inlineText, cellsText, tokenText, List.map, rowText, Nat.mul_zero]; decide +kernel)]
  decide +kernel

/-- Under a key the entry that is read has another name, and the decoder reports no error. -/
theorem C66_key_witness (i fd : Nat) :
    decode (F := B64) ⟨2, true, false⟩ (encode ⟨i, ';', false, fd⟩ (.obj [("k".toList, .arr [.prim (.bool true), .prim (.null : Prim B64)])]))
      = .ok (.obj [("k[2;]".toList, .prim (.str "true;null".toList))]) := by
  rw [text_eq ⟨i, ';', false, fd⟩ (.obj [("k".toList, .arr [.prim (.bool true), .prim .null])])
    (.object [("k".toList, .inline [.bool true, .null])]) "k[2;]: true;null".toList
    (ValueLayout.object (.plain (by simp) (ValueLayout.inline rfl) .nil)) (by
      simp only [Layout.documentRows, Layout.entriesRows, Layout.entryRows, inlineText, cellsText, tokenText, List.append_nil, List.map, rowText, Nat.mul_zero,
        keyTextOf]
      decide +kernel)]
  decide +kernel

/-- A digit as the delimiter changes the length that is read, and a closing bracket is read as the end of the header. -/
theorem C66_exceptions :
    encode ⟨2, '0', false, 0⟩ (.arr [.prim (.null : Prim B64)]) = "[10]: null".toList ∧
    decode (F := B64) ⟨2, true, false⟩ "[10]: null".toList = .error (.countMismatch 10 .inlineItems 1) ∧
    decode (F := B64) ⟨2, false, false⟩ "[10]: null".toList = .ok (.arr [.prim .null]) ∧
    encode ⟨2, ']', false, 0⟩ (.arr [.prim (.null : Prim B64)]) = "[1]]: null".toList ∧
    decode (F := B64) ⟨2, true, false⟩ "[1]]: null".toList = .ok (.arr [.prim .null]) := by
  refine ⟨?_, by decide +kernel, by decide +kernel, ?_, by decide +kernel⟩
  · exact text_eq ⟨2, '0', false, 0⟩ _ (.inline [.null]) _ (.inline rfl)
      (by simp only [Layout.documentRows, Layout.entryRows, inlineText, cellsText, tokenText, List.map]; decide +kernel)
  · exact text_eq ⟨2, ']', false, 0⟩ _ (.inline [.null]) _ (.inline rfl)
      (by simp only [Layout.documentRows, Layout.entryRows, inlineText, cellsText, tokenText, List.map]; decide +kernel)

/-- Foreign delimiters: the semicolon, the newline, the colon, the space; not the three of the format, no digit, no bracket. -/
example : ForeignDelim ';' ∧ ForeignDelim '\n' ∧ ForeignDelim ':' ∧ ForeignDelim ' ' ∧ ForeignDelim '"' ∧ ForeignDelim '[' ∧
    ¬ ForeignDelim ',' ∧ ¬ ForeignDelim '|' ∧ ¬ ForeignDelim '\t' ∧ ¬ ForeignDelim '0' ∧ ¬ ForeignDelim ']' := by decide

end Toon
