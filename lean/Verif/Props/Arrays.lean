import Verif.Lemmas.Arrays
import Verif.Lemmas.Dec
import Verif.Lemmas.Float64

/-!
# C45 (documents), C48 – C52: root arrays with elements of one line

For every text of that form, whether the encoder would write it or not.
-/

namespace Toon

section
variable {F : Type} [F64 F]

private theorem headerStart (n : Nat) (fields : Option (List Str)) (d : Char) :
    ∃ t, formatHeader n none fields d = '[' :: t := formatHeader_none_cons n fields d

private theorem rootHeader_plain {n : Nat} (hn : n ≤ maxDeclaredLength) {fields : Option (List Str)} {d : Char} (hd : GoodDelim d)
    (hf : ∀ fs, fields = some fs → fs ≠ [] ∧ ∀ f ∈ fs, '}' ∉ f) :
    rootHeader (formatHeader n none fields d) =
      .ok (some { key := none, keyQuoted := false, length := n, delim := d, fields := readFields fields, inline := none }) := by
  have := rootHeader_format hn hd hf []
  rw [List.append_nil] at this
  exact this

private theorem table_core {indent n : Nat} (strict : Bool) (hi : 0 < indent) (hn : n ≤ 100000000) {cols : List Str} {d : Char}
    (hd : GoodDelim d) (hc : cols ≠ [] ∧ ∀ c ∈ cols, '}' ∉ c) {body : List Str} (hb : OneLevel indent body) (v : Json F) :
    decodeFromLines ⟨indent, strict, false⟩ (formatHeader n none (some cols) d :: body) = .ok v ↔
      (∃ vs, v = .arr vs ∧ Pointwise (RowMeans strict cols d) ((contents indent body).take n) vs) ∧
      (strict = true → strictChecks n (bodyBlanks 1 body) (bodyLines indent 1 body) (fun o => noExtraRows o 1 n d strict)) := by
  obtain ⟨t, ht⟩ := headerStart n (some cols) d
  have hh := rootHeader_plain (fields := some cols) hn hd (by rintro fs ⟨⟩; exact hc)
  have hfl : (cols.map fun f => (⟨f, !isValidUnquotedKey f⟩ : FieldName)).isEmpty = false := by
    cases cols with
    | nil => exact absurd rfl hc.1
    | cons => rfl
  refine root_body (opts := ⟨indent, strict, false⟩) hi rfl ht (by decide) hh rfl hb 
    (ev := rowEv strict (cols.map fun f => (⟨f, !isValidUnquotedKey f⟩ : FieldName)) d)
    (fun o => noExtraRows o 1 n d strict) ?_ ?_ ?_ v
  · rintro h o
    simp only at h
    subst h
    cases o <;> simp [noExtraRows]
  · intro l _
    have := rowEv_reads (F := F) strict (cols.map fun f => (⟨f, !isValidUnquotedKey f⟩ : FieldName)) hd l
    rw [List.map_map, show ((·.name) ∘ fun f => (⟨f, !isValidUnquotedKey f⟩ : FieldName)) = id from rfl, List.map_id] at this
    exact this
  · intro fuel evs cur hf
    obtain ⟨fuel, rfl⟩ : ∃ f, fuel = f + 1 := ⟨fuel - 1, by omega⟩
    exact decodeArray_tabular_flat _ { key := none, keyQuoted := false, length := n, delim := d, fields := readFields (some cols), inline := none } rfl hfl _ (bodyLines_depth _ _ _) _ fuel evs cur

private theorem list_core {indent n : Nat} (strict : Bool) (hi : 0 < indent) (hn : n ≤ 100000000) {d : Char}
    (hd : GoodDelim d) {body : List Str} (hb : OneLevel indent body) (hitems : ∀ s ∈ contents indent body, OneLineItem s) (v : Json F) :
    decodeFromLines ⟨indent, strict, false⟩ (formatHeader n none none d :: body) = .ok v ↔
      (∃ vs, v = .arr vs ∧ Pointwise ItemMeans ((contents indent body).take n) vs) ∧
      (strict = true → strictChecks n (bodyBlanks 1 body) (bodyLines indent 1 body) (fun o => noExtraItems o 1 n strict)) := by
  obtain ⟨t, ht⟩ := headerStart n none d
  have hh := rootHeader_plain (fields := none) hn hd (by rintro fs ⟨⟩)
  have hl : ∀ l ∈ bodyLines indent 1 body, l.depth = 1 ∧ OneLineItem l.content := fun l hl =>
    ⟨bodyLines_depth _ _ _ l hl, hitems _ (bodyLines_contents indent body 1 ▸ List.mem_map_of_mem hl)⟩
  refine root_body (opts := ⟨indent, strict, false⟩) hi rfl ht (by decide) hh rfl hb (ev := itemEv)
    (fun o => noExtraItems o 1 n strict) ?_ ?_ ?_ v
  · rintro h o
    simp only at h
    subst h
    cases o <;> simp [noExtraItems]
  · intro l hm
    exact itemEv_reads l (hl l hm).2
  · intro fuel evs cur hf
    obtain ⟨fuel, rfl⟩ : ∃ f, fuel = f + 1 := ⟨fuel - 1, by omega⟩
    simp only at hf
    exact decodeArray_list_flat _ _ rfl rfl _ hl _ fuel (by omega) evs cur

private theorem strict_all {indent n : Nat} {body : List Str} (hlen : (contents indent body).length ≤ n)
    (extra : Option Line → Except Err Unit) (hex : extra none = .ok ()) :
    strictChecks n (bodyBlanks 1 body) (bodyLines indent 1 body) extra ↔
      (contents indent body).length = n ∧ BlanksOutside body := by
  have hl : (bodyLines indent 1 body).length = (contents indent body).length := by
    rw [← bodyLines_contents indent body 1, List.length_map]
  unfold strictChecks
  rw [List.take_of_length_le (by omega), List.drop_eq_nil_of_le (by omega), List.head?_nil, blanksOutside_iff, hl]
  constructor
  · rintro ⟨h1, _, h3⟩; exact ⟨by omega, h3⟩
  · rintro ⟨h1, h3⟩; exact ⟨by omega, hex, h3⟩

/-- C49.  A lax table: the first `n` rows count, every row gives exactly the columns, missing cells are
null and extra cells are ignored.  Later rows and blank lines do not matter. -/
theorem C49_lax {indent n : Nat} (hi : 0 < indent) (hn : n ≤ 100000000) {cols : List Str} {d : Char} (hd : GoodDelim d)
    (hc : cols ≠ [] ∧ ∀ c ∈ cols, '}' ∉ c) {body : List Str} (hb : OneLevel indent body) (v : Json F) :
    decodeFromLines ⟨indent, false, false⟩ (formatHeader n none (some cols) d :: body) = .ok v ↔
      ∃ vs, v = .arr vs ∧ Pointwise (RowMeans false cols d) ((contents indent body).take n) vs := by
  rw [table_core false hi hn hd hc hb]
  simp

/-- C49, C50.  A strict table with at most `n` rows is accepted exactly when it has `n` rows, one cell
per column, and no blank line between the rows. -/
theorem C49_strict {indent n : Nat} (hi : 0 < indent) (hn : n ≤ 100000000) {cols : List Str} {d : Char} (hd : GoodDelim d)
    (hc : cols ≠ [] ∧ ∀ c ∈ cols, '}' ∉ c) {body : List Str} (hb : OneLevel indent body)
    (hlen : (contents indent body).length ≤ n) (v : Json F) :
    decodeFromLines ⟨indent, true, false⟩ (formatHeader n none (some cols) d :: body) = .ok v ↔
      (contents indent body).length = n ∧ BlanksOutside body ∧
      ∃ vs, v = .arr vs ∧ Pointwise (RowMeans true cols d) (contents indent body) vs := by
  rw [table_core true hi hn hd hc hb, strict_all hlen _ rfl, List.take_of_length_le hlen]
  simp only [true_implies]
  exact ⟨fun ⟨a, b, c⟩ => ⟨b, c, a⟩, fun ⟨b, c, a⟩ => ⟨a, b, c⟩⟩

/-- C48.  A lax list: the first `n` items count; nothing after the hyphen is an empty object. -/
theorem C48_lax {indent n : Nat} (hi : 0 < indent) (hn : n ≤ 100000000) {d : Char} (hd : GoodDelim d)
    {body : List Str} (hb : OneLevel indent body)
    (hitems : ∀ s ∈ contents indent body, s = ['-'] ∨ ∃ t, s = '-' :: ' ' :: t ∧ ':' ∉ t) (v : Json F) :
    decodeFromLines ⟨indent, false, false⟩ (formatHeader n none none d :: body) = .ok v ↔
      ∃ vs, v = .arr vs ∧ Pointwise ItemMeans ((contents indent body).take n) vs := by
  rw [list_core false hi hn hd hb hitems]
  simp

/-- C48, C50.  A strict list with at most `n` items is accepted exactly when it has `n` items that stand
for values and no blank line between them. -/
theorem C48_strict {indent n : Nat} (hi : 0 < indent) (hn : n ≤ 100000000) {d : Char} (hd : GoodDelim d)
    {body : List Str} (hb : OneLevel indent body)
    (hitems : ∀ s ∈ contents indent body, s = ['-'] ∨ ∃ t, s = '-' :: ' ' :: t ∧ ':' ∉ t)
    (hlen : (contents indent body).length ≤ n) (v : Json F) :
    decodeFromLines ⟨indent, true, false⟩ (formatHeader n none none d :: body) = .ok v ↔
      (contents indent body).length = n ∧ BlanksOutside body ∧
      ∃ vs, v = .arr vs ∧ Pointwise ItemMeans (contents indent body) vs := by
  rw [list_core true hi hn hd hb hitems, strict_all hlen _ rfl, List.take_of_length_le hlen]
  simp only [true_implies]
  exact ⟨fun ⟨a, b, c⟩ => ⟨b, c, a⟩, fun ⟨b, c, a⟩ => ⟨a, b, c⟩⟩

/-- C51.  The number of elements: the declared number, or fewer when there are fewer lines. -/
theorem C51_table {indent n : Nat} (strict : Bool) (hi : 0 < indent) (hn : n ≤ 100000000) {cols : List Str} {d : Char}
    (hd : GoodDelim d) (hc : cols ≠ [] ∧ ∀ c ∈ cols, '}' ∉ c) {body : List Str} (hb : OneLevel indent body) (v : Json F)
    (h : decodeFromLines ⟨indent, strict, false⟩ (formatHeader n none (some cols) d :: body) = .ok v) :
    ∃ vs, v = .arr vs ∧ vs.length = min n (contents indent body).length := by
  obtain ⟨⟨vs, rfl, hp⟩, _⟩ := (table_core strict hi hn hd hc hb v).mp h
  exact ⟨vs, rfl, by rw [← hp.length_eq, List.length_take]⟩

/-- C51.  The same for lists. -/
theorem C51_list {indent n : Nat} (strict : Bool) (hi : 0 < indent) (hn : n ≤ 100000000) {d : Char} (hd : GoodDelim d)
    {body : List Str} (hb : OneLevel indent body)
    (hitems : ∀ s ∈ contents indent body, s = ['-'] ∨ ∃ t, s = '-' :: ' ' :: t ∧ ':' ∉ t) (v : Json F)
    (h : decodeFromLines ⟨indent, strict, false⟩ (formatHeader n none none d :: body) = .ok v) :
    ∃ vs, v = .arr vs ∧ vs.length = min n (contents indent body).length := by
  obtain ⟨⟨vs, rfl, hp⟩, _⟩ := (list_core strict hi hn hd hb hitems v).mp h
  exact ⟨vs, rfl, by rw [← hp.length_eq, List.length_take]⟩

private theorem head_drop {indent n : Nat} {body : List Str} {s : Str} (h : (contents indent body)[n]? = some s) :
    ∃ l, ((bodyLines indent 1 body).drop n).head? = some l ∧ l.content = s ∧ l.depth = 1 := by
  rw [← bodyLines_contents indent body 1, List.getElem?_map] at h
  cases hl : (bodyLines indent 1 body)[n]? with
  | none => simp [hl] at h
  | some l =>
    rw [hl] at h
    simp only [Option.map_some, Option.some.injEq] at h
    exact ⟨l, by rw [List.head?_drop, hl], h, bodyLines_depth _ _ _ l (List.mem_of_getElem? hl)⟩

/-- C52.  Strict decoding rejects a table with a row too many; a row starting with a hyphen and a space, or
with a colon, is not recognised as one. -/
theorem C52_row {indent n : Nat} (hi : 0 < indent) (hn : n ≤ 100000000) {cols : List Str} {d : Char} (hd : GoodDelim d)
    (hc : cols ≠ [] ∧ ∀ c ∈ cols, '}' ∉ c) {body : List Str} (hb : OneLevel indent body) {row : Str}
    (hrow : (contents indent body)[n]? = some row) (hcol : ':' ∉ row) (hdash : ∀ t, row ≠ '-' :: ' ' :: t) :
    ∃ e, decodeFromLines (F := F) ⟨indent, true, false⟩ (formatHeader n none (some cols) d :: body) = .error e := by
  rcases hr : decodeFromLines (F := F) ⟨indent, true, false⟩ (formatHeader n none (some cols) d :: body) with e | v
  · exact ⟨e, rfl⟩
  · exfalso
    obtain ⟨_, hs⟩ := (table_core true hi hn hd hc hb v).mp hr
    obtain ⟨_, he, _⟩ := hs rfl
    obtain ⟨l, h1, h2, h3⟩ := head_drop hrow
    have hsd : startsWithDash row = false := by
      unfold startsWithDash
      split
      · rename_i t; exact absurd rfl (hdash t)
      · rfl
    simp only [h1, noExtraRows, h2, h3, hsd, isDataRow, findUnquotedChar_none hcol] at he
    cases he

/-- C52.  Strict decoding rejects a list with an item too many. -/
theorem C52_item {indent n : Nat} (hi : 0 < indent) (hn : n ≤ 100000000) {d : Char} (hd : GoodDelim d)
    {body : List Str} (hb : OneLevel indent body)
    (hitems : ∀ s ∈ contents indent body, s = ['-'] ∨ ∃ t, s = '-' :: ' ' :: t ∧ ':' ∉ t) {t : Str}
    (hitem : (contents indent body)[n]? = some ('-' :: ' ' :: t)) :
    ∃ e, decodeFromLines (F := F) ⟨indent, true, false⟩ (formatHeader n none none d :: body) = .error e := by
  rcases hr : decodeFromLines (F := F) ⟨indent, true, false⟩ (formatHeader n none none d :: body) with e | v
  · exact ⟨e, rfl⟩
  · exfalso
    obtain ⟨_, hs⟩ := (list_core true hi hn hd hb hitems v).mp hr
    obtain ⟨_, he, _⟩ := hs rfl
    obtain ⟨l, h1, h2, h3⟩ := head_drop hitem
    simp only [h1, noExtraItems, h2, h3] at he
    cases he

/-- C52 fails for an extra item that is a hyphen alone: strict decoding drops it without an error. -/
theorem C52_hyphen_dropped : decode (F := B64) ⟨2, true, false⟩ "[1]:\n  - a\n  -".toList = .ok (.arr [.prim (.str "a".toList)]) := by
  decide +kernel

/-- C52 fails for an extra row that starts with a hyphen and a space. -/
theorem C52_dash_row_dropped : decode (F := B64) ⟨2, true, false⟩ "[1]{a}:\n  x\n  - y".toList =
    .ok (.arr [.obj [("a".toList, .prim (.str "x".toList))]]) := by
  decide +kernel

/-- C52 fails for an extra row with a colon in its first cell. -/
theorem C52_colon_row_dropped : decode (F := B64) ⟨2, true, false⟩ "[1]{a}:\n  x\n  x:y".toList =
    .ok (.arr [.obj [("a".toList, .prim (.str "x".toList))]]) := by
  decide +kernel

/-- C45, whole documents.  An array written on its header line. -/
theorem C45_inline (indent n : Nat) (strict : Bool) (hn : n ≤ 100000000) {d : Char} (hd : GoodDelim d) (text : Str)
    (htext : ¬ BlankLine text) (v : Json F) :
    decodeFromLines ⟨indent, strict, false⟩ [formatHeader n none none d ++ text] = .ok v ↔
      ∃ cells ps, Cells d (trim text) cells ∧ Pointwise TokenMeans cells ps ∧ v = .arr (ps.map .prim) ∧
        (strict = true → ps.length = n) := by
  obtain ⟨t, ht⟩ := headerStart n none d
  have hne : ¬ (trim text).isEmpty = true := fun h => htext ((trim_blank_iff text).mp h)
  have hh := rootHeader_format (fields := none) hn hd (by rintro fs ⟨⟩) text
  simp only [if_neg hne] at hh
  have hdq : d ≠ '"' := by rcases hd with rfl | rfl | rfl <;> decide
  have hne2 : ¬ (trim (trim text)).isEmpty = true := by rw [trim_trim]; exact hne
  have hcells := (parseDelimited_cells hdq (trim text) (parseDelimitedValues (trim text) d)).mp rfl
  have hstream : decodeStream (F := F) indent strict [formatHeader n none none d ++ text] =
      match mapRowValues (F := F) (parseDelimitedValues (trim text) d) with
      | .error e => .error e
      | .ok ps =>
        match assertCount ps.length n .inlineItems strict with
        | .error e => .error e
        | .ok _ => .ok (ETree.events (.arr n (ps.map .prim))) := by
    unfold decodeStream
    have hl : parseLines indent strict [formatHeader n none none d ++ text] 0 =
        .ok ([⟨0, formatHeader n none none d ++ text, 1⟩], []) := by
      rw [ht, List.cons_append]
      simp only [parseLines, parseLine_level0 (show isWs '[' = false by decide)]
    simp only [hl, bind, Except.bind, decodeLines, hh, decodeArray, decodeInline, if_neg hne2]
    cases mapRowValues (F := F) (parseDelimitedValues (trim text) d) with
    | error e => rfl
    | ok ps =>
      simp only
      cases assertCount ps.length n .inlineItems strict with
      | error e => rfl
      | ok _ =>
        simp only [pure, Except.pure, ETree.events, eventsItems_flatten, List.map_map]
        congr 3
        induction ps with
        | nil => rfl
        | cons p ps ih => simp_all [ETree.events]
  rcases hv : mapRowValues (F := F) (parseDelimitedValues (trim text) d) with e | ps
  · simp only [hv] at hstream
    unfold decodeFromLines
    simp only [hstream, bind, Except.bind]
    constructor
    · intro h; cases h
    · rintro ⟨cells, ps, h1, h2, _⟩
      rw [(parseDelimited_cells hdq _ _).mpr h1, (mapRowValues_iff _ _).mpr ((pointwise_trim (cells_trimmed h1) ps).mpr h2)] at hv
      cases hv
  · have hps : ∀ cells qs, Cells d (trim text) cells → Pointwise TokenMeans cells qs → qs = ps := by
      intro cells qs h1 h2
      rw [(parseDelimited_cells hdq _ _).mpr h1, (mapRowValues_iff _ _).mpr ((pointwise_trim (cells_trimmed h1) qs).mpr h2)] at hv
      cases hv; rfl
    have hjson : ps.map Json.prim = (ps.map ETree.prim).map ETree.json := by
      rw [List.map_map]; rfl
    simp only [hv] at hstream
    rcases ha : assertCount ps.length n .inlineItems strict with e | u
    · simp only [ha] at hstream
      unfold decodeFromLines
      simp only [hstream, bind, Except.bind]
      constructor
      · intro h; cases h
      · rintro ⟨cells, qs, h1, h2, _, h4⟩
        rw [hps cells qs h1 h2] at h4
        unfold assertCount at ha
        cases strict with
        | false => simp at ha
        | true => simp [h4] at ha
    · simp only [ha] at hstream
      rw [decodeFromLines_arr ⟨indent, strict, false⟩ rfl _ n _ hstream]
      constructor
      · intro h
        cases h
        refine ⟨_, ps, hcells, (pointwise_trim (cells_trimmed hcells) ps).mp ((mapRowValues_iff _ _).mp hv), by rw [hjson], ?_⟩
        rintro rfl
        unfold assertCount at ha
        simpa using ha
      · rintro ⟨cells, qs, h1, h2, rfl, _⟩
        rw [hps cells qs h1 h2, hjson]

end

/-! Cases. -/

example : OneLevel 2 ["  1,2".toList, [], "  \"x,y\"".toList] := by
  intro l hl
  simp only [List.mem_cons, List.not_mem_nil, or_false] at hl
  rcases hl with rfl | rfl | rfl
  · exact .inr ⟨'1', ",2".toList, by decide, rfl⟩
  · exact .inl (by decide)
  · exact .inr ⟨'"', "x,y\"".toList, by decide, rfl⟩
example : decode (F := B64) ⟨2, false, false⟩ "[5]{a,b}:\n  u,v,w\n\n  \"x,y\"".toList =
    .ok (.arr [.obj [("a".toList, .prim (.str "u".toList)), ("b".toList, .prim (.str "v".toList))],
      .obj [("a".toList, .prim (.str "x,y".toList)), ("b".toList, .prim .null)]]) := by
  decide +kernel
example : ¬ BlanksOutside ["  1".toList, [], "  2".toList] := by
  rw [← blanksOutside_iff 2 _ 0]
  intro h
  exact h 1 3 (by decide) (by decide) 2 (by decide) (by decide)
example : BlanksOutside [[], "  1".toList, "  2".toList, "   ".toList] :=
  ⟨[[]], ["  1".toList, "  2".toList], ["   ".toList], rfl, by decide, by decide, by decide⟩
example : RowMeans (F := B64) false ["a".toList, "b".toList] ',' "x".toList
    (.obj [("a".toList, .prim (.str "x".toList)), ("b".toList, .prim .null)]) :=
  ⟨["x".toList], [.str "x".toList], (parseDelimited_cells (by decide) _ _).mp (by decide +kernel),
    .cons ((parsePrimitiveToken_iff "x".toList _).mp (by decide +kernel)) .nil, by simp, rfl⟩
example : ItemMeans (F := B64) "-    ".toList (.obj []) := .blank (by decide)

end Toon
