import Verif.Lemmas.ResourcesTable
import Verif.Props.Grammar

/-!
# C59: what a decoded value can take, measured by the text

`nodes` counts the values in a value, `volume` the values and the characters of keys and strings, `height` the
nesting (`Spec/Resources.lean`, `Spec/Values.lean`).
-/

namespace Toon

section
variable {F : Type} [F64 F] [LawfulF64 F]

/-- C59.  Nesting has to be paid for by indentation: a value nested `h` deep needs a line that begins with
`indent · (h - 3)` spaces. -/
theorem C59_indentation (opts : DecOpts) (hx : opts.expand = false) (text : Str) (v : Json F) (h : decode opts text = .ok v) :
    ∃ line ∈ splitOn '\n' text, ∃ rest, line = List.replicate (opts.indent * (height v - 3)) ' ' ++ rest := by
  obtain ⟨t, ⟨lines, blanks, rest', hscan, hdoc⟩, rfl⟩ := (C58_value opts hx text v).mp h
  by_cases hh : height t.json ≤ 3
  · have h0 : height t.json - 3 = 0 := by omega
    rw [h0]
    cases hs : splitOn '\n' text with
    | nil => exact absurd hs (splitOn_ne_nil _ _)
    | cons w ws => exact ⟨w, by simp, w, by simp⟩
  · have hex : ∃ l ∈ lines, height t.json - 3 ≤ l.depth := by
      apply Classical.byContradiction
      intro hn
      have := document_deep hdoc (height t.json - 4) (fun l hl => by
        have : ¬ height t.json - 3 ≤ l.depth := fun hle => hn ⟨l, hl, hle⟩
        omega)
      omega
    obtain ⟨l, hl, hd⟩ := hex
    obtain ⟨raw, hraw, spaces, e, he⟩ := scansTo_mem hscan l hl
    refine ⟨raw, hraw, List.replicate (spaces - opts.indent * (height t.json - 3)) ' ' ++ l.content, ?_⟩
    have h1 : opts.indent * (height t.json - 3) ≤ spaces :=
      Nat.le_trans (Nat.mul_le_mul_left _ (he ▸ hd)) (Nat.mul_div_le spaces opts.indent)
    rw [e, ← List.append_assoc, List.replicate_append_replicate, Nat.add_sub_cancel' h1]

/-- C59.  The nesting grows at most like the square root of the length of the text. -/
theorem C59_nesting (opts : DecOpts) (hx : opts.expand = false) (text : Str) (v : Json F) (h : decode opts text = .ok v) :
    opts.indent * (height v * (height v - 2)) ≤ 8 * text.length := by
  obtain ⟨t, ⟨lines, blanks, rest', hscan, hdoc⟩, rfl⟩ := (C58_value opts hx text v).mp h
  obtain ⟨m, h1, h2⟩ := document_stairs hdoc
  obtain ⟨h3, h4⟩ := scansTo_length hscan
  rw [sourceLength_split] at h3
  have h5 : height t.json * (height t.json - 2) ≤ 4 * (m * (m + 1)) := by
    have := Nat.mul_le_mul (show height t.json ≤ 2 * (m + 1) by omega) (show height t.json - 2 ≤ 2 * m by omega)
    have e : 2 * (m + 1) * (2 * m) = 4 * (m * (m + 1)) := by
      rw [Nat.mul_comm 2 m, ← Nat.mul_assoc, Nat.mul_assoc 2, Nat.mul_comm (m + 1) m]; omega
    omega
  have h6 := Nat.mul_le_mul_left opts.indent (Nat.le_trans h5 (Nat.mul_le_mul_left 4 h2))
  have e : opts.indent * (4 * (2 * depthSum lines)) = 8 * (opts.indent * depthSum lines) := by
    rw [← Nat.mul_assoc 4 2, Nat.mul_left_comm]
  rw [e] at h6
  cases lines with
  | nil =>
    have : opts.indent * depthSum [] = 0 := by simp [depthSum]
    omega
  | cons l ls =>
    simp only [List.length_cons] at h4
    omega

/-- C59.  Strict decoding without path expansion: the number of values is at most one and a half times the length of
the text (and a little). -/
theorem C59_values (opts : DecOpts) (hx : opts.expand = false) (hs : opts.strict = true) (text : Str) (v : Json F)
    (h : decode opts text = .ok v) : 2 * nodes v ≤ 3 * text.length + 5 := by
  obtain ⟨t, ⟨lines, blanks, rest', hscan, hdoc⟩, rfl⟩ := (C58_value opts hx text v).mp h
  rw [hs] at hdoc
  have h1 := document_nodes hdoc
  obtain ⟨h2, h3⟩ := scansTo_length hscan
  rw [sourceLength_split] at h2
  have := load_eq 2 lines
  have := load_eq 1 lines
  omega

/-- C59.  In every mode: the values and the characters of keys and strings are together at most one and a half times
the length of the text, and the length of the longest line for every line. -/
theorem C59_volume (opts : DecOpts) (text : Str) (v : Json F) (h : decode opts text = .ok v) (longest : Nat)
    (hb : ∀ line ∈ splitOn '\n' text, line.length ≤ longest) :
    2 * volume v ≤ 3 * text.length + 5 + 2 * (longest * (splitOn '\n' text).length) := by
  have main : ∃ t : ETree F, TextMeans opts.indent opts.strict (splitOn '\n' text) t ∧ volume v ≤ volume t.json := by
    cases hx : opts.expand with
    | false =>
      obtain ⟨t, h1, rfl⟩ := (C58_value opts hx text v).mp h
      exact ⟨t, h1, Nat.le_refl _⟩
    | true =>
      obtain ⟨t, h1, rfl, _⟩ := C58_expanded opts hx text v h
      exact ⟨t, h1, expanded_volume t⟩
  obtain ⟨t, ⟨lines, blanks, rest', hscan, hdoc⟩, hv⟩ := main
  have hB : ∀ l ∈ lines, l.content.length ≤ longest := by
    intro l hl
    obtain ⟨raw, hraw, spaces, e, _⟩ := scansTo_mem hscan l hl
    have := hb raw hraw
    rw [e, List.length_append] at this
    omega
  have h1 := document_volume hB hdoc
  obtain ⟨h2, h3⟩ := scansTo_length hscan
  rw [sourceLength_split] at h2
  have e1 := load_eq (2 + longest) lines
  have e2 := load_eq 1 lines
  rw [Nat.add_mul] at e1
  have h4 := Nat.mul_le_mul_left longest (scansTo_lines hscan)
  omega

/-- C59.  In every mode: at most quadratic in the length of the text. -/
theorem C59_quadratic (opts : DecOpts) (text : Str) (v : Json F) (h : decode opts text = .ok v) :
    volume v ≤ (text.length + 2) * (text.length + 2) := by
  have hlen := sourceLength_split '\n' text
  have hb : ∀ line ∈ splitOn '\n' text, line.length ≤ text.length := by
    intro line hl
    have := sourceLength_mem hl
    omega
  have h1 := C59_volume opts text v h text.length hb
  have h2 : (splitOn '\n' text).length ≤ text.length + 1 := by
    have : ∀ l : List Str, l.length ≤ sourceLength l := by
      intro l
      induction l with
      | nil => simp
      | cons w ws ih => simp only [sourceLength, List.map_cons, List.sum_cons, List.length_cons] at *; omega
    have := this (splitOn '\n' text)
    omega
  have h3 := Nat.mul_le_mul_left text.length h2
  have e1 : text.length * (text.length + 1) = text.length * text.length + text.length := by rw [Nat.mul_add]; omega
  have e2 : (text.length + 2) * (text.length + 2) = text.length * text.length + 4 * text.length + 4 := by
    rw [Nat.add_mul, Nat.mul_add]; omega
  omega

/-- C59.  The square is reached (finding F22): strict decoding of a table with one column repeats the name of the
column in every row. -/
theorem C59_repeated_names (n w : Nat) (hn : n ≤ 100000000) : ∃ (text : Str) (v : Json F),
    text.length ≤ w + 8 * n + 8 ∧ decode defaultDec text = .ok v ∧ n * w ≤ volume v := by
  have hl : Letters [List.replicate (w + 1) 'k'] := by
    intro x hx
    simp only [List.mem_singleton] at hx
    subst hx
    exact ⟨by simp, fun c hc => List.eq_of_mem_replicate hc⟩
  refine ⟨wideTable [List.replicate (w + 1) 'k'] n, _, ?_, (C58_value defaultDec rfl _ _).mpr
    ⟨_, wideTable_means (by simp) hl hn (fun _ => rfl), rfl⟩, ?_⟩
  · have := wideTable_length (names := [List.replicate (w + 1) 'k']) (by simp) n
    simp only [sourceLength, List.map_cons, List.map_nil, List.sum_cons, List.sum_nil, List.length_replicate] at this
    omega
  · simp only [ETree.json, volume, replicate_volume]
    refine Nat.le_trans (Nat.mul_le_mul_left n ?_) (Nat.le_add_left _ _)
    simp only [List.map_cons, List.map_nil, padFields, ETree.jsonEntries, ETree.json, volumeEntries, List.length_replicate]
    omega

/-- C59.  Without strict mode the number of values is quadratic as well (finding F22): missing cells are filled with
null. -/
theorem C59_filled_rows (n w : Nat) (hn : n ≤ 100000000) : ∃ (text : Str) (v : Json F),
    text.length ≤ 2 * w + 8 * n + 8 ∧ decode { defaultDec with strict := false } text = .ok v ∧ n * w ≤ nodes v := by
  have hl : Letters (List.replicate (w + 1) ['k']) := by
    intro x hx
    rw [List.eq_of_mem_replicate hx]
    exact ⟨by simp, by simp⟩
  have hne : List.replicate (w + 1) ['k'] ≠ [] := by simp
  refine ⟨wideTable (List.replicate (w + 1) ['k']) n, _, ?_, (C58_value { defaultDec with strict := false } rfl _ _).mpr
    ⟨_, wideTable_means hne hl hn (fun h => by simp at h), rfl⟩, ?_⟩
  · have := wideTable_length hne n
    rw [sourceLength_replicate] at this
    simp only [List.length_cons, List.length_nil] at this
    omega
  · simp only [ETree.json, nodes, replicate_nodes, padFields_nodes, List.length_map, List.length_replicate]
    refine Nat.le_trans (Nat.mul_le_mul_left n ?_) (Nat.le_add_left _ _)
    omega

end

/-! ## Non-vacuity -/

/-- A text nested four deep, with its numbers. -/
example : ∃ v : Json B64, decode defaultDec "a:\n  b:\n    c:\n      d: \"xyz\"".toList = .ok v ∧ height v = 4 ∧ nodes v = 5 ∧ volume v = 12 :=
  ⟨.obj [("a".toList, .obj [("b".toList, .obj [("c".toList, .obj [("d".toList, .prim (.str "xyz".toList))])])])],
    by decide +kernel, by decide +kernel, by decide +kernel, by decide +kernel⟩

/-- With path expansion the nesting is not bound by the indentation. -/
example : decode (F := B64) { defaultDec with expand := true } "a.b.c.d.e: \"xyz\"".toList =
    .ok (.obj [("a".toList, .obj [("b".toList, .obj [("c".toList, .obj [("d".toList, .obj [("e".toList, .prim (.str "xyz".toList))])])])])]) := by
  decide +kernel

/-- The table of `C59_repeated_names` for 3 rows and a name of 5 letters. -/
example : wideTable ["kkkkk".toList] 3 = "[3]{kkkkk}:\n  true\n  true\n  true".toList := by decide +kernel

/-- The table of `C59_filled_rows` for 2 rows and 3 columns. -/
example : decode (F := B64) { defaultDec with strict := false } "[2]{k,k,k}:\n  true\n  true".toList =
    .ok (.arr (List.replicate 2 (.obj [("k".toList, .prim (.bool true)), ("k".toList, .prim .null), ("k".toList, .prim .null)]))) := by
  decide +kernel

end Toon
