import Verif.Lemmas.Spelled
import Verif.Props.Mentions

/-!
# Every primitive of a value is a word of its text

C115.  In the text of a value without repeated keys every number, truth value, null and string of the value stands as a word, bounded by the
ends of the line, whitespace, a delimiter or a colon before it, and spelled as `tokenText` says: with or without joined keys, in lists, in
tables and on one line.
-/

namespace Toon

section
variable {F : Type} [F64 F] [LawfulF64 F]

theorem tokenText_plain (d : Char) (p : Prim F) : tokenText d p.plain = tokenText d p := by
  cases p with
  | num x =>
    simp only [Prim.plain]
    by_cases hf : F64.isFinite x = true
    · rw [if_pos hf]
      by_cases hz : F64.isZero x = true
      · simp only [hz, if_true, tokenText, LawfulF64.zero_isZero]
      · rw [if_neg hz]
    · have hz : ¬ F64.isZero x = true := fun h => hf (LawfulF64.isZero_isFinite x h)
      simp only [hf, if_false, tokenText, hz]
      rfl
  | _ => rfl

/-- C115.  Every primitive of the value is a word of a line. -/
theorem C115_spelled (opts : EncOpts) (hg : GoodDelim opts.delim) (v : Json F) (hd : DistinctKeys v) (p : Prim F) (hp : Contains p v) :
    WordIn (encodeLines opts v) (tokenText opts.delim p) := by
  obtain ⟨l, h, _⟩ := C56_one_layout opts.fold opts.flattenDepth (v.mapPrims Prim.plain)
  have hm : opts.delim ∈ [',', '|', '\t'] := by rcases hg with e | e | e <;> simp [e]
  obtain ⟨r, hr, hf⟩ := document_spelled hm h (distinct_mapPrims _ v hd) (contains_mapPrims Prim.plain v hp)
  rw [tokenText_plain] at hf
  rw [C56_lines opts v l h]
  refine ⟨_, List.mem_map_of_mem hr, hf.trans ?_⟩
  rw [rowText]
  refine wordOf_end fun c hc => ?_
  have := List.eq_of_mem_replicate (List.mem_of_getLast? hc)
  subst this
  exact Or.inl (by decide)

/-- C115.  A finite number other than zero stands there in decimal notation. -/
theorem C115_number (opts : EncOpts) (hg : GoodDelim opts.delim) (v : Json F) (hd : DistinctKeys v) (x : F) (hp : Contains (.num x) v)
    (hf : F64.isFinite x = true) (hz : F64.isZero x = false) : WordIn (encodeLines opts v) (F64.display x) := by
  have := C115_spelled opts hg v hd _ hp
  simpa [tokenText, hf, hz] using this

/-- C115.  If no line has the word `null`, the value has no null, NaN or infinity. -/
theorem C115_no_null (opts : EncOpts) (hg : GoodDelim opts.delim) (v : Json F) (hd : DistinctKeys v)
    (hn : ¬ WordIn (encodeLines opts v) "null".toList) : ¬ Contains .null v ∧ ∀ x, Contains (.num x) v → F64.isFinite x = true := by
  refine ⟨fun h => hn (C115_spelled opts hg v hd _ h), fun x hx => ?_⟩
  cases hf : F64.isFinite x with
  | true => rfl
  | false =>
    have hz : F64.isZero x = false := by
      cases h : F64.isZero x with
      | false => rfl
      | true => rw [LawfulF64.isZero_isFinite x h] at hf; simp at hf
    have := C115_spelled opts hg v hd _ hx
    simp only [tokenText, hf, hz, Bool.false_eq_true, if_false] at this
    exact absurd this hn

end

/-- C115.  A null in a cell of a table. -/
example (opts : EncOpts) (hg : GoodDelim opts.delim) : WordIn (encodeLines opts MentionsExample.value) "null".toList :=
  C115_spelled opts hg _ MentionsExample.value_distinct .null (by simp [MentionsExample.value, Contains, ContainsItems, ContainsEntries])

/-- Two entries with one key, the second of them null. -/
def twiceNull : Json B64 := .arr [.obj [(['a'], .prim (.str ['x'])), (['a'], .prim .null)]]

/-- C115.  The keys have to be distinct: of two entries with one key in a table row the second is not written. -/
theorem C115_twice : ∃ v : Json B64, Contains .null v ∧ ¬ WordIn (encodeLines ⟨2, ',', false, 0⟩ v) "null".toList := by
  refine ⟨twiceNull, by simp [twiceNull, Contains, ContainsItems, ContainsEntries], ?_⟩
  have h : DocumentLayout false 0 (twiceNull.mapPrims Prim.plain) (.table [['a'], ['a']] [[.str ['x'], .str ['x']]]) := by
    refine .table ⟨by decide, ⟨_, _, rfl, rfl⟩, ?_⟩ (.cons ⟨_, rfl, .cons rfl (.cons rfl .nil)⟩ .nil)
    intro item hm
    simp only [List.mem_cons, List.not_mem_nil, or_false, Json.mapPrimsItems] at hm
    subst hm
    refine ⟨_, rfl, rfl, ?_⟩
    intro c hc
    simp only [List.mem_cons, List.not_mem_nil, or_false, or_self] at hc
    subst hc
    exact ⟨_, rfl⟩
  have ht : encodeLines ⟨2, ',', false, 0⟩ twiceNull = ["[1]{a,a}:".toList, "  x,x".toList] := by
    rw [C56_lines _ _ _ h]
    simp only [Layout.documentRows, Layout.entryRows, cellsText, tokenText_eq, List.map, tableText]
    decide +kernel
  rw [ht]
  rintro ⟨raw, hr, h⟩
  have h := h.infix
  simp only [List.mem_cons, List.not_mem_nil, or_false] at hr
  rcases hr with rfl | rfl
  · exact absurd (h.subset List.mem_cons_self) (by decide)
  · exact absurd (h.subset List.mem_cons_self) (by decide)

end Toon
