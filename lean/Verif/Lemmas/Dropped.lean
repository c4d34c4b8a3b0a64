import Verif.Lemmas.Lines
import Verif.Lemmas.ScanSim

/-! Lines after the end of the decoded value. -/

namespace Toon

theorem parseLine_indented {indent depth : Nat} (hi : 0 < indent) {line : Str} (h : IndentedLine indent depth line)
    (num : Nat) (strict : Bool) : ∃ c, parseLine line num indent strict = .ok (.line ⟨depth, c, num⟩) := by
  obtain ⟨c, rest, hc, rfl⟩ := h
  have hh : ∀ x, (c :: rest).head? = some x → x ≠ ' ' ∧ x ≠ '\t' := by
    intro x hx
    simp only [List.head?_cons, Option.some.injEq] at hx
    subst hx
    constructor <;> (intro h; subst h; exact absurd hc (by decide))
  refine ⟨c :: rest, ?_⟩
  unfold parseLine
  simp only
  rw [takeWhile_replicate _ (fun x hx => (hh x hx).1), takeWhile_replicate' _ hh]
  simp only [List.length_replicate]
  have hne : (trim (c :: rest)).isEmpty = false := by
    rw [Bool.eq_false_iff]
    intro ht
    rw [List.isEmpty_iff] at ht
    have := trim_eq_nil.mp ht c (by simp)
    rw [hc] at this; simp at this
  rw [List.drop_left' (by simp), hne]
  have hdep : computeDepth (indent * depth) indent = depth := by
    unfold computeDepth
    rw [if_neg (by omega), Nat.mul_div_cancel_left _ hi]
  rw [hdep]
  have hnt : (List.replicate (indent * depth) ' ').contains '\t' = false := by
    apply Bool.eq_false_iff.mpr
    intro h
    have := List.eq_of_mem_replicate (List.elem_iff.mp h)
    exact absurd this (by decide)
  rw [hnt]
  simp only [Bool.false_eq_true, if_false, Nat.mul_mod_right, bne_self_eq_false, Bool.and_false,
    show indent ≠ 0 by omega]
  split <;> rfl

/-- Scanning lines that strict decoding accepts. -/
theorem parseLines_indented {indent : Nat} (hi : 0 < indent) (strict : Bool) {ls : List Str}
    (h : ∀ l ∈ ls, ∃ depth, IndentedLine indent depth l) : ∀ num, ∃ out, parseLines indent strict ls num = .ok (out, []) ∧
      ∀ l d, ls.head? = some l → IndentedLine indent d l → ∃ l', out.head? = some l' ∧ l'.depth = d := by
  induction ls with
  | nil => intro num; exact ⟨[], rfl, by simp⟩
  | cons l ls ih =>
    intro num
    obtain ⟨out, h1, _⟩ := ih (fun x hx => h x (by simp [hx])) (num + 1)
    obtain ⟨d, hd⟩ := h l (by simp)
    obtain ⟨c, hc⟩ := parseLine_indented hi hd (num + 1) strict
    refine ⟨⟨d, c, num + 1⟩ :: out, ?_, ?_⟩
    · rw [parseLines, hc, h1]
    · intro l' d' hl' hd'
      simp only [List.head?_cons, Option.some.injEq] at hl'
      subst hl'
      obtain ⟨c', hc'⟩ := parseLine_indented hi hd' (num + 1) strict
      rw [hc'] at hc
      simp only [Except.ok.injEq, Scanned.line.injEq, Line.mk.injEq] at hc
      exact ⟨_, rfl, hc.1.symm⟩

theorem parseLines_append (indent : Nat) (strict : Bool) (b : List Str) : ∀ (a : List Str) (n : Nat) (la lb : List Line),
    parseLines indent strict a n = .ok (la, []) → parseLines indent strict b (n + a.length) = .ok (lb, []) →
    parseLines indent strict (a ++ b) n = .ok (la ++ lb, [])
  | [], n, la, lb, ha, hb => by
    simp only [parseLines, Except.ok.injEq, Prod.mk.injEq, and_true] at ha
    subst ha
    simpa using hb
  | x :: a, n, la, lb, ha, hb => by
    rw [parseLines] at ha
    rw [List.cons_append, parseLines]
    cases h1 : parseLine x (n + 1) indent strict with
    | error e => rw [h1] at ha; simp at ha
    | ok sc =>
      rw [h1] at ha
      cases h2 : parseLines indent strict a (n + 1) with
      | error e => rw [h2] at ha; simp at ha
      | ok out =>
        obtain ⟨ls, bs⟩ := out
        rw [h2] at ha
        cases sc with
        | blank => simp at ha
        | line l =>
          simp only [Except.ok.injEq, Prod.mk.injEq] at ha
          obtain ⟨rfl, rfl⟩ := ha
          have := parseLines_append indent strict b a (n + 1) ls lb h2 (by
            rw [List.length_cons] at hb; rwa [show n + 1 + a.length = n + (a.length + 1) by omega])
          simp only [this, List.cons_append]

section
variable {F : Type} [F64 F] [LawfulF64 F]

/-- Lines at depth zero after a root array are not read. -/
theorem decodeStream_array_tail {opts : EncOpts} (hi : 0 < opts.indent) (hd : GoodDelim opts.delim) (strict : Bool)
    {items : List (Json F)} (hw : Writable true (.arr items)) (hn : Normal (.arr items)) {l : Str} {more : List Str}
    (hl : IndentedLine opts.indent 0 l) (hm : ∀ l' ∈ more, ∃ depth, IndentedLine opts.indent depth l') :
    decodeStream opts.indent strict (encodeJsonValue opts (.arr items) ++ l :: more) =
      .ok (emitEvents (shape opts (.arr items))) := by
  obtain ⟨lines, h1, h2⟩ := parseLines_render hi strict (encodeValue opts (.arr items))
    (fun l hl => (linesIn_value hd _ l hl).1) 0
  obtain ⟨extra, h3, h4⟩ := parseLines_indented hi strict (ls := l :: more) (by
    intro x hx
    rcases List.mem_cons.mp hx with rfl | hx
    · exact ⟨0, hl⟩
    · exact hm x hx) (0 + (encodeJsonValue opts (.arr items)).length)
  obtain ⟨l0, hl0, hd0⟩ := h4 l 0 rfl hl
  unfold decodeStream
  rw [show encodeJsonValue opts (.arr items) = (encodeValue opts (.arr items)).map (renderLine opts.indent) from rfl] at h3 ⊢
  rw [parseLines_append _ _ _ _ _ _ _ h1 h3]
  simp only [bind, Except.bind]
  simp only [Normal] at hn
  simp only [encodeValue] at h2
  rw [encodeArray_head_tail] at h2
  obtain ⟨l1, ls, rfl, hdp, hc, hp⟩ := Proj.cons h2
  have hs := array_spec (ctx := ⟨strict, []⟩) rfl hd none items 0 hw hn
  obtain ⟨n, fields, d, suffix, hd', hform⟩ := hs.form
  obtain ⟨hh, hparse, _, _, hdec⟩ := hs.parse
  have harr : isArrayHeaderContent (arrayHead opts none items) = true := by
    rw [hform]; exact arrayHeader_none n fields hd' suffix
  obtain ⟨last', e⟩ := hdec ls extra (some l1) (5 * (l1 :: (ls ++ extra)).length + 5) hp
    (by intro x hx; rw [hl0] at hx; simp only [Option.some.injEq] at hx; subst hx; omega)
    (by simp only [List.length_cons, List.length_append]; omega)
  unfold decodeLines
  simp only [List.cons_append, rootHeader, hc, harr, if_true, hparse, bind, Except.bind, e, pure, Except.pure, shape]

/-- Indented lines after a root field with a primitive value are not read. -/
theorem decodeStream_field_tail {opts : EncOpts} (hi : 0 < opts.indent) (hd : GoodDelim opts.delim) (strict : Bool)
    {k : Str} {p : Prim F} (hw : Writable true (.obj [(k, .prim p)])) (hn : normPrim p = p) {depth : Nat} {l : Str}
    {more : List Str} (hl : IndentedLine opts.indent (depth + 1) l)
    (hm : ∀ l' ∈ more, ∃ depth, IndentedLine opts.indent depth l') :
    decodeStream opts.indent strict ((encodeKey k ++ ':' :: ' ' :: encodePrimitive p opts.delim) :: l :: more) =
      .ok (emitEvents (.obj [(k, .prim p)])) := by
  simp only [Writable, WritableEntries] at hw
  obtain ⟨lines, h1, h2⟩ := parseLines_render hi strict [⟨0, encodeKey k ++ ':' :: ' ' :: encodePrimitive p opts.delim⟩]
    (by intro l hl; simp only [List.mem_singleton] at hl; subst hl; exact lineOk_keyPrim hd k p) 0
  obtain ⟨extra, h3, h4⟩ := parseLines_indented hi strict (ls := l :: more) (by
    intro x hx
    rcases List.mem_cons.mp hx with rfl | hx
    · exact ⟨_, hl⟩
    · exact hm x hx) 1
  obtain ⟨l0, hl0, hd0⟩ := h4 l (depth + 1) rfl hl
  obtain ⟨l1, ls, rfl, hdp, hc, hp⟩ := Proj.cons h2
  rw [Proj.nil_iff.mp hp] at h1
  have hrender : List.map (renderLine opts.indent) [⟨0, encodeKey k ++ ':' :: ' ' :: encodePrimitive p opts.delim⟩] =
      [encodeKey k ++ ':' :: ' ' :: encodePrimitive p opts.delim] := by simp [renderLine]
  rw [hrender] at h1
  have happ := parseLines_append _ _ _ _ _ _ _ h1 h3
  unfold decodeStream
  rw [show ((encodeKey k ++ ':' :: ' ' :: encodePrimitive p opts.delim) :: l :: more) =
    [encodeKey k ++ ':' :: ' ' :: encodePrimitive p opts.delim] ++ l :: more from rfl, happ]
  simp only [bind, Except.bind]
  obtain ⟨l0', extra', rfl⟩ : ∃ x xs, extra = x :: xs := by
    cases extra with
    | nil => simp at hl0
    | cons x xs => exact ⟨x, xs, rfl⟩
  simp only [List.head?_cons, Option.some.injEq] at hl0
  subst hl0
  have hkl := keyLine_colon k (' ' :: encodePrimitive p opts.delim)
  have hkv := decodeKV_prim (ctx := ⟨strict, []⟩) (depth := 0) hd hn
    (fun s hs hvk => hw.1 s (by rw [hs]) (by rw [bareKey_eq]; exact hvk)) ⟨l0' :: extra', some l1⟩
  unfold decodeLines
  simp only [List.cons_append, List.nil_append, rootHeader, hc, hkl.arr, Bool.false_eq_true, if_false, bind, Except.bind,
    hkl.kvl, Bool.not_true, Bool.and_false, pure, Except.pure, hkv]
  rw [rootLoop]
  simp [hd0, emitEvents, emitEntries]

end

end Toon
