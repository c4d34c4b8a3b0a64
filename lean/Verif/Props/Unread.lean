import Verif.Lemmas.Dropped
import Verif.Lemmas.Local
import Verif.Lemmas.RoundTrip
import Verif.Lemmas.Float64
import Verif.Lemmas.Dec

/-!
# C38: the decoder reads a prefix of the lines and may leave the rest unread without an error

`decodeStreamUnread` (`Spec/Consumed.lean`) is event decoding that also reports how many lines at the
end were left unread.
-/

namespace Toon

section
variable {F : Type} [F64 F]

/-- The events reported together with the number of unread lines are those of the decoder. -/
theorem C38_same_events (indent : Nat) (strict : Bool) (lines : List Str) :
    (decodeStreamUnread (F := F) indent strict lines).map Prod.fst = decodeStream indent strict lines := by
  unfold decodeStreamUnread decodeStream
  cases parseLines indent strict lines 0 with
  | error e => rfl
  | ok out =>
    obtain ⟨ls, bs⟩ := out
    simp only [bind, Except.bind]
    rw [← decodeLinesRest_events]
    cases decodeLinesRest (F := F) ⟨strict, bs⟩ ls <;> rfl

theorem parseLines_take (indent : Nat) (strict : Bool) : ∀ (a b : List Str) (n : Nat) (ls : List Line),
    parseLines indent strict (a ++ b) n = .ok (ls, []) → ∃ la lb, parseLines indent strict a n = .ok (la, []) ∧
      parseLines indent strict b (n + a.length) = .ok (lb, []) ∧ ls = la ++ lb ∧ la.length = a.length
  | [], b, n, ls, h => ⟨[], ls, rfl, by simpa using h, rfl, rfl⟩
  | x :: a, b, n, ls, h => by
    rw [List.cons_append, parseLines] at h
    cases h1 : parseLine x (n + 1) indent strict with
    | error e => rw [h1] at h; simp at h
    | ok sc =>
      rw [h1] at h
      cases h2 : parseLines indent strict (a ++ b) (n + 1) with
      | error e => rw [h2] at h; simp at h
      | ok out =>
        obtain ⟨ls', bs⟩ := out
        rw [h2] at h
        cases sc with
        | blank => simp at h
        | line l =>
          simp only [Except.ok.injEq, Prod.mk.injEq] at h
          obtain ⟨rfl, rfl⟩ := h
          obtain ⟨la, lb, k1, k2, rfl, k4⟩ := parseLines_take indent strict a b (n + 1) ls' h2
          refine ⟨l :: la, lb, ?_, ?_, rfl, by simp [k4]⟩
          · rw [parseLines, h1, k1]
          · rw [List.length_cons, show n + (a.length + 1) = n + 1 + a.length by omega]; exact k2

/-- The first lines scanned from lists with the same first line are the same. -/
theorem parseLines_head {indent : Nat} {strict : Bool} {a b : List Str} {n : Nat} {la lb : List Line}
    (ha : parseLines indent strict a n = .ok (la, [])) (hb : parseLines indent strict b n = .ok (lb, []))
    (h : a.head? = b.head?) : la.head? = lb.head? := by
  cases a with
  | nil =>
    cases b with
    | nil => rw [ha] at hb; simp at hb; rw [hb]
    | cons _ _ => simp at h
  | cons x a =>
    cases b with
    | nil => simp at h
    | cons y b =>
      simp only [List.head?_cons, Option.some.injEq] at h
      subst h
      rw [parseLines] at ha hb
      cases h1 : parseLine x (n + 1) indent strict with
      | error e => rw [h1] at ha; simp at ha
      | ok sc =>
        rw [h1] at ha hb
        cases h2 : parseLines indent strict a (n + 1) with
        | error e => rw [h2] at ha; simp at ha
        | ok oa =>
          cases h3 : parseLines indent strict b (n + 1) with
          | error e => rw [h3] at hb; simp at hb
          | ok ob =>
            rw [h2] at ha
            rw [h3] at hb
            cases sc with
            | blank => simp at ha
            | line l =>
              simp only [Except.ok.injEq, Prod.mk.injEq] at ha hb
              rw [← ha.1, ← hb.1]; rfl

variable [LawfulF64 F]

/-- C38, what is true.  The lines are read in order, each once, up to some line: the unread lines are
the last ones, and the result does not depend on them, except through the first of them.  (For texts
without blank lines whose indentation strict decoding accepts.) -/
theorem C38_prefix (indent : Nat) (strict : Bool) (hi : 0 < indent) (lines : List Str)
    (hl : ∀ line ∈ lines, ∃ depth, IndentedLine indent depth line) (evs : List (Ev F)) (unread : Nat)
    (h : decodeStreamUnread indent strict lines = .ok (evs, unread)) :
    ∃ read rest, lines = read ++ rest ∧ rest.length = unread ∧ (lines ≠ [] → read ≠ []) ∧
      ∀ other, (∀ line ∈ other, ∃ depth, IndentedLine indent depth line) → other.head? = rest.head? →
        decodeStreamUnread indent strict (read ++ other) = .ok (evs, other.length) := by
  obtain ⟨ls, h1, _⟩ := parseLines_indented hi strict hl 0
  unfold decodeStreamUnread at h
  rw [h1] at h
  simp only [bind, Except.bind] at h
  cases hd : decodeLinesRest (F := F) ⟨strict, []⟩ ls with
  | error e => rw [hd] at h; simp at h
  | ok out =>
    obtain ⟨e1, r⟩ := out
    rw [hd] at h
    simp only [pure, Except.pure, Except.ok.injEq, Prod.mk.injEq] at h
    obtain ⟨rfl, rfl⟩ := h
    obtain ⟨p, hp, hne, hq⟩ := decodeLines_local hd
    have hlen : ls.length = lines.length := by
      have := parseLines_take indent strict lines [] 0 ls (by rw [List.append_nil]; exact h1)
      obtain ⟨la, lb, k1, k2, k3, k4⟩ := this
      rw [h1] at k1
      simp only [Except.ok.injEq, Prod.mk.injEq, and_true] at k1
      rw [k1, k4]
    obtain ⟨la, lb, k1, k2, k3, k4⟩ := parseLines_take indent strict (lines.take p.length) (lines.drop p.length) 0 ls
      (by rw [List.take_append_drop]; exact h1)
    have hpl : p.length ≤ lines.length := by rw [← hlen, hp]; simp
    rw [List.length_take, Nat.min_eq_left hpl] at k4
    obtain ⟨rfl, rfl⟩ : la = p ∧ lb = r := List.append_inj (by rw [← k3, ← hp]) k4
    refine ⟨lines.take la.length, lines.drop la.length, (List.take_append_drop _ _).symm, ?_, ?_, ?_⟩
    · rw [List.length_drop, ← hlen, hp]; simp
    · intro hnl hnil
      have hnl' : ls ≠ [] := by intro hx; rw [hx] at hlen; exact hnl (List.length_eq_zero_iff.mp hlen.symm)
      have := hne hnl'
      rw [List.take_eq_nil_iff] at hnil
      rcases hnil with h0 | h0
      · exact this (List.length_eq_zero_iff.mp h0)
      · exact hnl h0
    · intro other ho hoh
      obtain ⟨lo, o1, _⟩ := parseLines_indented hi strict ho (0 + (lines.take la.length).length)
      have hlen2 : lo.length = other.length := by
        obtain ⟨a, b, c1, c2, c3, c4⟩ := parseLines_take indent strict other [] _ lo (by rw [List.append_nil]; exact o1)
        rw [o1] at c1
        simp only [Except.ok.injEq, Prod.mk.injEq, and_true] at c1
        rw [c1, c4]
      unfold decodeStreamUnread
      rw [parseLines_append _ _ _ _ _ _ _ k1 o1]
      simp only [bind, Except.bind, hq lo (parseLines_head o1 k2 hoh), pure, Except.pure, hlen2]

/-- C38, root arrays.  Whatever lines follow the lines of a root array, the first of them unindented,
they change nothing, also in strict mode. -/
theorem C38_after_array (opts : EncOpts) (strict : Bool) (hi : 0 < opts.indent) (hd : GoodDelim opts.delim)
    (items : List (Json F)) (hw : Writable true (.arr items)) (line : Str) (more : List Str)
    (hl : IndentedLine opts.indent 0 line) (hm : ∀ l ∈ more, ∃ depth, IndentedLine opts.indent depth l) :
    decodeFromLines (F := F) { indent := opts.indent, strict := strict, expand := false }
        (encodeLines opts (.arr items) ++ line :: more) =
      decodeFromLines { indent := opts.indent, strict := strict, expand := false } (encodeLines opts (.arr items)) := by
  have hw' := (writable_normalize true (.arr items)).mpr hw
  have hn := normal_normalize (.arr items)
  have h0 := decodeStream_encodeLines hi hd strict hw
  unfold encodeLines at h0 ⊢
  rw [show normalize (Json.arr items) = .arr (normalizeItems items) by rw [normalize]] at *
  have h1 := decodeStream_array_tail hi hd strict hw' hn hl hm
  unfold decodeFromLines
  simp only [h0, h1]

/-- C38, root fields.  Whatever lines follow the line of a root field with a primitive value, the first
of them indented, they change nothing, also in strict mode. -/
theorem C38_after_field (opts : EncOpts) (strict : Bool) (hi : 0 < opts.indent) (hd : GoodDelim opts.delim)
    (key : Str) (p : Prim F) (hw : Writable true (.obj [(key, .prim p)])) (depth : Nat) (line : Str) (more : List Str)
    (hl : IndentedLine opts.indent (depth + 1) line) (hm : ∀ l ∈ more, ∃ depth, IndentedLine opts.indent depth l) :
    decodeFromLines (F := F) { indent := opts.indent, strict := strict, expand := false }
        (encodeLines opts (.obj [(key, .prim p)]) ++ line :: more) =
      decodeFromLines { indent := opts.indent, strict := strict, expand := false } (encodeLines opts (.obj [(key, .prim p)])) := by
  have hw' := (writable_normalize true (.obj [(key, .prim p)])).mpr hw
  have hn := normal_normalize (.obj [(key, .prim p)])
  have h0 := decodeStream_encodeLines hi hd strict hw
  have hline : encodeLines opts (Json.obj [(key, .prim p)]) =
      [encodeKey key ++ ':' :: ' ' :: encodePrimitive (normPrim p) opts.delim] := by
    unfold encodeLines encodeJsonValue
    rw [show normalize (Json.obj [(key, .prim p)]) = .obj [(key, .prim (normPrim p))] by
      simp only [normalize, normalizeEntries]]
    simp only [encodeValue, encodeObject, encodeEntries, encodeKeyValue_eq, tryFold_prim, writeEntry, List.map_append,
      List.map_cons, List.map_nil, List.append_nil, renderLine, Nat.mul_zero, List.replicate_zero, List.nil_append]
  rw [show normalize (Json.obj [(key, .prim p)]) = .obj [(key, .prim (normPrim p))] by
    simp only [normalize, normalizeEntries]] at hw' hn
  simp only [Normal, NormalEntries] at hn
  have h1 := decodeStream_field_tail hi hd strict hw' hn.1 hl hm
  have h2 : decodeStream (F := F) opts.indent strict (encodeLines opts (Json.obj [(key, .prim p)]) ++ line :: more) =
      decodeStream opts.indent strict (encodeLines opts (Json.obj [(key, .prim p)])) := by
    rw [h0, hline, List.cons_append, List.nil_append, h1]
    rw [show normalize (Json.obj [(key, .prim p)]) = .obj [(key, .prim (normPrim p))] by
      simp only [normalize, normalizeEntries]]
    simp only [shape, shapeObject, shapeEntries, shapeKeyValue_eq, tryFold_prim, shapeEntry]
  unfold decodeFromLines
  simp only [h2]

end

/-! Cases: a root array followed by other lines, a root field followed by an indented line; both
accepted strictly, with one and two lines unread. -/

example : decodeFromLines (F := B64) { indent := 2, strict := true, expand := false }
    ["[1]: a".toList, "foo: bar".toList] = .ok (.arr [.prim (.str "a".toList)]) := by decide +kernel

example : decodeStreamUnread (F := B64) 2 true ["[1]: a".toList, "foo: bar".toList] =
    .ok ([.startArr 1, .prim (.str "a".toList), .endArr], 1) := by decide +kernel

example : decode (F := B64) { indent := 2, strict := true, expand := false } "a: x\n    b: y\nc: z".toList =
    .ok (.obj [("a".toList, .prim (.str "x".toList))]) := by decide +kernel

example : decodeStreamUnread (F := B64) 2 true ["a: x".toList, "    b: y".toList, "c: z".toList] =
    .ok ([.startObj, .key "a".toList false, .prim (.str "x".toList), .endObj], 2) := by decide +kernel

example : IndentedLine 2 2 "    b: y".toList := ⟨'b', ": y".toList, by decide, by decide⟩

end Toon
