import Verif.Lemmas.JoinText
import Verif.Lemmas.Output
import Verif.Props.Cut
import Verif.Props.Strict
import Verif.Props.Unread

/-!
# C71: one text after another

`StartsAtMargin` and `WellIndented` are in `Spec/Join.lean`, `decodeStreamUnread` (how many lines at the end are not
read) in `Spec/Consumed.lean`.
-/

namespace Toon

section
variable {F : Type} [F64 F] [LawfulF64 F]

theorem reads_means {i : Nat} {strict : Bool} {src : List Str} {t : ETree F} {u : Nat} (h : ReadsTo i strict src t u) :
    TextMeans i strict src t := by
  obtain ⟨ls, bs, r, h1, h2, _⟩ := h
  exact ⟨ls, bs, r, h1, h2⟩

/-- What is decoded, with the number of unread lines. -/
theorem decode_reads {opts : DecOpts} (hx : opts.expand = false) {text : Str} {v : Json F} (h : decode opts text = .ok v) :
    ∃ t u, ReadsTo opts.indent opts.strict (splitOn '\n' text) t u ∧ v = t.json ∧
      decodeStreamUnread opts.indent opts.strict (splitOn '\n' text) = .ok (t.events, u) := by
  obtain ⟨t, h1, rfl⟩ := (C58_value opts hx _ _).mp h
  have h2 := (C58_events _ _ _ _).mpr ⟨t, h1, rfl⟩
  rw [← C38_same_events] at h2
  cases h3 : decodeStreamUnread (F := F) opts.indent opts.strict (splitOn '\n' text) with
  | error e => rw [h3] at h2; simp [Except.map] at h2
  | ok r =>
    obtain ⟨evs, u⟩ := r
    rw [h3] at h2
    simp only [Except.map, Except.ok.injEq] at h2
    subst h2
    obtain ⟨t', h4, h5⟩ := decodeStreamUnread_sound _ _ _ _ _ h3
    cases events_inj h5
    exact ⟨t, u, h4, rfl, rfl⟩

/-- C71.  Two texts of objects, one after the other: if all lines of the first are read and the second begins without
indentation, the result is the object with the entries of both, in either mode. -/
theorem C71_objects (opts : DecOpts) (hx : opts.expand = false) (first second : Str) (a b : List (Str × Json F))
    (h₁ : decode opts first = .ok (.obj a)) (h₂ : decode opts second = .ok (.obj b))
    (hr : ∃ evs, decodeStreamUnread (F := F) opts.indent opts.strict (splitOn '\n' first) = .ok (evs, 0))
    (hm : StartsAtMargin (splitOn '\n' second)) : decode opts (first ++ '\n' :: second) = .ok (.obj (a ++ b)) := by
  obtain ⟨t, u, h3, h4, h5⟩ := decode_reads hx h₁
  obtain ⟨t', u', h6, h7, _⟩ := decode_reads hx h₂
  obtain ⟨evs, hr⟩ := hr
  rw [h5] at hr
  simp only [Except.ok.injEq, Prod.mk.injEq] at hr
  obtain ⟨_, rfl⟩ := hr
  cases t with
  | prim p => simp [ETree.json] at h4
  | arr n ts => simp [ETree.json] at h4
  | obj es =>
    cases t' with
    | prim p => simp [ETree.json] at h7
    | arr n ts => simp [ETree.json] at h7
    | obj es' =>
      rcases reads_objects h3 h6 hm with h8 | h8
      · refine (C58_value opts hx _ _).mpr ⟨_, by rw [splitOn_append_any]; exact reads_means h8, ?_⟩
        simp only [ETree.json, jsonEntries_append, Json.obj.injEq] at h4 h7 ⊢
        rw [h4, h7]
      · have h9 := (C19_leading opts (splitOn '\n' second) (splitOn '\n' first) h8 (.obj b)).mpr h₂
        have h10 : decode (F := F) opts first = .ok (.obj []) := by
          have := C19_trailing (F := F) opts [] (splitOn '\n' first) h8
          rw [List.nil_append] at this
          unfold decode
          rw [this]
          exact (C58_value opts hx [] (.obj [])).mpr ⟨.obj [], ⟨[], [1], [], .blank (by decide) (.nil _), .empty⟩, rfl⟩ |> fun h => by
            unfold decode at h
            have h' := C19_trailing (F := F) opts [] [[]] (by simp [BlankLine])
            rw [List.nil_append] at h'
            rw [← h']
            exact h
        rw [h₁] at h10
        simp only [Except.ok.injEq, Json.obj.injEq] at h10
        subst h10
        unfold decode
        rw [splitOn_append_any]
        exact h9

/-- C71.  What follows the text of an array is lost without an error, in either mode, if it begins without indentation
and (strict) is well indented. -/
theorem C71_after_array (opts : DecOpts) (hx : opts.expand = false) (first second : Str) (items : List (Json F))
    (h₁ : decode opts first = .ok (.arr items)) (hw : opts.strict = true → WellIndented opts.indent (splitOn '\n' second))
    (hm : StartsAtMargin (splitOn '\n' second)) : decode opts (first ++ '\n' :: second) = .ok (.arr items) := by
  obtain ⟨t, u, h3, h4, _⟩ := decode_reads hx h₁
  obtain ⟨ls, bs, hs⟩ := scans_exist (strict := opts.strict) _ hw 0
  refine (C58_value opts hx _ _).mpr ⟨t, ?_, h4⟩
  rw [splitOn_append_any]
  refine reads_means (reads_lost h3 hs (.inr ⟨?_, hm⟩))
  cases t with
  | arr n ts => exact ⟨n, ts, rfl⟩
  | prim p => simp [ETree.json] at h4
  | obj es => simp [ETree.json] at h4

/-- C71.  If lines of the first text are not read, neither is anything that follows it. -/
theorem C71_after_unread (opts : DecOpts) (hx : opts.expand = false) (first second : Str) (v : Json F)
    (h₁ : decode opts first = .ok v) (hw : opts.strict = true → WellIndented opts.indent (splitOn '\n' second))
    (hr : ∃ evs u, decodeStreamUnread (F := F) opts.indent opts.strict (splitOn '\n' first) = .ok (evs, u + 1)) :
    decode opts (first ++ '\n' :: second) = .ok v := by
  obtain ⟨t, u, h3, h4, h5⟩ := decode_reads hx h₁
  obtain ⟨evs, w, hr⟩ := hr
  rw [h5] at hr
  simp only [Except.ok.injEq, Prod.mk.injEq] at hr
  obtain ⟨ls, bs, hs⟩ := scans_exist (strict := opts.strict) _ hw 0
  refine (C58_value opts hx _ _).mpr ⟨t, ?_, h4⟩
  rw [splitOn_append_any]
  exact reads_means (reads_lost h3 hs (.inl (by omega)))

/-- C71.  After a lone primitive nothing may follow but blank lines. -/
theorem C71_after_primitive (opts : DecOpts) (hx : opts.expand = false) (first second : Str) (p : Prim F)
    (h₁ : decode opts first = .ok (.prim p)) (hb : ∃ line ∈ splitOn '\n' second, ¬ BlankLine line) :
    ∃ e, decode (F := F) opts (first ++ '\n' :: second) = .error e := by
  obtain ⟨t, h1, h2⟩ := (C58_value opts hx _ _).mp h₁
  refine (C58_rejected opts hx _).mpr ?_
  rintro ⟨t', h3⟩
  rw [splitOn_append_any] at h3
  cases t with
  | arr n ts => simp [ETree.json] at h2
  | obj es => simp [ETree.json] at h2
  | prim p' => exact reads_primitive h1 hb h3

/-- C71.  Without key folding, putting the texts of two objects that are not empty one after the other is writing the
object with the entries of both. -/
theorem C71_written (opts : EncOpts) (hf : opts.fold = false) (a b : List (Str × Json F)) (ha : a ≠ []) (hb : b ≠ []) :
    encode opts (.obj (a ++ b)) = encode opts (.obj a) ++ '\n' :: encode opts (.obj b) := by
  have hne : ∀ es : List (Str × Json F), es ≠ [] → encodeLines opts (.obj es) ≠ [] := by
    intro es hes h
    cases es with
    | nil => exact hes rfl
    | cons e es =>
      obtain ⟨k, v⟩ := e
      simp only [encodeLines, encodeJsonValue, normalize, normalizeEntries, encodeValue, encodeObject, List.map_eq_nil_iff] at h
      exact absurd h encodeEntries_ne_nil
  unfold encode
  rw [C70_entries opts hf, joinWith_append_any '\n' (hne a ha) (hne b hb)]

end

/-! ## What happens to the second text -/

/-- Finding F31.  The text of an array after that of an object becomes an entry whose key is the header; after an array
everything is lost; a second text that is indented, or one after unread lines, is lost too.  All without an error in
strict mode. -/
theorem C71_silent :
    decode (F := B64) defaultDec "a: u\n[2]: x,y".toList =
      .ok (.obj [("a".toList, .prim (.str "u".toList)), ("[2]".toList, .prim (.str "x,y".toList))]) ∧
    decode (F := B64) defaultDec "[2]: x,y\na: u".toList = .ok (.arr [.prim (.str "x".toList), .prim (.str "y".toList)]) ∧
    decode (F := B64) defaultDec "a: u\n  b: v".toList = .ok (.obj [("a".toList, .prim (.str "u".toList))]) ∧
    decode (F := B64) defaultDec "a: u\n  b: v\nc: w".toList = .ok (.obj [("a".toList, .prim (.str "u".toList))]) := by
  refine ⟨by decide +kernel, by decide +kernel, by decide +kernel, by decide +kernel⟩

/-! ## Non-vacuity -/

theorem margin_cons {line : Str} {b : List Str} (h : line.head? ≠ some ' ') (hb : ¬ BlankLine line) : StartsAtMargin (line :: b) := by
  intro a l c h1 h2 h3
  cases a with
  | nil =>
    simp only [List.nil_append, List.cons.injEq] at h1
    rw [← h1.1]; exact h
  | cons x a =>
    simp only [List.cons_append, List.cons.injEq] at h1
    exact absurd (by rw [h1.1]; exact h2 x (by simp)) hb

/-- C71_objects: a nested object with a table at its end, then an object with a blank line before it. -/
example : decode (F := B64) defaultDec ("a:\n  t[1]{x}:\n    u".toList ++ '\n' :: "b: v\n\nc: w".toList) =
    .ok (.obj ([("a".toList, .obj [("t".toList, .arr [.obj [("x".toList, .prim (.str "u".toList))]])])] ++
      [("b".toList, .prim (.str "v".toList)), ("c".toList, .prim (.str "w".toList))])) :=
  C71_objects defaultDec rfl _ _ _ _ (by decide +kernel) (by decide +kernel)
    ⟨ETree.events (.obj [("a".toList, false, .obj [("t".toList, false, .arr 1 [.obj [("x".toList, false, .prim (.str "u".toList))]])])]),
      by decide +kernel⟩
    (margin_cons (line := "b: v".toList) (b := [[], "c: w".toList]) (by decide) (by decide))

/-- C71_after_array. -/
example : decode (F := B64) defaultDec ("[2]: x,y".toList ++ '\n' :: "a: u".toList) =
    .ok (.arr [.prim (.str "x".toList), .prim (.str "y".toList)]) :=
  C71_after_array defaultDec rfl _ _ _ (by decide +kernel)
    (fun _ => by
      intro line hl _
      rw [show splitOn '\n' "a: u".toList = ["a: u".toList] by decide] at hl
      simp only [List.mem_singleton] at hl
      exact ⟨0, "a: u".toList, by rw [hl]; rfl, by decide, by decide⟩)
    (margin_cons (line := "a: u".toList) (b := []) (by decide) (by decide))

/-- C71_after_unread. -/
example : decode (F := B64) defaultDec ("a: u\n  b: v".toList ++ '\n' :: "c: w".toList) =
    .ok (.obj [("a".toList, .prim (.str "u".toList))]) :=
  C71_after_unread defaultDec rfl _ _ _ (by decide +kernel)
    (fun _ => by
      intro line hl _
      rw [show splitOn '\n' "c: w".toList = ["c: w".toList] by decide] at hl
      simp only [List.mem_singleton] at hl
      exact ⟨0, "c: w".toList, by rw [hl]; rfl, by decide, by decide⟩)
    ⟨ETree.events (.obj [("a".toList, false, .prim (.str "u".toList))]), 0, by decide +kernel⟩

/-- C71_after_primitive. -/
example : ∃ e, decode (F := B64) defaultDec ("true".toList ++ '\n' :: "a: u".toList) = .error e :=
  C71_after_primitive defaultDec rfl _ _ (.bool true) (by decide +kernel) ⟨"a: u".toList, by decide, by decide⟩

/-- C71_written. -/
example : encode (F := B64) defaultEnc (.obj ([("a".toList, .prim .null)] ++ [("b".toList, .prim .null)])) =
    encode defaultEnc (.obj [("a".toList, .prim (.null (F := B64)))]) ++ '\n' ::
      encode defaultEnc (.obj [("b".toList, .prim (.null (F := B64)))]) :=
  C71_written defaultEnc rfl _ _ (by simp) (by simp)

end Toon
