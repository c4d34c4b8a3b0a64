import Verif.Lemmas.FoldedKeys
import Verif.Lemmas.ExpandKeys
import Verif.Props.Draft
import Verif.Props.ExpandExact
import Verif.Props.Redact

/-!
# C97: what every value becomes, with folding and with path expansion

C91 says what every value becomes when it is written and read, as long as keys are neither folded nor expanded.  Here they may be: the
layout of the value (C56) decides which keys are joined, `Layout.Means` (`Spec/LayoutMeans.lean`) what its lines are read as, and
`expanded` (C27) what path expansion makes of that.
-/

namespace Toon

section
variable {F : Type} [F64 F] [LawfulF64 F]

/-- C97.  The text of a value, whatever the options are, stands for the tree `t` exactly if its layout is read as `t`. -/
theorem C97_tree (opts : EncOpts) (strict : Bool) (v : Json F) (hi : 0 < opts.indent) (hd : GoodDelim opts.delim) (hs : Sized v)
    (l : Layout F) (hl : DocumentLayout opts.fold opts.flattenDepth (v.mapPrims Prim.plain) l) (t : ETree F) :
    TextMeans opts.indent strict (splitOn '\n' (encode opts v)) t ↔ l.Means strict t := by
  obtain ⟨lines, h1, h2⟩ := parseLines_render hi strict (encodeValue opts (normalize v))
    (fun l hl => (linesIn_value hd _ l hl).1) 0
  obtain ⟨l', h3, hy⟩ := decodeLines_laidOut (ctx := ⟨strict, []⟩) rfl hd ((sized_normalize v).mpr hs) (normal_normalize v) h2
  have hst : decodeStream (F := F) opts.indent strict (encodeLines opts v) = decodeLines (F := F) ⟨strict, []⟩ lines := by
    unfold decodeStream encodeLines encodeJsonValue
    simp only [h1, bind, Except.bind]
  rw [← normalize_plain] at hl
  obtain rfl := value_unique _ h3 hl
  have hsp : decodeStream (F := F) opts.indent strict (splitOn '\n' (encode opts v)) =
      decodeStream (F := F) opts.indent strict (encodeLines opts v) := by
    rw [splitOn_encode hd]
    split
    · rename_i h
      rw [h]
      rfl
    · rfl
  constructor
  · intro h
    have := (C58_events _ _ _ _).mpr ⟨t, h, rfl⟩
    rw [hsp, hst] at this
    obtain ⟨t', h4, h5⟩ := (hy _).mp this
    rwa [events_inj h4]
  · intro h
    have := (hy _).mpr ⟨t, rfl, h⟩
    rw [← hst, ← hsp] at this
    obtain ⟨t', h4, h5⟩ := (C58_events _ _ _ _).mp this
    rwa [events_inj h5]

/-- C97.  Without path expansion the text is read as the value of that tree. -/
theorem C97_value (opts : EncOpts) (strict : Bool) (v : Json F) (hi : 0 < opts.indent) (hd : GoodDelim opts.delim) (hs : Sized v)
    (l : Layout F) (hl : DocumentLayout opts.fold opts.flattenDepth (v.mapPrims Prim.plain) l) (w : Json F) :
    decode { indent := opts.indent, strict := strict, expand := false } (encode opts v) = .ok w ↔
      ∃ t, l.Means strict t ∧ w = t.json := by
  rw [C58_value _ rfl]
  simp only [C97_tree opts strict v hi hd hs l hl]

/-- C97.  With path expansion it is read as the merged value of that tree, unless there are more than 256 levels or, in strict mode,
a conflict. -/
theorem C97_expanded (opts : EncOpts) (strict : Bool) (v : Json F) (hi : 0 < opts.indent) (hd : GoodDelim opts.delim) (hs : Sized v)
    (l : Layout F) (hl : DocumentLayout opts.fold opts.flattenDepth (v.mapPrims Prim.plain) l) (w : Json F) :
    decode { indent := opts.indent, strict := strict, expand := true } (encode opts v) = .ok w ↔
      ∃ t, l.Means strict t ∧ w = expanded t ∧ (∀ h ∈ hurdles 1 t, levelOf h ≤ 256) ∧ (strict = true → conflicting t = false) := by
  rw [C63_value _ rfl]
  simp only [C97_tree opts strict v hi hd hs l hl]

/-- C97.  Every key that is read is a key of the value, or two or more of its keys joined by dots (up to the flatten depth), or has a
colon inside, which only keys of misread entries have; it is in quotes exactly if it cannot be written without. -/
theorem C97_keys (opts : EncOpts) (strict : Bool) (v : Json F) (hi : 0 < opts.indent) (hd : GoodDelim opts.delim) (hs : Sized v)
    (t : ETree F) (h : TextMeans opts.indent strict (splitOn '\n' (encode opts v)) t) (K : Str → Prop) (hk : AllKeys K v) :
    t.AllKeys fun k quoted => (FoldedFrom K opts.flattenDepth k ∧ quoted = !bareKey k) ∨ ':' ∈ k := by
  obtain ⟨l, hl⟩ := document_layout opts (normalize v)
  have hl' : DocumentLayout opts.fold opts.flattenDepth (v.mapPrims Prim.plain) l := by rw [← normalize_plain]; exact hl.1
  exact value_keysRead hl.1 (Nat.le_refl _) ((allKeys_normalize _ _).mpr hk) t ((C97_tree opts strict v hi hd hs l hl' t).mp h)

/-- C97.  With path expansion every key that is read is a key of the value, a part of a dotted key of the value, or has a colon
inside. -/
theorem C97_keys_expanded (opts : EncOpts) (strict : Bool) (v : Json F) (hi : 0 < opts.indent) (hd : GoodDelim opts.delim) (hs : Sized v)
    (w : Json F) (h : decode { indent := opts.indent, strict := strict, expand := true } (encode opts v) = .ok w) (K : Str → Prop)
    (hk : AllKeys K v) :
    AllKeys (fun k => K k ∨ (∃ segs : List Str, 2 ≤ segs.length ∧ (∀ s ∈ segs, identifier s = true) ∧ K (dotted segs) ∧ k ∈ segs) ∨
      ':' ∈ k) w := by
  obtain ⟨t, ht, rfl, _⟩ := (C63_value _ rfl _ _).mp h
  refine expanded_keys ?_ t (C97_keys opts strict v hi hd hs t ht K hk)
  rintro k q (⟨hf, rfl⟩ | hc) q' hq s hm
  · rcases keyPath_cases q' k with h1 | ⟨segs, h1, h2, rfl, h3⟩
    · rw [h1, List.mem_singleton] at hm
      subst hm
      rcases hf with hf | ⟨segs, h2, h3, h4, rfl⟩
      · exact Or.inl hf
      · cases q' with
        | true =>
          rcases hq rfl with ⟨_, h5⟩ | h5
          · rw [bareKey_eq, dotted_bare ⟨segs, h2, fun s hs => (h4 s hs).1, rfl⟩] at h5
            simp at h5
          · exact Or.inr (Or.inr h5)
        | false =>
          rw [keyPath_dotted h2 fun s hs => (h4 s hs).1] at h1
          rw [h1] at h2
          simp at h2
    · rw [h3] at hm
      rcases hf with hf | ⟨segs', h4, h5, h6, h7⟩
      · exact Or.inr (Or.inl ⟨segs, h1, h2, hf, hm⟩)
      · rw [dotted_inj h1 h4 h2 (fun s hs => (h6 s hs).1) h7] at hm
        exact Or.inl (h6 s hm).2
  · have hn : ¬ DottedPath k := fun hd => dotted_noColon hd hc
    rw [keyPath_single (Or.inr hn), List.mem_singleton] at hm
    subst hm
    exact Or.inr (Or.inr hc)

private theorem decode_lines {opts : EncOpts} (hd : GoodDelim opts.delim) (o : DecOpts) (v : Json F) :
    decode (F := F) o (encode opts v) = decodeFromLines o (encodeLines opts v) := by
  unfold decode
  rw [splitOn_encode hd]
  split
  · rename_i h
    rw [h]
    rfl
  · rfl

/-- C97.  What a redacting replacer (C92) drops does not come back, with folding either: no object that is read has a dropped key
that is an identifier. -/
theorem C97_gone (opts : EncOpts) (strict : Bool) (hide : Str → Option (Option (Prim F))) (v : Json F) (hi : 0 < opts.indent)
    (hd : GoodDelim opts.delim) (hs : Sized (redacted hide v)) (fuel : Nat) (lines : List Str)
    (hl : encodeLinesWith opts (stateless (redactor hide)) fuel v () = some (lines, ())) (w : Json F)
    (h : decodeFromLines { indent := opts.indent, strict := strict, expand := false } lines = .ok w) :
    AllKeys (fun k => ¬ (hide k = some none ∧ identifier k = true)) w := by
  have h1 := (C92_text opts hide v _).mp ⟨fuel, hl⟩
  simp only [Prod.mk.injEq, and_true] at h1
  rw [h1, ← decode_lines hd] at h
  obtain ⟨t, ht, rfl⟩ := (C58_value _ rfl _ _).mp h
  refine json_keys ?_ t (C97_keys opts strict _ hi hd hs t ht _ (allKeys_redacted hide v))
  rintro k q (⟨hf | ⟨segs, h2, _, h4, rfl⟩, _⟩ | hc) ⟨h5, h6⟩
  · exact hf h5
  · exact identifier_single h6 ⟨segs, h2, fun s hs => (h4 s hs).1, rfl⟩
  · rw [identifier_eq] at h6
    exact validKey_not_mem (identifier_valid h6) (c := ':') (by decide) hc

/-- C97.  With path expansion neither, if no key of the value is a dotted path. -/
theorem C97_gone_expanded (opts : EncOpts) (strict : Bool) (hide : Str → Option (Option (Prim F))) (v : Json F) (hi : 0 < opts.indent)
    (hd : GoodDelim opts.delim) (hs : Sized (redacted hide v)) (hn : NoDottedKeys (redacted hide v))
    (fuel : Nat) (lines : List Str) (hl : encodeLinesWith opts (stateless (redactor hide)) fuel v () = some (lines, ())) (w : Json F)
    (h : decodeFromLines { indent := opts.indent, strict := strict, expand := true } lines = .ok w) :
    AllKeys (fun k => ¬ (hide k = some none ∧ bareKey k = true)) w := by
  have h1 := (C92_text opts hide v _).mp ⟨fuel, hl⟩
  simp only [Prod.mk.injEq, and_true] at h1
  rw [h1, ← decode_lines hd] at h
  refine AllKeys.imp ?_ w (C97_keys_expanded opts strict _ hi hd hs w h (fun k => hide k ≠ some none ∧ ¬ DottedPath k)
    (allKeys_and (allKeys_redacted hide v) hn))
  rintro k (h1 | ⟨segs, h1, h2, h3, _⟩ | h1) ⟨h4, h5⟩
  · exact h1.1 h4
  · exact h3.2 ⟨segs, h1, h2, rfl⟩
  · rw [bareKey_eq] at h5
    exact validKey_not_mem h5 (c := ':') (by decide) h1

/-- C97.  One string that stands under a key written without quotes, inside objects at any depth, makes the text unreadable in strict
mode, whatever else is written and whatever the options are. -/
theorem C97_denied (opts : EncOpts) (expand : Bool) (v : Json F) (hi : 0 < opts.indent) (hd : GoodDelim opts.delim) (hs : Sized v)
    (k : Str) (hk : bareKey k = true) (hf : FieldIn k (.str "[2]: x".toList) v) (w : Json F) :
    decode { indent := opts.indent, strict := true, expand := expand } (encode opts v) ≠ .ok w := by
  intro h
  have ht : ∃ t, TextMeans (F := F) opts.indent true (splitOn '\n' (encode opts v)) t := by
    cases expand with
    | false => obtain ⟨t, ht, _⟩ := (C58_value _ rfl _ _).mp h; exact ⟨t, ht⟩
    | true => obtain ⟨t, ht, _⟩ := (C63_value _ rfl _ _).mp h; exact ⟨t, ht⟩
  obtain ⟨t, ht⟩ := ht
  obtain ⟨l, hl, _⟩ := document_layout opts (normalize v)
  have hl' : DocumentLayout opts.fold opts.flattenDepth (v.mapPrims Prim.plain) l := by rw [← normalize_plain]; exact hl
  exact value_denied hk hl (fieldIn_normalize hf) t ((C97_tree opts true v hi hd hs l hl' t).mp ht)

end

/-! ## Examples -/

private def foldOpts : EncOpts := ⟨2, ',', true, 9⟩

private def chain (p : Prim B64) : Json B64 := .obj [("a".toList, .obj [("b".toList, .prim p)])]

private theorem chain_layout (p : Prim B64) :
    DocumentLayout true 9 (chain p) (.object [("a.b".toList, .prim p)]) := by
  refine .object (.folded (ks := ["b".toList]) (leaf := .prim p) rfl ⟨⟨rfl, by decide, Or.inr (by simp)⟩, by simp, by decide, ?_, ?_⟩ (.prim p) .nil)
  · simp only [List.map_cons, List.map_nil]; decide
  · simp only [chain, dottedKeys, List.map_cons, List.map_nil]; decide

private theorem chain_sized (p : Prim B64) : Sized (chain p) := by simp [chain, Sized, SizedEntries]

private theorem token_y : TokenMeans "y\"".toList (.str "y\"".toList : Prim B64) := by
  have := (parsePrimitiveToken_iff "y\"".toList (.str "y\"".toList : Prim B64)).mp (by decide +kernel)
  rwa [show trim "y\"".toList = "y\"".toList by decide +kernel] at this

/-- The string of a folded entry is misread under the joined key. -/
example : decode (F := B64) ⟨2, true, false⟩ (encode foldOpts (chain (.str "[1]: y".toList))) =
    .ok (.obj [("a.b: \"".toList, .arr [.prim (.str "y\"".toList)])]) := by
  refine (C97_value foldOpts true _ (by decide) (by decide) (chain_sized _) _ (chain_layout _) _).mpr
    ⟨.obj [("a.b: \"".toList, false, .arr 1 [.prim (.str "y\"".toList)])], ?_, by decide +kernel⟩
  simp only [Layout.Means, Layout.MeansEntries]
  refine ⟨_, rfl, _, _, rfl, Or.inl ⟨_, rfl, ⟨by decide +kernel, by decide +kernel⟩, ?_⟩, rfl⟩
  exact ⟨⟨some "a.b: \"".toList, false, 1, ',', none, some "y\"".toList⟩, "y\"".toList, ["y\"".toList], [.str "y\"".toList],
    (headerMeans_iff _ _).mp (by decide +kernel), rfl, rfl, (parseDelimited_cells (d := ',') (by decide) _ _).mp (by decide +kernel),
    .cons token_y .nil, fun _ => rfl, rfl, rfl⟩

/-- The same with path expansion: the key is no dotted path. -/
example : decode (F := B64) ⟨2, true, true⟩ (encode foldOpts (chain (.str "[1]: y".toList))) =
    .ok (.obj [("a.b: \"".toList, .arr [.prim (.str "y\"".toList)])]) := by
  refine (C97_expanded foldOpts true _ (by decide) (by decide) (chain_sized _) _ (chain_layout _) _).mpr
    ⟨.obj [("a.b: \"".toList, false, .arr 1 [.prim (.str "y\"".toList)])], ?_, by decide +kernel, by decide +kernel, by decide +kernel⟩
  simp only [Layout.Means, Layout.MeansEntries]
  refine ⟨_, rfl, _, _, rfl, Or.inl ⟨_, rfl, ⟨by decide +kernel, by decide +kernel⟩, ?_⟩, rfl⟩
  exact ⟨⟨some "a.b: \"".toList, false, 1, ',', none, some "y\"".toList⟩, "y\"".toList, ["y\"".toList], [.str "y\"".toList],
    (headerMeans_iff _ _).mp (by decide +kernel), rfl, rfl, (parseDelimited_cells (d := ',') (by decide) _ _).mp (by decide +kernel),
    .cons token_y .nil, fun _ => rfl, rfl, rfl⟩

/-- The hypothesis of `C97_denied`, below a folded chain. -/
example : FieldIn "b".toList (.str "[2]: x".toList) (chain (.str "[2]: x".toList)) := 
  .inside (k' := "a".toList) (v := .obj [("b".toList, .prim (.str "[2]: x".toList))]) (by simp) (.here (by simp))

/-- A dropped key that is a dotted path can come back by folding: `a.b` is dropped everywhere, and read all the same. -/
theorem C97_dotted_back : ∃ (hide : Str → Option (Option (Prim B64))) (v : Json B64), hide "a.b".toList = some none ∧
    decode (F := B64) ⟨2, true, false⟩ (encode foldOpts (redacted hide v)) = .ok (.obj [("a.b".toList, .prim (.bool true))]) := by
  refine ⟨fun k => if k = "a.b".toList then some none else none, chain (.bool true), by decide, ?_⟩
  rw [show redacted (fun k => if k = "a.b".toList then some none else none) (chain (.bool true)) = chain (.bool true) by decide +kernel]
  refine (C97_value foldOpts true _ (by decide) (by decide) (chain_sized _) _ (chain_layout _) _).mpr
    ⟨.obj [("a.b".toList, false, .prim (.bool true))], ?_, by decide +kernel⟩
  simp only [Layout.Means, Layout.MeansEntries]
  exact ⟨_, rfl, _, _, rfl, Or.inr ⟨by simp [Prim.plain], rfl, by decide +kernel, rfl⟩, rfl⟩

/-- With path expansion a dropped identifier can come back as the part of a dotted key. -/
theorem C97_segment_back : ∃ (hide : Str → Option (Option (Prim B64))) (v : Json B64), hide "token".toList = some none ∧
    decode (F := B64) ⟨2, true, true⟩ (encode ⟨2, ',', false, 0⟩ (redacted hide v)) =
      .ok (.obj [("x".toList, .obj [("token".toList, .prim (.bool true))])]) := by
  refine ⟨fun k => if k = "token".toList then some none else none, .obj [("x.token".toList, .prim (.bool true))], by decide, ?_⟩
  rw [show redacted (fun k => if k = "token".toList then some none else none) (.obj [("x.token".toList, .prim (.bool true))] : Json B64) =
    .obj [("x.token".toList, .prim (.bool true))] by decide +kernel]
  have hl : DocumentLayout false 0 (.obj [("x.token".toList, .prim (.bool true))] : Json B64) (.object [("x.token".toList, .prim (.bool true))]) :=
    .object (.plain (by simp) (.prim _) .nil)
  refine (C97_expanded ⟨2, ',', false, 0⟩ true (.obj [("x.token".toList, .prim (.bool true))] : Json B64) (by decide) (by decide)
    (by simp [Sized, SizedEntries]) _ hl _).mpr
    ⟨.obj [("x.token".toList, false, .prim (.bool true))], ?_, by decide +kernel, by decide +kernel, by decide +kernel⟩
  simp only [Layout.Means, Layout.MeansEntries]
  exact ⟨_, rfl, _, _, rfl, Or.inr ⟨by simp, rfl, by decide +kernel, rfl⟩, rfl⟩

end Toon
