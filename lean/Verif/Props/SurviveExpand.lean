import Verif.Props.Survive
import Verif.Props.Events
import Verif.Props.Expand
import Verif.Props.Fold
import Verif.Props.ExpandExact
import Verif.Lemmas.FoldLevels

/-!
# C80: exactly which values survive folding and path expansion

`C23` says that a value without the defects of `C01` and without dotted keys survives encoding, with or
without folding, and decoding with path expansion.  Here the converse: every other value is refused or
comes back as a different one, at every flatten depth and in both modes.
-/

namespace Toon

section
variable {F : Type} [F64 F] [LawfulF64 F]

/-- C80.  What comes back through path expansion was writable and had no dotted keys.  No bound on the
nesting. -/
theorem C80_only (opts : EncOpts) (strict : Bool) (v w : Json F)
    (hi : 0 < opts.indent) (hd : GoodDelim opts.delim) (hk : DistinctKeys v) (hs : Sized v)
    (h : decode { indent := opts.indent, strict := strict, expand := true } (encode opts v) = .ok w) (he : w ≃ normalize v) :
    Writable true v ∧ NoDottedKeys v := by
  obtain ⟨t, ht, rfl, _⟩ := C27_value { indent := opts.indent, strict := strict, expand := true } rfl (encode opts v) w h
  have ht' : decodeStream opts.indent strict (encodeLines opts v) = .ok t.events := by
    rw [← ht, splitOn_encode hd]
    split
    · rename_i hl
      rw [hl]
      rfl
    · rfl
  obtain ⟨h1, h2⟩ := decodeStream_reads_back hi hd strict hk hs ht' he
  exact ⟨h1, (allKeys_normalize _ v).mp h2⟩

/-- C80.  A value comes back from its own encoding, folded or not, through path expansion, up to the order of
keys, exactly when it is writable, has no NaN, infinity or negative zero, no key that is a dotted path, and
does not exceed the nesting that expansion supports. -/
theorem C80_survives (opts : EncOpts) (strict : Bool) (v : Json F)
    (hi : 0 < opts.indent) (hd : GoodDelim opts.delim) (hk : DistinctKeys v) (hs : Sized v) :
    (∃ w, decode { indent := opts.indent, strict := strict, expand := true } (encode opts v) = .ok w ∧ w ≃ v) ↔
      Writable true v ∧ PlainNumbers v ∧ NoDottedKeys v ∧
        decode (F := F) { indent := opts.indent, strict := strict, expand := true } (encode opts v) ≠ .error .expandDepth := by
  constructor
  · rintro ⟨w, h, he⟩
    have hn : PlainNumbers v := (normal_iff v).mp ((normal_equiv he).mp ((normal_iff w).mpr (C20_plain_numbers _ _ w h)))
    obtain ⟨h1, h2⟩ := C80_only opts strict v w hi hd hk hs h (by rw [normalize_normal ((normal_iff v).mpr hn)]; exact he)
    exact ⟨h1, hn, h2, by rw [h]; simp⟩
  · rintro ⟨hw, hn, hdot, hx⟩
    rcases C23_any_depth opts strict v hi hd hw hk hn hdot with h | h
    · exact h
    · exact absurd h hx

/-- C80 for nesting up to 127: the three conditions alone. -/
theorem C80_survives_shallow (opts : EncOpts) (strict : Bool) (v : Json F)
    (hi : 0 < opts.indent) (hd : GoodDelim opts.delim) (hk : DistinctKeys v) (hs : Sized v) (hh : height v ≤ 127) :
    (∃ w, decode { indent := opts.indent, strict := strict, expand := true } (encode opts v) = .ok w ∧ w ≃ v) ↔
      Writable true v ∧ PlainNumbers v ∧ NoDottedKeys v :=
  ⟨fun h => let h' := (C80_survives opts strict v hi hd hk hs).mp h; ⟨h'.1, h'.2.1, h'.2.2.1⟩,
    fun ⟨hw, hn, hdot⟩ => C23_lossless opts strict v hi hd hw hk hn hdot hh⟩

/-- C80, with the order of keys: in addition the rows of every table list their keys in the order of the
columns. -/
theorem C80_survives_exact (opts : EncOpts) (strict : Bool) (v : Json F)
    (hi : 0 < opts.indent) (hd : GoodDelim opts.delim) (hk : DistinctKeys v) (hs : Sized v) (hh : height v ≤ 127) :
    decode { indent := opts.indent, strict := strict, expand := true } (encode opts v) = .ok v ↔
      Writable true v ∧ PlainNumbers v ∧ NoDottedKeys v ∧ Aligned true v := by
  constructor
  · intro h
    obtain ⟨hw, hn, hdot⟩ := (C80_survives_shallow opts strict v hi hd hk hs hh).mp ⟨v, h, .refl v⟩
    refine ⟨hw, hn, hdot, ?_⟩
    rcases decode_expand_encode strict hi hd hw hk hn hdot with h' | ⟨h', _⟩
    · rw [h] at h'
      simp only [Except.ok.injEq] at h'
      refine aligned_of_shape (opts := { opts with fold := false }) rfl ?_
      rw [shape_canon rfl, ← h']
    · rw [h] at h'; simp at h'
  · exact fun ⟨hw, hn, hdot, ha⟩ => C23_lossless_exact opts strict v hi hd hw hk hn hdot hh ha

/-- C80.  The nesting that is too much, exactly: the text of such a value stands for one tree, and it is decoded
unless that tree needs more than 256 levels, where an object counts two, an array and a primitive one, and a
folded key of `n` segments `n + 1`. -/
theorem C80_depth (opts : EncOpts) (strict : Bool) (v : Json F)
    (hi : 0 < opts.indent) (hd : GoodDelim opts.delim) (hk : DistinctKeys v)
    (hw : Writable true v) (hn : PlainNumbers v) (hdot : NoDottedKeys v) :
    ∃ t : ETree F, TextMeans opts.indent strict (splitOn '\n' (encode opts v)) t ∧
      decode (F := F) { indent := opts.indent, strict := strict, expand := true } (encode opts v) =
        if depthNeeded t ≤ 256 then .ok (expanded t) else .error .expandDepth := by
  have hs := decodeStream_encode hi hd strict hw
  rw [normalize_normal ((normal_iff v).mpr hn), ← events_treeOf] at hs
  obtain ⟨t, ht, he⟩ := (C58_events _ _ _ _).mp hs
  have := events_inj he
  subst this
  refine ⟨_, ht, ?_⟩
  have hout := C23_any_depth opts strict v hi hd hw hk hn hdot
  by_cases hl : depthNeeded (treeOf (shape opts v)) ≤ 256
  · rw [if_pos hl]
    rcases hout with ⟨w, hw', _⟩ | ho
    · obtain ⟨t', h1, h2, _⟩ := C27_value { indent := opts.indent, strict := strict, expand := true } rfl _ w hw'
      rw [hs] at h1
      simp only [Except.ok.injEq] at h1
      rw [hw', h2, events_inj h1]
    · obtain ⟨before, n, after, h1, h2, _⟩ := C63_depth { indent := opts.indent, strict := strict, expand := true } rfl _ _ ht ho
      have := hurdles_apart (shape opts v) 0 (apart_shape v hk hdot) (.level n) (by rw [h1]; simp)
      simp only [levelOf] at this
      omega
  · rw [if_neg hl]
    rcases hout with ⟨w, hw', _⟩ | ho
    · obtain ⟨t', h1, h2, _⟩ := C29_cap { indent := opts.indent, strict := strict, expand := true } rfl _ w hw'
      rw [hs] at h1
      simp only [Except.ok.injEq] at h1
      rw [events_inj h1] at hl
      exact absurd h2 hl
    · exact ho

/-- C80.  Folding changes nothing: what survives with one flatten depth survives with every other, and without
folding, up to nesting 127. -/
theorem C80_any_folding (opts opts' : EncOpts) (strict strict' : Bool) (v : Json F)
    (hi : 0 < opts.indent) (hd : GoodDelim opts.delim) (hi' : 0 < opts'.indent) (hd' : GoodDelim opts'.delim)
    (hk : DistinctKeys v) (hs : Sized v) (hh : height v ≤ 127)
    (h : ∃ w, decode { indent := opts.indent, strict := strict, expand := true } (encode opts v) = .ok w ∧ w ≃ v) :
    ∃ w, decode { indent := opts'.indent, strict := strict', expand := true } (encode opts' v) = .ok w ∧ w ≃ v :=
  (C80_survives_shallow opts' strict' v hi' hd' hk hs hh).mpr ((C80_survives_shallow opts strict v hi hd hk hs hh).mp h)

end

/-! ## The hypotheses hold -/

namespace SurviveExpandExample

open FoldExample

/-- `{"a": {"b": {"c.d": 1}}, "x": [{"m": 2}, true]}`: the only defect is a dotted key below two others. -/
def lost : Json B64 :=
  .obj [("a".toList, .obj [("b".toList, .obj [("c.d".toList, .prim (.num one))])]),
    ("x".toList, .arr [.obj [("m".toList, .prim (.num two))], .prim (.bool true)])]

theorem comma : GoodDelim ',' := by decide

theorem lost_distinct : DistinctKeys lost := by
  simp only [lost, DistinctKeys, DistinctKeysEntries, DistinctKeysItems]
  decide

theorem lost_sized : Sized lost := by simp [lost, Sized, SizedEntries, SizedItems]

example (strict : Bool) (fd : Nat) : ¬ ∃ w, decode { indent := 2, strict := strict, expand := true }
    (encode { indent := 2, delim := ',', fold := true, flattenDepth := fd } lost) = .ok w ∧ w ≃ lost := by
  intro h
  have := ((C80_survives_shallow { indent := 2, delim := ',', fold := true, flattenDepth := fd } strict lost (by simp)
    comma lost_distinct lost_sized (by decide)).mp h).2.2
  simp only [lost, NoDottedKeys, AllKeys, AllKeysEntries, AllKeysItems] at this
  revert this
  decide +kernel

/-- The example of `C23` meets all conditions. -/
example : Sized FoldExample.value ∧ height FoldExample.value ≤ 127 :=
  ⟨by simp [FoldExample.value, Sized, SizedEntries, SizedItems], by decide⟩

example (strict : Bool) (fd : Nat) : ∃ w, decode { indent := 2, strict := strict, expand := true }
    (encode { indent := 2, delim := ',', fold := true, flattenDepth := fd } FoldExample.value) = .ok w ∧ w ≃ FoldExample.value :=
  (C80_survives_shallow { indent := 2, delim := ',', fold := true, flattenDepth := fd } strict FoldExample.value (by simp)
    comma distinct (by simp [FoldExample.value, Sized, SizedEntries, SizedItems]) (by decide)).mpr
    ⟨writable, plain, undotted⟩

end SurviveExpandExample

end Toon
