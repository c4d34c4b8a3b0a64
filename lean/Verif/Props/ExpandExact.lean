import Verif.Props.Diagnostics
import Verif.Lemmas.Hurdles

/-!
# C63: what decoding with path expansion does, exactly

`Spec/Hurdles.lean` lists what expansion of a tree has to get past: levels, which are capped at 256, and conflicts.
`TextMeans` (C58) and `TextFails` (C60) say what the text stands for, and what is wrong with it.
-/

namespace Toon

section
variable {F : Type} [F64 F] [LawfulF64 F]

/-- C63.  A text that stands for a tree is decoded to the merged value of the tree, or the first hurdle that cannot be
passed is the error. -/
theorem C63_outcome (opts : DecOpts) (hx : opts.expand = true) (text : Str) (t : ETree F)
    (h : TextMeans opts.indent opts.strict (splitOn '\n' text) t) :
    decode (F := F) opts text = match firstFailure opts.strict (hurdles 1 t) with
      | some e => .error e
      | none => .ok (expanded t) := by
  have hst := (C58_events _ _ _ _).mpr ⟨t, h, rfl⟩
  unfold decode
  rw [decodeFromLines_expand hst, if_pos hx]
  exact expandPaths_exact opts.strict t

/-- C63.  Which texts are decoded to which values: those that stand for a tree all of whose levels are within the cap
and which, in strict mode, is free of conflicts. -/
theorem C63_value (opts : DecOpts) (hx : opts.expand = true) (text : Str) (v : Json F) :
    decode opts text = .ok v ↔
      ∃ t : ETree F, TextMeans opts.indent opts.strict (splitOn '\n' text) t ∧ v = expanded t ∧
        (∀ h ∈ hurdles 1 t, levelOf h ≤ 256) ∧ (opts.strict = true → conflicting t = false) := by
  have key : ∀ t : ETree F, firstFailure opts.strict (hurdles 1 t) = none ↔
      (∀ h ∈ hurdles 1 t, levelOf h ≤ 256) ∧ (opts.strict = true → conflicting t = false) := by
    intro t
    rw [firstFailure_none, hurdles_conflict, ← firstConflict_some]
    simp
  constructor
  · intro h
    obtain ⟨t, h1, h2, _⟩ := C58_expanded opts hx text v h
    have h3 := C63_outcome opts hx text t h1
    refine ⟨t, h1, h2, (key t).mp ?_⟩
    cases hf : firstFailure opts.strict (hurdles 1 t) with
    | none => rfl
    | some e => rw [hf, h] at h3; simp at h3
  · rintro ⟨t, h1, rfl, h2⟩
    rw [C63_outcome opts hx text t h1, (key t).mpr h2]

/-- C63.  Which texts are rejected with which error: a fault of the text comes first, then the first hurdle of its tree
that cannot be passed. -/
theorem C63_error (opts : DecOpts) (hx : opts.expand = true) (text : Str) (e : Err) :
    decode (F := F) opts text = .error e ↔
      TextFails F opts.strict opts.indent (splitOn '\n' text) e ∨
      ∃ t : ETree F, TextMeans opts.indent opts.strict (splitOn '\n' text) t ∧
        firstFailure opts.strict (hurdles 1 t) = some e := by
  constructor
  · intro h
    rcases C60_expanded opts hx text e h with h1 | ⟨t, h1, _⟩
    · exact Or.inl h1
    · refine Or.inr ⟨t, h1, ?_⟩
      have h3 := C63_outcome opts hx text t h1
      cases hf : firstFailure opts.strict (hurdles 1 t) with
      | none => rw [hf, h] at h3; simp at h3
      | some e' => rw [hf, h] at h3; simpa using h3.symm
  · rintro (h | ⟨t, h1, h2⟩)
    · exact C60_fault_first opts text e h
    · rw [C63_outcome opts hx text t h1, h2]

/-- C63.  The conflicts among the hurdles are the conflicts of C60: the first one is the first conflict of the tree. -/
theorem C63_conflicts (t : ETree F) : (hurdles 1 t).findSome? conflictOf = firstConflict t := hurdles_conflict t 1

/-- C63.  When the depth error is reported there is a level above the cap, and in strict mode there is no conflict
before it. -/
theorem C63_depth (opts : DecOpts) (hx : opts.expand = true) (text : Str) (t : ETree F)
    (h : TextMeans opts.indent opts.strict (splitOn '\n' text) t) (he : decode (F := F) opts text = .error .expandDepth) :
    ∃ before n after, hurdles 1 t = before ++ .level n :: after ∧ 256 < n ∧ (∀ x ∈ before, levelOf x ≤ 256) ∧
      (opts.strict = true → before.findSome? conflictOf = none) := by
  rw [C63_outcome opts hx text t h] at he
  cases hf : firstFailure opts.strict (hurdles 1 t) with
  | none => rw [hf] at he; simp at he
  | some e =>
    rw [hf] at he
    simp only [Except.error.injEq] at he
    subst he
    exact firstFailure_depth hf

/-- C63.  In lax mode only the levels count. -/
theorem C63_lax (opts : DecOpts) (hx : opts.expand = true) (hs : opts.strict = false) (text : Str) (t : ETree F)
    (h : TextMeans opts.indent opts.strict (splitOn '\n' text) t) :
    decode (F := F) opts text =
      if (hurdles 1 t).all (fun h => decide (levelOf h ≤ 256)) then .ok (expanded t) else .error .expandDepth := by
  rw [C63_outcome opts hx text t h]
  have hn := firstFailure_none opts.strict (hurdles 1 t)
  cases hf : firstFailure opts.strict (hurdles 1 t) with
  | none => rw [if_pos (by simpa using (hn.mp hf).1)]
  | some e =>
    have he : e = .expandDepth := by rw [hs] at hf; exact firstFailure_lax hf
    rw [if_neg]
    · rw [he]
    · intro ha
      have := hn.mpr ⟨by simpa using ha, by rw [hs]; simp⟩
      rw [hf] at this; simp at this

/-- C63.  For documents without duplicate keys and dotted paths the cap is sharp: with expansion they are decoded to the
same value as without exactly if two levels per object, one per array and one per primitive are at most 256. -/
theorem C63_plain (opts : DecOpts) (hx : opts.expand = true) (text : Str) (t : ETree F)
    (h : TextMeans opts.indent opts.strict (splitOn '\n' text) t) (hd : DistinctKeys t.json)
    (hk : t.AllKeys fun k quoted => quoted = true ∨ ¬ DottedPath k) :
    decode (F := F) opts text = if depthNeeded t ≤ 256 then .ok t.json else .error .expandDepth := by
  have hst := (C58_events _ _ _ _).mpr ⟨t, h, rfl⟩
  have hout : decode (F := F) opts text = .ok t.json ∨ decode (F := F) opts text = .error .expandDepth := by
    unfold decode
    rw [decodeFromLines_expand hst, if_pos hx]
    unfold expandPathsSafe
    rcases expand_literal (strict := opts.strict) t 0 hd hk with he | ⟨he, _⟩
    · left; simp only [he, nodeToJson_plain]
    · right; simp only [he]
  by_cases hn : depthNeeded t ≤ 256
  · rw [if_pos hn]
    rcases hout with ho | ho
    · exact ho
    · obtain ⟨before, n, after, h1, h2, _⟩ := C63_depth opts hx text t h ho
      have := hurdles_plain t 0 hd hk (.level n) (by rw [h1]; simp)
      simp only [levelOf] at this
      omega
  · rw [if_neg hn]
    rcases hout with ho | ho
    · obtain ⟨t', h2, h3, _⟩ := C29_cap opts hx text _ ho
      rw [hst] at h2
      simp only [Except.ok.injEq] at h2
      have : t = t' := events_inj h2
      subst this
      omega
    · exact ho

end

/-! ## Cases -/

namespace ExpandExact

/-- `n` segments. -/
def long : Nat → Str
  | 0 => ['a']
  | n + 1 => 'a' :: '.' :: long n

def strictOpts : DecOpts := { indent := 2, strict := true, expand := true }

/-- 252 segments fit, 253 do not: the root object takes two levels, the segments one each and one more. -/
example : (∃ v : Json B64, decode strictOpts (long 252 ++ ": 1".toList) = .ok v) ∧
    decode (F := B64) strictOpts (long 253 ++ ": 1".toList) = .error .expandDepth := by
  refine ⟨?_, by decide +kernel⟩
  cases h : decode (F := B64) strictOpts (long 252 ++ ": 1".toList) with
  | ok v => exact ⟨v, rfl⟩
  | error e =>
    have : (decode (F := B64) strictOpts (long 252 ++ ": 1".toList)).toBool = true := by decide +kernel
    rw [h] at this; simp [Except.toBool] at this

/-- A conflict before a level that is too deep is what is reported. -/
example : decode (F := B64) strictOpts ("x: 1\nx: 2\n".toList ++ long 253 ++ ": 1".toList) =
    .error (.pathConflict (.merge ['x'] .primitive .primitive)) := by decide +kernel

/-- A level that is too deep before a conflict is what is reported. -/
example : decode (F := B64) strictOpts ("x: 1\n".toList ++ long 253 ++ ": 1\nx: 2".toList) = .error .expandDepth := by
  decide +kernel

/-- The hurdles of a small tree. -/
example : hurdles (F := B64) 1 (.obj [("a.b".toList, false, .prim (.bool true)), (['a'], false, .obj [(['b'], false, .prim .null)])]) =
    [.level 1, .level 2, .level 3, .level 3, .level 4, .level 5,
      .level 3, .level 4, .level 5, .level 5, .level 3, .level 4, .conflict (.merge ['b'] .primitive .primitive)] := by
  decide +kernel

end ExpandExact

end Toon
