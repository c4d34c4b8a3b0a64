import Verif.Lemmas.IndentCost
import Verif.Lemmas.Shallow
import Verif.Lemmas.ShallowRows
import Verif.Lemmas.FoldSize
import Verif.Lemmas.Float64
import Verif.Props.Draft
import Verif.Props.LineCount

/-!
# C111: what the indentation costs

The layout of a value (`Spec/Layout.lean`) does not depend on the indentation.
-/

namespace Toon

section
variable {F : Type} [F64 F] [LawfulF64 F]

/-- C111.  The text is longer than the one without indentation by the indentation times the sum of the levels of all lines. -/
theorem C111_cost (opts : EncOpts) (v : Json F) (l : Layout F)
    (h : DocumentLayout opts.fold opts.flattenDepth (v.mapPrims Prim.plain) l) :
    (encode opts v).length = (encode { opts with indent := 0 } v).length + opts.indent * l.levelTotal := by
  rw [C56_text opts v l h, C56_text { opts with indent := 0 } v l h]
  exact written_levels opts.indent opts.delim l

/-- C111.  Every further space of indentation costs the same number of characters. -/
theorem C111_linear (opts : EncOpts) (v : Json F) : ∃ n, ∀ i j,
    (encode { opts with indent := i + j } v).length = (encode { opts with indent := i } v).length + j * n := by
  obtain ⟨l, h, _⟩ := C56_one_layout opts.fold opts.flattenDepth (v.mapPrims Prim.plain)
  refine ⟨l.levelTotal, fun i j => ?_⟩
  have a := C111_cost { opts with indent := i + j } v l h
  have b := C111_cost { opts with indent := i } v l h
  simp only [Nat.add_mul] at a b
  omega

/-- C111.  The indentation does not change the number of lines. -/
theorem C111_lines (opts : EncOpts) (i : Nat) (v : Json F) :
    (encodeLines { opts with indent := i } v).length = (encodeLines opts v).length := by
  obtain ⟨l, h, _⟩ := C56_one_layout opts.fold opts.flattenDepth (v.mapPrims Prim.plain)
  rw [C98_lines opts v l h, C98_lines { opts with indent := i } v l h]

/-- C111.  Without key folding, indentation costs nothing exactly for values without nesting: those that can be read back when they are
written without indentation (C65). -/
theorem C111_free (opts : EncOpts) (hf : opts.fold = false) (i : Nat) (hi : 0 < i) (v : Json F) :
    (encode { opts with indent := i } v).length = (encode { opts with indent := 0 } v).length ↔ Shallow v := by
  obtain ⟨l, h, _⟩ := C56_one_layout opts.fold opts.flattenDepth (v.mapPrims Prim.plain)
  have hc := C111_cost { opts with indent := i } v l h
  simp only at hc
  rw [hc, ← documentRows_levels opts.delim l]
  rw [hf, ← normalize_plain] at h
  rw [← shallow_normalize v]
  constructor
  · intro h0
    have hz : levelsAdded (l.documentRows opts.delim) = 0 := by
      have : i * levelsAdded (l.documentRows opts.delim) = 0 := by omega
      rcases Nat.mul_eq_zero.mp this with h1 | h1
      · omega
      · exact h1
    rw [levelsAdded_zero] at hz
    by_cases hs : Shallow (normalize v)
    · exact hs
    · obtain ⟨r, hr, h1⟩ := rows_nested h hs opts.delim
      rw [hz r hr] at h1
      exact absurd h1 (by decide)
  · intro hs
    rw [levelsAdded_zero.mpr (rows_shallow h hs opts.delim)]
    simp

omit [F64 F] [LawfulF64 F] in
private theorem chain_levels (p : Prim F) : ∀ (ks : List Str) (depth : Nat),
    2 * (chainLayout ks (.prim p)).levelSum depth (depth + 1) = (ks.length + 1) * (2 * depth + ks.length)
  | [], depth => by simp [chainLayout, Layout.levelSum]
  | k :: ks, depth => by
    have ih := chain_levels p ks (depth + 1)
    simp only [chainLayout, Layout.levelSum, Layout.levelSumEntries, List.length_cons, Nat.mul_add, Nat.add_mul] at ih ⊢
    omega

/-- C111.  Without key folding the cost of objects inside objects is quadratic: a primitive below `n + 1` keys takes `n (n + 1) / 2`
characters for each space of indentation. -/
theorem C111_chain (opts : EncOpts) (hf : opts.fold = false) (k : Str) (ks : List Str) (p : Prim F) :
    2 * (encode opts (nested (k :: ks) (.prim p))).length =
      2 * (encode { opts with indent := 0 } (nested (k :: ks) (.prim p))).length + opts.indent * (ks.length * (ks.length + 1)) := by
  obtain ⟨l, h, _⟩ := C56_one_layout opts.fold opts.flattenDepth ((nested (k :: ks) (.prim p)).mapPrims Prim.plain)
  have hc := C111_cost opts _ l h
  have hn : ∀ ks : List Str, (nested ks (.prim p)).mapPrims Prim.plain = nested ks (.prim p.plain) := by
    intro ks
    induction ks with
    | nil => rfl
    | cons k ks ih => simp only [nested, Json.mapPrims, Json.mapPrimsEntries, ih]
  rw [hf, hn] at h
  obtain ⟨l', _, h', rfl⟩ := nested_chain _ h
  cases h'
  rw [hc]
  have := chain_levels p.plain ks 0
  simp only [chainLayout, Layout.levelTotal, Layout.levelSumEntries, Nat.mul_zero, Nat.zero_add, Nat.add_zero] at this ⊢
  rw [Nat.mul_add, Nat.mul_left_comm, this, Nat.mul_comm (ks.length + 1)]

end

/-! ## Two keys -/

/-- A value with nesting, whose text becomes longer. -/
example : ¬ Shallow (.obj [(['a'], .obj [(['b'], .prim .null)])] : Json B64) ∧
    (encode ⟨4, ',', false, 0⟩ (nested [['a'], ['b']] (.prim .null) : Json B64)).length =
      (encode ⟨0, ',', false, 0⟩ (nested [['a'], ['b']] (.prim .null) : Json B64)).length + 4 := by
  constructor
  · intro h
    simp only [Shallow] at h
    have := h _ List.mem_cons_self
    simp [OneLine, ArePrims] at this
  · have := C111_chain ⟨4, ',', false, 0⟩ rfl ['a'] [['b']] (.null : Prim B64)
    simp only [List.length_cons, List.length_nil] at this
    omega

/-- A value without nesting. -/
example : Shallow (.obj [(['a'], .arr [.prim .null])] : Json B64) := by
  intro e he
  simp only [List.mem_cons, List.not_mem_nil, or_false] at he
  subst he
  exact Or.inr (Or.inl ⟨[.null], by simp [ArePrims]⟩)

end Toon
