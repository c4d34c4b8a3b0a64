import Verif.Lemmas.ComparesExact
import Verif.Lemmas.Float64

/-!
# C87: how many keys encoding compares

`encodeCompares opts stack v` (see `Model/Compares.lean`) is the number of comparisons of one key with another that `encode_lines` makes
in a stack of `stack` calls.  `nodes` is the number of values in a value, `width` the greatest number of entries of an object in it.
-/

namespace Toon

section
variable {F : Type} [F64 F]

/-- C87.  At most two comparisons for every value and every key of the widest object, whatever the options and the stack. -/
theorem C87_bound (opts : EncOpts) (stack : Nat) (v : Json F) : encodeCompares opts stack v ≤ 2 * width v * nodes v :=
  encodeCompares_le stack v

/-- C87.  A table whose rows have the same `w` different keys, in whatever order, takes exactly `w·(w + 1)` comparisons for every row:
every cell is searched twice from the front of its row. -/
theorem C87_table (opts : EncOpts) (columns : List Str) (hn : columns.Nodup) (hc : columns ≠ []) (rows : List (Json F))
    (h : ∀ row ∈ rows, IsRow columns row) (stack : Nat) (hs : 3 ≤ stack) :
    encodeCompares opts stack (.arr rows) = rows.length * (columns.length * (columns.length + 1)) := by
  obtain ⟨s, rfl⟩ : ∃ s, stack = s + 3 := ⟨stack - 3, by omega⟩
  exact table_compares opts hn hc h s

/-- C87.  The factor two cannot be improved: rows with repeated keys, `r + 1` of them of width `w`, come as near to it as one likes. -/
theorem C87_tight (opts : EncOpts) (w r : Nat) (hw : 0 < w) (stack : Nat) (hs : 3 ≤ stack) :
    width (lateRows w r : Json F) = w ∧ nodes (lateRows w r : Json F) = 1 + (r + 1) * (w + 1) ∧
      encodeCompares opts stack (lateRows w r : Json F) = 2 * (w + r * (w * w)) := by
  obtain ⟨s, rfl⟩ : ∃ s, stack = s + 3 := ⟨stack - 3, by omega⟩
  obtain ⟨n, rfl⟩ : ∃ n, w = n + 1 := ⟨w - 1, by omega⟩
  obtain ⟨h1, h2, h3⟩ := late_compares (F := F) opts n r s
  exact ⟨h2, h3, h1⟩

/-- C87.  Key folding compares quadratically, too: an object with `n` keys that each begin a chain compares every folded key with every
key, although nothing stands in the way of folding. -/
theorem C87_siblings (opts : EncOpts) (hf : opts.fold = true) (hd : 2 ≤ opts.flattenDepth) (j : Str) (hj : isIdentifierSegment j = true)
    (keys : List Str) (hk : ∀ k ∈ keys, isIdentifierSegment k = true) (stack : Nat) (hs : 4 ≤ stack) :
    encodeCompares opts stack (.obj (keys.map fun k => (k, .obj [(j, .prim .null)])) : Json F) = keys.length * keys.length := by
  obtain ⟨s, rfl⟩ : ∃ s, stack = s + 4 := ⟨stack - 4, by omega⟩
  exact pairs_compares opts hf hd hj keys hk s

end

/-! ### Examples -/

namespace ComparesExample

def plain : EncOpts := ⟨2, ',', false, 9⟩

def cell (k v : String) : Str × Json B64 := (k.toList, .prim (.str v.toList))

/-- Two rows with three columns, in different orders: twice three times four comparisons. -/
def rows : List (Json B64) := [.obj [cell "a" "1", cell "b" "2", cell "c" "3"], .obj [cell "c" "4", cell "a" "5", cell "b" "6"]]

theorem rows_fit : ∀ row ∈ rows, IsRow ["a".toList, "b".toList, "c".toList] row := by
  intro row h
  simp only [rows, List.mem_cons, List.not_mem_nil, or_false] at h
  rcases h with rfl | rfl
  · refine ⟨_, rfl, .refl _, ?_⟩
    intro e he
    simp only [List.mem_cons, List.not_mem_nil, or_false] at he
    rcases he with rfl | rfl | rfl <;> exact ⟨_, rfl⟩
  · refine ⟨_, rfl, ?_, ?_⟩
    · exact (List.Perm.swap _ _ _).trans ((List.Perm.swap _ _ _).cons _)
    · intro e he
      simp only [List.mem_cons, List.not_mem_nil, or_false] at he
      rcases he with rfl | rfl | rfl <;> exact ⟨_, rfl⟩

example : encodeCompares plain 9 (.arr rows) = 24 :=
  C87_table plain _ (by decide) (by simp) rows rows_fit 9 (by decide)

/-- The same by running the count. -/
example : encodeCompares plain 9 (.arr rows) = 24 ∧ width (.arr rows) = 3 ∧ nodes (.arr rows) = 9 := by decide +kernel

/-- A list that is no table: the test stops at the second row, where `b` is missing. -/
example : encodeCompares plain 9 (.arr [.obj [cell "a" "1", cell "b" "2"], .obj [cell "a" "1", cell "x" "2"]] : Json B64) = 3 + 3 := by
  decide +kernel

/-- With folding: an object that begins no chain is compared with none of its siblings, one that does with both. -/
example : encodeCompares ⟨2, ',', true, 9⟩ 9 (.obj [("k".toList, .obj [cell "a" "1", cell "b" "2"]), cell "l" "1"] : Json B64) = 0 ∧
    encodeCompares ⟨2, ',', true, 9⟩ 9 (.obj [("k".toList, .obj [cell "a" "1"]), cell "l" "1"] : Json B64) = 2 := by
  decide +kernel

end ComparesExample

end Toon
