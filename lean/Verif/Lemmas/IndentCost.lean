import Verif.Spec.IndentCost
import Verif.Lemmas.Size

/-! # What indentation costs, row by row -/

namespace Toon

/-- The sum of the levels of rows. -/
def levelsAdded (rs : List Row) : Nat := (rs.map Prod.fst).sum

theorem levelsAdded_append (a b : List Row) : levelsAdded (a ++ b) = levelsAdded a + levelsAdded b := by simp [levelsAdded]

theorem levelsAdded_cons (r : Row) (b : List Row) : levelsAdded (r :: b) = r.1 + levelsAdded b := by simp [levelsAdded]

theorem levelsAdded_zero {rs : List Row} : levelsAdded rs = 0 ↔ ∀ r ∈ rs, r.1 = 0 := by
  induction rs with
  | nil => simp [levelsAdded]
  | cons r rs ih => rw [levelsAdded_cons, Nat.add_eq_zero_iff, ih, List.forall_mem_cons]

theorem rowsSize_indent (i : Nat) (rs : List Row) : rowsSize i rs = rowsSize 0 rs + i * levelsAdded rs := by
  induction rs with
  | nil => rfl
  | cons r rs ih =>
    rw [rowsSize_cons, rowsSize_cons, levelsAdded_cons, ih, Nat.mul_add, rowSize, rowSize, Nat.zero_mul]
    omega

section
variable {F : Type} [F64 F]

theorem cellRows_levels (d : Char) (inner : Nat) (rows : List (List (Prim F))) :
    levelsAdded (rows.map fun row => (inner, cellsText d row)) = rows.length * inner := by
  induction rows with
  | nil => simp [levelsAdded]
  | cons r rs ih => rw [List.map_cons, levelsAdded_cons, ih, List.length_cons, Nat.add_mul]; omega

mutual
theorem entryRows_levels (d : Char) (head : Str) (depth inner : Nat) : ∀ l : Layout F,
    levelsAdded (l.entryRows d head depth inner) = l.levelSum depth inner
  | .prim p => by simp [Layout.entryRows, Layout.levelSum, levelsAdded]
  | .inline ps => by simp [Layout.entryRows, Layout.levelSum, levelsAdded]
  | .table cols rows => by rw [Layout.entryRows, Layout.levelSum, levelsAdded_cons, cellRows_levels]
  | .list items => by rw [Layout.entryRows, Layout.levelSum, levelsAdded_cons, itemsRows_levels]
  | .object es => by rw [Layout.entryRows, Layout.levelSum, levelsAdded_cons, entriesRows_levels]
theorem entriesRows_levels (d : Char) (depth : Nat) : ∀ es : List (Str × Layout F),
    levelsAdded (Layout.entriesRows d depth es) = Layout.levelSumEntries depth es
  | [] => rfl
  | (k, l) :: es => by rw [Layout.entriesRows, Layout.levelSumEntries, levelsAdded_append, entryRows_levels, entriesRows_levels]
theorem itemRows_levels (d : Char) (depth : Nat) : ∀ l : Layout F, levelsAdded (l.itemRows d depth) = l.levelSumItem depth
  | .prim p => by simp [Layout.itemRows, Layout.levelSumItem, levelsAdded]
  | .inline ps => by simp [Layout.itemRows, Layout.levelSumItem, levelsAdded]
  | .table cols rows => by rw [Layout.itemRows, Layout.levelSumItem, levelsAdded_cons, cellRows_levels]
  | .list items => by rw [Layout.itemRows, Layout.levelSumItem, levelsAdded_cons, itemsRows_levels]
  | .object [] => by simp [Layout.itemRows, Layout.levelSumItem, levelsAdded]
  | .object ((k, l) :: es) => by
    rw [Layout.itemRows, Layout.levelSumItem, levelsAdded_append, entryRows_levels, entriesRows_levels]
theorem itemsRows_levels (d : Char) (depth : Nat) : ∀ ls : List (Layout F),
    levelsAdded (Layout.itemsRows d depth ls) = Layout.levelSumItems depth ls
  | [] => rfl
  | l :: ls => by rw [Layout.itemsRows, Layout.levelSumItems, levelsAdded_append, itemRows_levels, itemsRows_levels]
end

theorem documentRows_levels (d : Char) (l : Layout F) : levelsAdded (l.documentRows d) = l.levelTotal := by
  cases l with
  | prim p => simp [Layout.documentRows, Layout.levelTotal, Layout.levelSum, levelsAdded]
  | object es => exact entriesRows_levels d 0 es
  | inline ps => exact entryRows_levels d [] 0 1 _
  | table cols rows => exact entryRows_levels d [] 0 1 _
  | list items => exact entryRows_levels d [] 0 1 _

theorem written_levels (i : Nat) (d : Char) (l : Layout F) :
    (separated '\n' ((l.documentRows d).map (rowText i))).length =
      (separated '\n' ((l.documentRows d).map (rowText 0))).length + i * l.levelTotal := by
  have key := rowsSize_indent i (l.documentRows d)
  rw [documentRows_levels] at key
  by_cases h : l.documentRows d = []
  · rw [h, rowsSize_nil, rowsSize_nil] at key
    rw [h]
    simp only [List.map_nil, separated, List.length_nil]
    omega
  · have a := separated_rows i _ h
    have b := separated_rows 0 _ h
    omega

end

end Toon
