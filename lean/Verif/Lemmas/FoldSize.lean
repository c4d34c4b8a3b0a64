import Verif.Lemmas.Size
import Verif.Lemmas.LineCount
import Verif.Lemmas.Diff

/-! Folding against not folding, line by line: lemmas for C108. -/

namespace Toon

theorem length_le_keyTextOf (k : Str) : k.length ≤ (keyTextOf k).length := by
  rw [keyTextOf]
  split
  · exact Nat.le_refl _
  · have := flatMap_length_le (f := fun c => [c]) (g := escapedChar) (by
      intro c; rw [escapedChar_eq, escapeChar]; repeat' split
      all_goals simp) k
    simp only [List.flatMap_singleton'] at this
    simp only [quotedText, List.length_cons, List.length_append, List.length_nil]; omega

section
variable {F : Type} [F64 F]

/-! ## Deeper lines are longer -/

theorem rowSize_deeper {i : Nat} {depth depth' : Nat} {t t' : Str} (h : depth ≤ depth') {a b : Nat} (ht : t.length + a ≤ t'.length + b) :
    rowSize i (depth, t) + a ≤ rowSize i (depth', t') + b := by
  have := Nat.mul_le_mul_left i h
  simp only [rowSize]; omega

theorem cellRows_deeper (i : Nat) (d : Char) {inner inner' : Nat} (h : inner ≤ inner') (rows : List (List (Prim F))) :
    rowsSize i (rows.map fun row => (inner, cellsText d row)) ≤ rowsSize i (rows.map fun row => (inner', cellsText d row)) := by
  induction rows with
  | nil => exact Nat.le_refl _
  | cons r rs ih =>
    simp only [List.map_cons, rowsSize_cons]
    have := rowSize_deeper (i := i) h (Nat.le_refl ((cellsText d r).length + 0))
    omega

mutual
theorem entryRows_deeper (i : Nat) (d : Char) (head head' : Str) {depth depth' inner inner' : Nat} (h : depth ≤ depth')
    (h' : inner ≤ inner') : ∀ l : Layout F,
    rowsSize i (l.entryRows d head depth inner) + head'.length ≤ rowsSize i (l.entryRows d head' depth' inner') + head.length
  | .prim p => by
    simp only [Layout.entryRows, rowsSize_cons, rowsSize_nil, rowSize, List.length_append]
    have := Nat.mul_le_mul_left i h
    omega
  | .inline ps => by
    simp only [Layout.entryRows, rowsSize_cons, rowsSize_nil, rowSize, List.length_append]
    have := Nat.mul_le_mul_left i h
    omega
  | .table cols rows => by
    simp only [Layout.entryRows, rowsSize_cons, rowSize, List.length_append]
    have := Nat.mul_le_mul_left i h
    have := cellRows_deeper i d h' rows
    omega
  | .list items => by
    simp only [Layout.entryRows, rowsSize_cons, rowSize, List.length_append]
    have := Nat.mul_le_mul_left i h
    have := itemsRows_deeper i d h' items
    omega
  | .object es => by
    simp only [Layout.entryRows, rowsSize_cons, rowSize, List.length_append]
    have := Nat.mul_le_mul_left i h
    have := entriesRows_deeper i d h' es
    omega
theorem entriesRows_deeper (i : Nat) (d : Char) {depth depth' : Nat} (h : depth ≤ depth') : ∀ es : List (Str × Layout F),
    rowsSize i (Layout.entriesRows d depth es) ≤ rowsSize i (Layout.entriesRows d depth' es)
  | [] => Nat.le_refl _
  | (k, l) :: es => by
    simp only [Layout.entriesRows, rowsSize_append]
    have := entryRows_deeper i d (keyTextOf k) (keyTextOf k) h (Nat.add_le_add_right h 1) l
    have := entriesRows_deeper i d h es
    omega
theorem itemRows_deeper (i : Nat) (d : Char) {depth depth' : Nat} (h : depth ≤ depth') : ∀ l : Layout F,
    rowsSize i (l.itemRows d depth) ≤ rowsSize i (l.itemRows d depth')
  | .prim p => by
    simp only [Layout.itemRows, rowsSize_cons, rowsSize_nil, rowSize]
    have := Nat.mul_le_mul_left i h
    omega
  | .inline ps => by
    simp only [Layout.itemRows, rowsSize_cons, rowsSize_nil, rowSize]
    have := Nat.mul_le_mul_left i h
    omega
  | .table cols rows => by
    simp only [Layout.itemRows, rowsSize_cons, rowSize]
    have := Nat.mul_le_mul_left i h
    have := cellRows_deeper i d (Nat.add_le_add_right h 1) rows
    omega
  | .list items => by
    simp only [Layout.itemRows, rowsSize_cons, rowSize]
    have := Nat.mul_le_mul_left i h
    have := itemsRows_deeper i d (Nat.add_le_add_right h 1) items
    omega
  | .object [] => by
    simp only [Layout.itemRows, rowsSize_cons, rowsSize_nil, rowSize]
    have := Nat.mul_le_mul_left i h
    omega
  | .object ((k, l) :: es) => by
    simp only [Layout.itemRows, rowsSize_append]
    have := entryRows_deeper i d ('-' :: ' ' :: keyTextOf k) ('-' :: ' ' :: keyTextOf k) h (Nat.add_le_add_right h 2) l
    have := entriesRows_deeper i d (Nat.add_le_add_right h 1) es
    omega
theorem itemsRows_deeper (i : Nat) (d : Char) {depth depth' : Nat} (h : depth ≤ depth') : ∀ ls : List (Layout F),
    rowsSize i (Layout.itemsRows d depth ls) ≤ rowsSize i (Layout.itemsRows d depth' ls)
  | [] => Nat.le_refl _
  | l :: ls => by
    simp only [Layout.itemsRows, rowsSize_append]
    have := itemRows_deeper i d h l
    have := itemsRows_deeper i d h ls
    omega
end

/-- One level deeper, the first line has the indentation of one level more. -/
theorem entryRows_level (i : Nat) (d : Char) (head : Str) (depth : Nat) (l : Layout F) :
    rowsSize i (l.entryRows d head depth (depth + 1)) + i ≤ rowsSize i (l.entryRows d head (depth + 1) (depth + 1 + 1)) := by
  have hm : i * (depth + 1) = i * depth + i := by rw [Nat.mul_add, Nat.mul_one]
  have hd : depth + 1 ≤ depth + 1 + 1 := by omega
  cases l with
  | prim p => simp only [Layout.entryRows, rowsSize_cons, rowsSize_nil, rowSize, hm]; omega
  | inline ps => simp only [Layout.entryRows, rowsSize_cons, rowsSize_nil, rowSize, hm]; omega
  | table cols rows =>
    have := cellRows_deeper i d hd rows
    simp only [Layout.entryRows, rowsSize_cons, rowSize, hm]; omega
  | list items =>
    have := itemsRows_deeper i d hd items
    simp only [Layout.entryRows, rowsSize_cons, rowSize, hm]; omega
  | object es =>
    have := entriesRows_deeper i d hd es
    simp only [Layout.entryRows, rowsSize_cons, rowSize, hm]; omega

/-! ## A chain of keys -/

/-- Objects of one entry each, not folded. -/
def chainLayout : List Str → Layout F → Layout F
  | [], l => l
  | k :: ks, l => .object [(k, chainLayout ks l)]

omit [F64 F] in
theorem chainLayout_lines (l : Layout F) : ∀ ks : List Str, (chainLayout ks l).lines = ks.length + l.lines
  | [] => by simp [chainLayout]
  | k :: ks => by
    simp only [chainLayout, Layout.lines, Layout.entriesLines, chainLayout_lines l ks, List.length_cons]
    omega

/-- The length of `.k` for each key. -/
def dotsLength (ks : List Str) : Nat := (ks.map fun k => 1 + k.length).sum

theorem dotted_size (k : Str) (ks : List Str) : (dotted (k :: ks)).length = k.length + dotsLength ks := by
  induction ks generalizing k with
  | nil => simp [dotted, dotsLength]
  | cons k' ks ih =>
    have := ih k'
    rw [dotted]
    · simp only [List.length_append, List.length_cons, this, dotsLength, List.map_cons, List.sum_cons]
      omega
    · simp

theorem chain_size (i : Nat) (d : Char) (l : Layout F) (H : Str) : ∀ (ks : List Str) (h : Str) (depth : Nat),
    rowsSize i (l.entryRows d H depth (depth + 1)) + ks.length * (i + 1) + h.length + dotsLength ks ≤
      rowsSize i ((chainLayout ks l).entryRows d h depth (depth + 1)) + H.length
  | [], h, depth => by
    have := entryRows_deeper i d H h (Nat.le_refl depth) (Nat.le_refl (depth + 1)) l
    simp only [chainLayout, dotsLength, List.map_nil, List.sum_nil, List.length_nil, Nat.zero_mul]
    omega
  | k :: ks, h, depth => by
    have h1 := chain_size i d l H ks (keyTextOf k) (depth + 1)
    have h2 := entryRows_level i d H depth l
    have h3 := length_le_keyTextOf k
    simp only [chainLayout, Layout.entryRows, Layout.entriesRows, rowsSize_cons, rowsSize_append, rowsSize_nil, rowSize,
      List.length_append, List.length_cons, List.length_nil, dotsLength, List.map_cons, List.sum_cons, Nat.add_mul, Nat.one_mul]
      at h1 h2 ⊢
    omega

omit [F64 F] in
theorem nested_chain {n : Nat} {leaf : Json F} : ∀ (ks : List Str) {taken path : List Str} {fd : Nat} {l : Layout F},
    ValueLayout false n taken path fd (nested ks leaf) l →
    ∃ l' path', ValueLayout false n taken path' fd leaf l' ∧ l = chainLayout ks l'
  | [], _, path, _, l, h => ⟨l, path, h, rfl⟩
  | k :: ks, _, _, _, _, h => by
    cases h with
    | object h1 => cases h1 with
      | folded g1 => exact absurd g1 (by decide)
      | plain _ g2 g3 =>
        cases g3
        obtain ⟨l', p', e1, e2⟩ := nested_chain ks g2
        exact ⟨l', p', e1, by rw [chainLayout, e2]⟩

/-! ## The comparison -/

/-- A layout with `s` rows less, and at least so many characters less for each of them, under any key and at any level. -/
def Saves (s : Nat) (l l' : Layout F) : Prop :=
  (∀ (i : Nat) (d : Char) (head : Str) (depth inner : Nat),
    rowsSize i (l.entryRows d head depth inner) + s * (i + 1) ≤ rowsSize i (l'.entryRows d head depth inner)) ∧ l.lines + s = l'.lines ∧
    (s = 0 → l = l')

def SavesEntries (s : Nat) (ls ls' : List (Str × Layout F)) : Prop :=
  (∀ (i : Nat) (d : Char) (depth : Nat),
    rowsSize i (Layout.entriesRows d depth ls) + s * (i + 1) ≤ rowsSize i (Layout.entriesRows d depth ls')) ∧
    Layout.entriesLines ls + s = Layout.entriesLines ls' ∧ (s = 0 → ls = ls')

def SavesItem (s : Nat) (l l' : Layout F) : Prop :=
  (∀ (i : Nat) (d : Char) (depth : Nat), rowsSize i (l.itemRows d depth) + s * (i + 1) ≤ rowsSize i (l'.itemRows d depth)) ∧
    l.itemLines + s = l'.itemLines ∧ (s = 0 → l = l')

def SavesItems (s : Nat) (ls ls' : List (Layout F)) : Prop :=
  ls.length = ls'.length ∧
  (∀ (i : Nat) (d : Char) (depth : Nat),
    rowsSize i (Layout.itemsRows d depth ls) + s * (i + 1) ≤ rowsSize i (Layout.itemsRows d depth ls')) ∧
    Layout.itemsLines ls + s = Layout.itemsLines ls' ∧ (s = 0 → ls = ls')

theorem Saves.same (l : Layout F) : Saves 0 l l := ⟨fun _ _ _ _ _ => by simp, rfl, fun _ => rfl⟩

theorem SavesItem.same (l : Layout F) : SavesItem 0 l l := ⟨fun _ _ _ => by simp, rfl, fun _ => rfl⟩

theorem folded_saves {k : Str} {ks : List Str} (hid : ∀ s ∈ k :: ks, identifier s = true) (l : Layout F) {l' : Layout F} {s : Nat}
    (h : Saves s l l') : (∀ (i : Nat) (d : Char) (depth : Nat),
      rowsSize i (l.entryRows d (keyTextOf (dotted (k :: ks))) depth (depth + 1)) + (s + ks.length) * (i + 1) ≤
        rowsSize i ((chainLayout ks l').entryRows d (keyTextOf k) depth (depth + 1))) ∧
      l.lines + (s + ks.length) = (chainLayout ks l').lines := by
  constructor
  · intro i d depth
    have h1 := chain_size i d l' (keyTextOf (dotted (k :: ks))) ks (keyTextOf k) depth
    have hb : keyTextOf (dotted (k :: ks)) = dotted (k :: ks) := by
      rw [keyTextOf, if_pos (dotted_bareKey k ks hid)]
    have h2 := dotted_size k ks
    have h3 := length_le_keyTextOf k
    have h4 := h.1 i d (keyTextOf (dotted (k :: ks))) depth (depth + 1)
    rw [hb] at h1 h4 ⊢
    rw [Nat.add_mul]
    omega
  · rw [chainLayout_lines]
    have := h.2.1; omega

mutual

theorem value_saves {n n' : Nat} {taken path taken' path' : List Str} {fd fd' : Nat} (v : Json F) {l l' : Layout F}
    (h : ValueLayout true n taken path fd v l) (h' : ValueLayout false n' taken' path' fd' v l') : ∃ s, Saves s l l' := by
  match v with
  | .prim p => cases h; cases h'; exact ⟨0, .same _⟩
  | .arr items =>
    cases h with
    | inline h1 => cases h' with
      | inline g1 => rw [arePrims_unique h1 g1]; exact ⟨0, .same _⟩
      | table g1 _ => exact absurd ⟨_, h1⟩ (table_not_prims g1)
      | list g1 _ _ => exact absurd ⟨_, h1⟩ g1
    | table h1 h2 => cases h' with
      | inline g1 => exact absurd ⟨_, g1⟩ (table_not_prims h1)
      | table g1 g2 =>
        obtain rfl := isTable_unique h1 g1
        rw [tableCells_unique h2 g2]; exact ⟨0, .same _⟩
      | list _ g2 _ => exact absurd ⟨_, h1⟩ g2
    | list h1 h2 h3 => cases h' with
      | inline g1 => exact absurd ⟨_, g1⟩ h1
      | table g1 _ => exact absurd ⟨_, g1⟩ h2
      | list _ _ g3 =>
        obtain ⟨s, e0, e1, e2, e3⟩ := items_saves items h3 g3
        refine ⟨s, fun i d head depth inner => ?_, ?_, fun h0 => by rw [e3 h0]⟩
        · have := e1 i d inner
          simp only [Layout.entryRows, rowsSize_cons, e0]; omega
        · simp only [Layout.lines]; omega
  | .obj es =>
    cases h with
    | object h1 => cases h' with
      | object g1 =>
        obtain ⟨s, e1, e2, e3⟩ := entries_saves es h1 g1
        refine ⟨s, fun i d head depth inner => ?_, ?_, fun h0 => by rw [e3 h0]⟩
        · have := e1 i d inner
          simp only [Layout.entryRows, rowsSize_cons]; omega
        · simp only [Layout.lines]; omega
termination_by sizeOf v

theorem entries_saves {n n' : Nat} {siblings taken path siblings' taken' path' : List Str} {fd fd' : Nat} (es : List (Str × Json F))
    {ls ls' : List (Str × Layout F)} (h : EntriesLayout true n siblings taken path fd es ls)
    (h' : EntriesLayout false n' siblings' taken' path' fd' es ls') : ∃ s, SavesEntries s ls ls' := by
  match es with
  | [] => cases h; cases h'; exact ⟨0, fun _ _ _ => by simp, rfl, fun _ => rfl⟩
  | (k, v) :: es =>
    cases h with
    | @folded _ _ _ _ _ _ ks leaf l _ ls h1 h2 h3 h4 => cases h' with
      | folded g1 g2 g3 g4 => exact absurd g1 (by decide)
      | plain _ g2 g3 =>
        have hlt : sizeOf leaf < sizeOf v := by
          have := nested_size ks leaf h2.2.1
          rw [← h2.1.1] at this; exact this
        rw [h2.1.1] at g2
        obtain ⟨l'', p', e1, e2⟩ := nested_chain ks g2
        obtain ⟨s, e3⟩ := value_saves leaf h3 e1
        obtain ⟨e4, e5⟩ := folded_saves h2.2.2.1 l e3
        obtain ⟨s', e6, e7, e8⟩ := entries_saves es h4 g3
        have hpos : 0 < ks.length := List.length_pos_iff.mpr h2.2.1
        rw [e2]
        refine ⟨s + ks.length + s', fun i d depth => ?_, ?_, fun h0 => by omega⟩
        · have := e4 i d depth
          have := e6 i d depth
          simp only [Layout.entriesRows, rowsSize_append]
          rw [Nat.add_mul (s + ks.length)]
          omega
        · simp only [Layout.entriesLines]; omega
    | plain h1 h2 h3 => cases h' with
      | folded g1 g2 _ _ => exact absurd g1 (by decide)
      | plain _ g2 g3 =>
        obtain ⟨s, e1, e2, e3⟩ := value_saves v h2 g2
        obtain ⟨s', e6, e7, e8⟩ := entries_saves es h3 g3
        refine ⟨s + s', fun i d depth => ?_, ?_, fun h0 => by rw [e3 (by omega), e8 (by omega)]⟩
        · have := e1 i d (keyTextOf k) depth (depth + 1)
          have := e6 i d depth
          simp only [Layout.entriesRows, rowsSize_append]
          rw [Nat.add_mul s]
          omega
        · simp only [Layout.entriesLines]; omega
termination_by sizeOf es

theorem item_saves {n n' : Nat} (v : Json F) {l l' : Layout F}
    (h : ItemLayout true n v l) (h' : ItemLayout false n' v l') : ∃ s, SavesItem s l l' := by
  match v with
  | .prim p => cases h; cases h'; exact ⟨0, .same _⟩
  | .arr items =>
    cases h with
    | inline h1 => cases h' with
      | inline g1 => rw [arePrims_unique h1 g1]; exact ⟨0, .same _⟩
      | list g1 _ => exact absurd ⟨_, h1⟩ g1
    | list h1 h2 => cases h' with
      | inline g1 => exact absurd ⟨_, g1⟩ h1
      | list _ g2 =>
        obtain ⟨s, e0, e1, e2, e3⟩ := items_saves items h2 g2
        refine ⟨s, fun i d depth => ?_, ?_, fun h0 => by rw [e3 h0]⟩
        · have := e1 i d (depth + 1)
          simp only [Layout.itemRows, rowsSize_cons, e0]; omega
        · simp only [Layout.itemLines]; omega
  | .obj [] => cases h; cases h'; exact ⟨0, .same _⟩
  | .obj ((k, v) :: es) =>
    cases h with
    | object h1 h2 => cases h' with
      | object g1 g2 =>
        obtain ⟨s, e1, e2, e3⟩ := value_saves v h1 g1
        obtain ⟨s', e6, e7, e8⟩ := entries_saves es h2 g2
        refine ⟨s + s', fun i d depth => ?_, ?_, fun h0 => by rw [e3 (by omega), e8 (by omega)]⟩
        · have := e1 i d ('-' :: ' ' :: keyTextOf k) depth (depth + 2)
          have := e6 i d (depth + 1)
          simp only [Layout.itemRows, rowsSize_append]
          rw [Nat.add_mul s]
          omega
        · simp only [Layout.itemLines, Layout.entriesLines, List.isEmpty_cons, if_neg Bool.false_ne_true]; omega
termination_by sizeOf v

theorem items_saves {n n' : Nat} (vs : List (Json F)) {ls ls' : List (Layout F)}
    (h : ItemsLayout true n vs ls) (h' : ItemsLayout false n' vs ls') : ∃ s, SavesItems s ls ls' := by
  match vs with
  | [] => cases h; cases h'; exact ⟨0, rfl, fun _ _ _ => by simp, rfl, fun _ => rfl⟩
  | v :: vs =>
    cases h with
    | cons h1 h2 => cases h' with
      | cons g1 g2 =>
        obtain ⟨s, e1, e2, e3⟩ := item_saves v h1 g1
        obtain ⟨s', e5, e6, e7, e8⟩ := items_saves vs h2 g2
        refine ⟨s + s', by simp [e5], fun i d depth => ?_, ?_, fun h0 => by rw [e3 (by omega), e8 (by omega)]⟩
        · have := e1 i d depth
          have := e6 i d depth
          simp only [Layout.itemsRows, rowsSize_append]
          rw [Nat.add_mul s]
          omega
        · simp only [Layout.itemsLines]; omega
termination_by sizeOf vs

end

theorem document_saves {n n' : Nat} {v : Json F} {l l' : Layout F} (h : DocumentLayout true n v l) (h' : DocumentLayout false n' v l') :
    ∃ s, (∀ (i : Nat) (d : Char), rowsSize i (l.documentRows d) + s * (i + 1) ≤ rowsSize i (l'.documentRows d)) ∧
      l.documentLines + s = l'.documentLines ∧ (s = 0 → l = l') := by
  cases v with
  | prim p => cases h; cases h'; exact ⟨0, fun _ _ => by simp, rfl, fun _ => rfl⟩
  | obj es =>
    cases h with
    | object h1 => cases h' with
      | object g1 =>
        obtain ⟨s, e1, e2, e3⟩ := entries_saves es h1 g1
        exact ⟨s, fun i d => e1 i d 0, e2, fun h0 => by rw [e3 h0]⟩
  | arr items =>
    obtain ⟨s, e1, e2, e3⟩ := value_saves _ h h'
    have hl : ∀ {b : Bool} {m : Nat} {t p : List Str} {q : Nat} {x : Layout F}, ValueLayout b m t p q (.arr items) x →
        (∀ d, x.documentRows d = x.entryRows d [] 0 1) ∧ x.documentLines = x.lines := by
      intro b m t p q x hx
      cases hx <;> exact ⟨fun _ => rfl, rfl⟩
    obtain ⟨a1, a2⟩ := hl h
    obtain ⟨b1, b2⟩ := hl h'
    exact ⟨s, fun i d => by rw [a1, b1]; exact e1 i d [] 0 1, by rw [a2, b2]; exact e2, e3⟩

end

end Toon
