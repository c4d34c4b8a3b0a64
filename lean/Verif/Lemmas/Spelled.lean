import Verif.Lemmas.Mentions
import Verif.Lemmas.Readings

/-! # Every primitive is a word of a row (C115) -/

namespace Toon

variable {F : Type}

/-- A row has the word in it. -/
def FoundWord (n : Str) (rows : List Row) : Prop := ∃ r ∈ rows, WordOf n r.2

theorem FoundWord.left {n : Str} {a : List Row} (b : List Row) (h : FoundWord n a) : FoundWord n (a ++ b) := by
  obtain ⟨r, hr, h⟩ := h; exact ⟨r, List.mem_append_left _ hr, h⟩

theorem FoundWord.right {n : Str} (a : List Row) {b : List Row} (h : FoundWord n b) : FoundWord n (a ++ b) := by
  obtain ⟨r, hr, h⟩ := h; exact ⟨r, List.mem_append_right _ hr, h⟩

theorem FoundWord.tail {n : Str} (r : Row) {b : List Row} (h : FoundWord n b) : FoundWord n (r :: b) := by
  obtain ⟨x, hr, h⟩ := h; exact ⟨x, List.mem_cons_of_mem _ hr, h⟩

theorem FoundWord.head {n : Str} {r : Row} (b : List Row) (h : WordOf n r.2) : FoundWord n (r :: b) := ⟨r, List.mem_cons_self, h⟩

/-- What follows a colon and a space. -/
theorem colon_word (a w : Str) : WordOf w (a ++ ':' :: ' ' :: w) :=
  (wordOf_end (a := [' ']) (by intro c hc; simp at hc; subst hc; exact Or.inl (by decide))).trans (after_colon a (' ' :: w))

theorem separated_word {n : Str} {d : Char} (hd : d ∈ [',', '|', '\t']) : ∀ ws : List Str, n ∈ ws → WordOf n (separated d ws)
  | [x], h => by
    simp only [List.mem_cons, List.not_mem_nil, or_false] at h
    subst h; exact WordOf.self _
  | x :: x' :: ws, h => by
    rw [separated]
    · rcases List.mem_cons.mp h with rfl | h
      · exact ⟨[], d :: separated d (x' :: ws), by simp, by simp,
          fun c hc => Or.inr (by simp only [List.head?_cons, Option.some.injEq] at hc; exact hc ▸ hd)⟩
      · refine (separated_word hd (x' :: ws) h).trans ?_
        have := wordOf_end (a := x ++ [d]) (w := separated d (x' :: ws)) (by
          intro c hc
          simp only [List.getLast?_append, List.getLast?_singleton, Option.some_or, Option.some.injEq] at hc
          exact Or.inr (List.mem_cons_of_mem _ (hc ▸ hd)))
        simpa using this
    · simp

theorem containsItems_mem {p : Prim F} {vs : List (Json F)} (h : ContainsItems p vs) : ∃ v ∈ vs, Contains p v := by
  induction vs with
  | nil => exact h.elim
  | cons v vs ih =>
    rcases h with h | h
    · exact ⟨v, List.mem_cons_self, h⟩
    · obtain ⟨w, hw, h⟩ := ih h
      exact ⟨w, List.mem_cons_of_mem _ hw, h⟩

theorem containsEntries_mem {p : Prim F} {es : List (Str × Json F)} (h : ContainsEntries p es) : ∃ e ∈ es, Contains p e.2 := by
  induction es with
  | nil => exact h.elim
  | cons e es ih =>
    obtain ⟨k, v⟩ := e
    rcases h with h | h
    · exact ⟨_, List.mem_cons_self, h⟩
    · obtain ⟨w, hw, h⟩ := ih h
      exact ⟨w, List.mem_cons_of_mem _ hw, h⟩

theorem contains_nested {p : Prim F} {leaf : Json F} : ∀ ks : List Str, Contains p (nested ks leaf) → Contains p leaf
  | [], h => h
  | k :: ks, h => by
    simp only [nested, Contains, ContainsEntries, or_false] at h
    exact contains_nested ks h

/-- Every primitive of a table is in a cell. -/
theorem table_contains {p : Prim F} {items : List (Json F)} {cols : List Str} {rows : List (List (Prim F))} (ht : IsTable items cols)
    (hr : TableCells cols items rows) (hd : DistinctKeysItems items) (h : ContainsItems p items) : ∃ row ∈ rows, p ∈ row := by
  obtain ⟨_, ⟨es₀, rest, hi, hk⟩, hall⟩ := ht
  have hc : cols.Nodup := by
    rw [← hk]
    exact (distinctItems_mem hd (v := .obj es₀) (by rw [hi]; exact List.mem_cons_self)).1
  clear hi hd
  unfold TableCells at hr
  induction hr with
  | nil => exact h.elim
  | @cons item row items rows h1 h2 ih =>
    rcases h with h | h
    · obtain ⟨es, rfl, hcells⟩ := h1
      obtain ⟨es', he, hl, _⟩ := hall _ List.mem_cons_self
      injection he with he
      subst he
      have hp := cells_perm hc hl hcells
      obtain ⟨e, hm, he⟩ := containsEntries_mem h
      obtain ⟨_, q, h4, h5⟩ := zipRow_cell (hp.mem_iff.mpr hm)
      rw [h5] at he
      simp only [Contains] at he
      subst he
      exact ⟨row, List.mem_cons_self, h4⟩
    · obtain ⟨r, hm, h⟩ := ih h (fun item hm => hall item (List.mem_cons_of_mem _ hm))
      exact ⟨r, List.mem_cons_of_mem _ hm, h⟩

theorem prims_contains {p : Prim F} {items : List (Json F)} {ps : List (Prim F)} (h : ArePrims items ps) (hm : ContainsItems p items) :
    p ∈ ps := by
  obtain ⟨v, hv, h1⟩ := containsItems_mem hm
  rw [h] at hv
  obtain ⟨q, hq, rfl⟩ := List.mem_map.mp hv
  simp only [Contains] at h1
  rwa [← h1]

section
variable [F64 F] {d : Char} (hd : d ∈ [',', '|', '\t'])
include hd

theorem cellsText_word {p : Prim F} {ps : List (Prim F)} (hm : p ∈ ps) : WordOf (tokenText d p) (cellsText d ps) :=
  separated_word hd _ (List.mem_map_of_mem hm)

theorem inlineText_word {p : Prim F} {ps : List (Prim F)} (hm : p ∈ ps) (head : Str) : WordOf (tokenText d p) (head ++ inlineText d ps) := by
  have : ps.isEmpty = false := by
    cases ps with
    | nil => cases hm
    | cons _ _ => rfl
  rw [inlineText, this]
  have := (cellsText_word hd hm).trans (colon_word (head ++ lengthMark d ps.length) (cellsText d ps))
  simpa using this

mutual

theorem value_spelled {p : Prim F} {fold : Bool} {n : Nat} {taken path : List Str} {fd : Nat} (v : Json F) {l : Layout F}
    (h : ValueLayout fold n taken path fd v l) (hk : DistinctKeys v) (hm : Contains p v) (head : Str) (depth inner : Nat) :
    FoundWord (tokenText d p) (l.entryRows d head depth inner) := by
  match v with
  | .prim q =>
    cases h
    simp only [Contains] at hm
    subst hm
    exact FoundWord.head _ (colon_word _ _)
  | .arr items =>
    cases h with
    | inline h1 => exact FoundWord.head _ (inlineText_word hd (prims_contains h1 hm) _)
    | table h1 h2 =>
      rw [Layout.entryRows]
      obtain ⟨row, h3, h4⟩ := table_contains h1 h2 hk hm
      exact FoundWord.tail _ ⟨_, List.mem_map_of_mem h3, cellsText_word hd h4⟩
    | list h1 h2 h3 =>
      rw [Layout.entryRows]
      exact FoundWord.tail _ (items_spelled items h3 hk hm inner)
  | .obj es =>
    cases h with
    | object h1 =>
      rw [Layout.entryRows]
      exact FoundWord.tail _ (entries_spelled es h1 hk.2 hm inner)
termination_by sizeOf v

theorem entries_spelled {p : Prim F} {fold : Bool} {n : Nat} {siblings taken path : List Str} {fd : Nat}
    (es : List (Str × Json F)) {ls : List (Str × Layout F)} (h : EntriesLayout fold n siblings taken path fd es ls)
    (hk : DistinctKeysEntries es) (hm : ContainsEntries p es) (depth : Nat) :
    FoundWord (tokenText d p) (Layout.entriesRows d depth ls) := by
  match es with
  | [] => exact hm.elim
  | (k, v) :: es =>
    cases h with
    | @folded _ _ _ _ _ _ ks leaf l _ ls h1 h2 h3 h4 =>
      have hlt : sizeOf leaf < sizeOf v := by
        have := nested_size ks leaf h2.2.1
        rw [← h2.1.1] at this; exact this
      have hv := h2.1.1
      rw [Layout.entriesRows]
      rcases hm with hm | hm
      · exact (value_spelled leaf h3 (nested_distinct' ks (by rw [← hv]; exact hk.1)) (contains_nested ks (by rw [← hv]; exact hm)) _ _ _).left _
      · exact (entries_spelled es h4 hk.2 hm depth).right _
    | plain h1 h2 h3 =>
      rw [Layout.entriesRows]
      rcases hm with hm | hm
      · exact (value_spelled v h2 hk.1 hm _ _ _).left _
      · exact (entries_spelled es h3 hk.2 hm depth).right _
termination_by sizeOf es

theorem item_spelled {p : Prim F} {fold : Bool} {n : Nat} (v : Json F) {l : Layout F} (h : ItemLayout fold n v l)
    (hk : DistinctKeys v) (hm : Contains p v) (depth : Nat) : FoundWord (tokenText d p) (l.itemRows d depth) := by
  match v with
  | .prim q =>
    cases h
    simp only [Contains] at hm
    subst hm
    rw [Layout.itemRows]
    exact FoundWord.head _ (item_word _)
  | .arr items =>
    cases h with
    | inline h1 =>
      rw [Layout.itemRows]
      exact FoundWord.head _ (inlineText_word hd (prims_contains h1 hm) ['-', ' '])
    | list h1 h2 =>
      rw [Layout.itemRows]
      exact FoundWord.tail _ (items_spelled items h2 hk hm _)
  | .obj [] => exact hm.elim
  | .obj ((k, v) :: es) =>
    cases h with
    | object h1 h2 =>
      rw [Layout.itemRows]
      rcases hm with hm | hm
      · exact (value_spelled v h1 hk.2.1 hm _ _ _).left _
      · exact (entries_spelled es h2 hk.2.2 hm _).right _
termination_by sizeOf v

theorem items_spelled {p : Prim F} {fold : Bool} {n : Nat} (vs : List (Json F)) {ls : List (Layout F)}
    (h : ItemsLayout fold n vs ls) (hk : DistinctKeysItems vs) (hm : ContainsItems p vs) (depth : Nat) :
    FoundWord (tokenText d p) (Layout.itemsRows d depth ls) := by
  match vs with
  | [] => exact hm.elim
  | v :: vs =>
    cases h with
    | cons h1 h2 =>
      rw [Layout.itemsRows]
      rcases hm with hm | hm
      · exact (item_spelled v h1 hk.1 hm depth).left _
      · exact (items_spelled vs h2 hk.2 hm depth).right _
termination_by sizeOf vs

end

theorem document_spelled {p : Prim F} {fold : Bool} {n : Nat} {v : Json F} {l : Layout F} (h : DocumentLayout fold n v l)
    (hk : DistinctKeys v) (hm : Contains p v) : FoundWord (tokenText d p) (l.documentRows d) := by
  unfold DocumentLayout at h
  match v, l, h with
  | .prim q, _, .prim _ =>
    simp only [Contains] at hm
    subst hm
    exact FoundWord.head _ (WordOf.self _)
  | .obj es, _, .object h1 => exact entries_spelled hd es h1 hk.2 hm 0
  | .arr items, .inline _, h => exact value_spelled hd _ h hk hm [] 0 1
  | .arr items, .table _ _, h => exact value_spelled hd _ h hk hm [] 0 1
  | .arr items, .list _, h => exact value_spelled hd _ h hk hm [] 0 1

end

mutual
theorem contains_mapPrims {p : Prim F} (f : Prim F → Prim F) (v : Json F) (h : Contains p v) : Contains (f p) (v.mapPrims f) := by
  match v with
  | .prim q =>
    simp only [Contains] at h
    subst h
    exact rfl
  | .arr items => exact containsItems_mapPrims f items h
  | .obj es => exact containsEntries_mapPrims f es h
theorem containsItems_mapPrims {p : Prim F} (f : Prim F → Prim F) (vs : List (Json F)) (h : ContainsItems p vs) :
    ContainsItems (f p) (Json.mapPrimsItems f vs) := by
  match vs with
  | [] => exact h
  | v :: vs => exact h.imp (contains_mapPrims f v) (containsItems_mapPrims f vs)
theorem containsEntries_mapPrims {p : Prim F} (f : Prim F → Prim F) (es : List (Str × Json F)) (h : ContainsEntries p es) :
    ContainsEntries (f p) (Json.mapPrimsEntries f es) := by
  match es with
  | [] => exact h
  | (k, v) :: es => exact h.imp (contains_mapPrims f v) (containsEntries_mapPrims f es)
end

end Toon
