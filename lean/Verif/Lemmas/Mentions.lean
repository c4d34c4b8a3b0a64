import Verif.Spec.Mentions
import Verif.Lemmas.DelimiterCost

/-! # Every string is found in the rows -/

namespace Toon

variable {F : Type}

/-- A row has the text in it. -/
def Found (n : Str) (rows : List Row) : Prop := ∃ r ∈ rows, n <:+: r.2

theorem Found.left {n : Str} {a : List Row} (b : List Row) (h : Found n a) : Found n (a ++ b) := by
  obtain ⟨r, hr, h⟩ := h; exact ⟨r, List.mem_append_left _ hr, h⟩

theorem Found.right {n : Str} (a : List Row) {b : List Row} (h : Found n b) : Found n (a ++ b) := by
  obtain ⟨r, hr, h⟩ := h; exact ⟨r, List.mem_append_right _ hr, h⟩

theorem Found.tail {n : Str} (r : Row) {b : List Row} (h : Found n b) : Found n (r :: b) := by
  obtain ⟨x, hr, h⟩ := h; exact ⟨x, List.mem_cons_of_mem _ hr, h⟩

theorem Found.head {n : Str} {r : Row} (b : List Row) (h : n <:+: r.2) : Found n (r :: b) := ⟨r, List.mem_cons_self, h⟩

theorem infix_left {n a : Str} (b : Str) (h : n <:+: a) : n <:+: a ++ b := h.trans (List.prefix_append a b).isInfix

theorem infix_right {n b : Str} (a : Str) (h : n <:+: b) : n <:+: a ++ b := h.trans (List.suffix_append a b).isInfix

theorem infix_cons' {n b : Str} (c : Char) (h : n <:+: b) : n <:+: c :: b := h.trans (List.suffix_cons c b).isInfix

theorem asWritten_infix {w s : Str} (h : w <:+: s) : asWritten w <:+: asWritten s := by
  obtain ⟨a, b, rfl⟩ := h
  exact ⟨asWritten a, asWritten b, by simp [asWritten]⟩

theorem asWritten_same {s : Str} (h : ∀ c ∈ s, c ∉ ['\\', '"', '\n', '\r', '\t']) : asWritten s = s := by
  induction s with
  | nil => rfl
  | cons c s ih =>
    have hc := h c List.mem_cons_self
    simp only [List.mem_cons, List.not_mem_nil, or_false, not_or] at hc
    have e : escapedChar c = [c] := by
      unfold escapedChar
      rw [List.find?_eq_none.mpr]
      intro x hx
      simp only [legalEscapes, List.mem_cons, List.not_mem_nil, or_false] at hx
      rcases hx with rfl | rfl | rfl | rfl | rfl <;> simp <;> intro e <;> simp [← e] at hc
    have := ih (fun x hx => h x (List.mem_cons_of_mem _ hx))
    simp only [asWritten] at this
    simp only [asWritten, List.flatMap_cons, e, this]; rfl

theorem quoted_found {w s : Str} (h : w <:+: s) : asWritten w <:+: quotedText s := by
  rw [quotedText]
  exact infix_left _ (infix_cons' _ (asWritten_infix h))

theorem bareKey_same {k : Str} (h : bareKey k = true) : asWritten k = k := by
  refine asWritten_same fun c hc hm => ?_
  rw [bareKey_eq] at h
  simp only [List.mem_cons, List.not_mem_nil, or_false] at hm
  rcases hm with rfl | rfl | rfl | rfl | rfl <;> exact validKey_not_mem h (by decide) hc

theorem key_found {w k : Str} (h : w <:+: k) : asWritten w <:+: keyTextOf k := by
  rw [keyTextOf]
  split
  · rename_i hb
    have := asWritten_infix h
    rwa [bareKey_same hb] at this
  · exact quoted_found h

theorem dotted_found {s : Str} : ∀ ks : List Str, s ∈ ks → s <:+: dotted ks
  | [k], h => by
    simp only [List.mem_cons, List.not_mem_nil, or_false] at h
    subst h; exact List.infix_refl _
  | k :: k' :: ks, h => by
    rw [dotted]
    · rcases List.mem_cons.mp h with rfl | h
      · exact infix_left _ (List.infix_refl _)
      · exact infix_right _ (infix_cons' _ (dotted_found (k' :: ks) h))
    · simp

theorem separated_found {n : Str} (d : Char) : ∀ ws : List Str, (∃ x ∈ ws, n <:+: x) → n <:+: separated d ws
  | [], ⟨_, h, _⟩ => by cases h
  | [x], ⟨y, hy, h⟩ => by
    simp only [List.mem_cons, List.not_mem_nil, or_false] at hy
    subst hy; exact h
  | x :: x' :: ws, ⟨y, hy, h⟩ => by
    rw [separated]
    · rcases List.mem_cons.mp hy with rfl | hy
      · exact infix_left _ h
      · exact infix_right _ (infix_cons' _ (separated_found d (x' :: ws) ⟨y, hy, h⟩))
    · simp

theorem zipRow_cell {e : Str × Json F} : ∀ {cols : List Str} {row : List (Prim F)}, e ∈ zipRow cols row →
    e.1 ∈ cols ∧ ∃ p ∈ row, e.2 = .prim p
  | [], _, h => by simp [zipRow] at h
  | _ :: _, [], h => by simp [zipRow] at h
  | c :: cols, p :: row, h => by
    simp only [zipRow, List.mem_cons] at h
    rcases h with rfl | h
    · exact ⟨List.mem_cons_self, p, List.mem_cons_self, rfl⟩
    · obtain ⟨h1, q, h2, h3⟩ := zipRow_cell h
      exact ⟨List.mem_cons_of_mem _ h1, q, List.mem_cons_of_mem _ h2, h3⟩

theorem mentionsItems_mem {s : Str} {vs : List (Json F)} (h : MentionsItems s vs) : ∃ v ∈ vs, Mentions s v := by
  induction vs with
  | nil => exact h.elim
  | cons v vs ih =>
    rcases h with h | h
    · exact ⟨v, List.mem_cons_self, h⟩
    · obtain ⟨w, hw, h⟩ := ih h
      exact ⟨w, List.mem_cons_of_mem _ hw, h⟩

theorem mentionsEntries_mem {s : Str} {es : List (Str × Json F)} (h : MentionsEntries s es) : ∃ e ∈ es, e.1 = s ∨ Mentions s e.2 := by
  induction es with
  | nil => exact h.elim
  | cons e es ih =>
    obtain ⟨k, v⟩ := e
    rcases h with h | h | h
    · exact ⟨_, List.mem_cons_self, Or.inl h⟩
    · exact ⟨_, List.mem_cons_self, Or.inr h⟩
    · obtain ⟨w, hw, h⟩ := ih h
      exact ⟨w, List.mem_cons_of_mem _ hw, h⟩

theorem mentions_nested {s : Str} {leaf : Json F} : ∀ ks : List Str, Mentions s (nested ks leaf) → s ∈ ks ∨ Mentions s leaf
  | [], h => Or.inr h
  | k :: ks, h => by
    simp only [nested, Mentions, MentionsEntries, or_false] at h
    rcases h with rfl | h
    · exact Or.inl List.mem_cons_self
    · rcases mentions_nested ks h with h | h
      · exact Or.inl (List.mem_cons_of_mem _ h)
      · exact Or.inr h

theorem nested_distinct' {leaf : Json F} : ∀ ks : List Str, DistinctKeys (nested ks leaf) → DistinctKeys leaf
  | [], h => h
  | k :: ks, h => nested_distinct' ks h.2.1

/-- A key or a cell of every string of a table. -/
theorem table_mentions {s : Str} {items : List (Json F)} {cols : List Str} {rows : List (List (Prim F))} (ht : IsTable items cols)
    (hr : TableCells cols items rows) (hd : DistinctKeysItems items) (h : MentionsItems s items) :
    s ∈ cols ∨ ∃ row ∈ rows, .str s ∈ row := by
  obtain ⟨_, ⟨es₀, rest, hi, hk⟩, hall⟩ := ht
  have hc : cols.Nodup := by
    rw [← hk]
    exact (distinctItems_mem hd (v := .obj es₀) (by rw [hi]; exact List.mem_cons_self)).1
  clear hi hd
  unfold TableCells at hr
  induction hr with
  | nil => exact h.elim
  | @cons item row items rows h1 h2 ih =>
    rcases h with h | h
    · obtain ⟨es, rfl, hcells⟩ := h1
      obtain ⟨es', he, hl, _⟩ := hall _ List.mem_cons_self
      injection he with he
      subst he
      have hp := cells_perm hc hl hcells
      obtain ⟨e, hm, he⟩ := mentionsEntries_mem h
      obtain ⟨h3, p, h4, h5⟩ := zipRow_cell (hp.mem_iff.mpr hm)
      rcases he with rfl | he
      · exact Or.inl h3
      · rw [h5] at he
        simp only [Mentions] at he
        subst he
        exact Or.inr ⟨row, List.mem_cons_self, h4⟩
    · rcases ih h (fun item hm => hall item (List.mem_cons_of_mem _ hm)) with h | ⟨r, hm, h⟩
      · exact Or.inl h
      · exact Or.inr ⟨r, List.mem_cons_of_mem _ hm, h⟩

section
variable [F64 F]

theorem token_found {w s : Str} (d : Char) (h : w <:+: s) : asWritten w <:+: tokenText (F := F) d (.str s) := by
  simp only [tokenText]
  split
  · rename_i hp
    have hs : asWritten s = s := by
      refine asWritten_same fun c hc hm => hp.2.2.2.2.2.2.2.2 c hc ?_
      simp only [List.mem_cons, List.not_mem_nil, or_false] at hm ⊢
      rcases hm with rfl | rfl | rfl | rfl | rfl <;> simp
    have := asWritten_infix h
    rwa [hs] at this
  · exact quoted_found h

theorem cells_found {w s : Str} (d : Char) {ps : List (Prim F)} (h : w <:+: s) (hm : .str s ∈ ps) : asWritten w <:+: cellsText d ps :=
  separated_found d _ ⟨_, List.mem_map_of_mem hm, token_found d h⟩

theorem inline_found {w s : Str} (d : Char) {ps : List (Prim F)} (h : w <:+: s) (hm : .str s ∈ ps) : asWritten w <:+: inlineText d ps := by
  have : ps.isEmpty = false := by
    cases ps with
    | nil => cases hm
    | cons _ _ => rfl
  rw [inlineText, this]
  exact infix_right _ (infix_cons' _ (infix_cons' _ (cells_found d h hm)))

omit [F64 F] in
theorem columns_found {w s : Str} (d : Char) {cols : List Str} (n : Nat) (h : w <:+: s) (hm : s ∈ cols) :
    asWritten w <:+: tableText d cols n := by
  rw [tableText]
  exact infix_left _ (infix_right _ (infix_cons' _ (separated_found d _ ⟨_, List.mem_map_of_mem hm, key_found h⟩)))

omit [F64 F] in
theorem prims_mentions {s : Str} {items : List (Json F)} {ps : List (Prim F)} (h : ArePrims items ps) (hm : MentionsItems s items) :
    .str s ∈ ps := by
  obtain ⟨v, hv, h1⟩ := mentionsItems_mem hm
  rw [h] at hv
  obtain ⟨p, hp, rfl⟩ := List.mem_map.mp hv
  simp only [Mentions] at h1
  rwa [← h1]

theorem head_found (d : Char) {n : Str} {head : Str} (h : n <:+: head) (depth inner : Nat) (l : Layout F) :
    Found n (l.entryRows d head depth inner) := by
  cases l with
  | prim p => exact Found.head _ (infix_left _ h)
  | inline ps => exact Found.head _ (infix_left _ h)
  | table cols rows => rw [Layout.entryRows]; exact Found.head _ (infix_left _ h)
  | list items => rw [Layout.entryRows]; exact Found.head _ (infix_left _ (infix_left _ h))
  | object es => rw [Layout.entryRows]; exact Found.head _ (infix_left _ h)

mutual

theorem value_found {w s : Str} (hw : w <:+: s) {fold : Bool} {n : Nat} {taken path : List Str} {fd : Nat} (v : Json F) {l : Layout F}
    (h : ValueLayout fold n taken path fd v l) (hd : DistinctKeys v) (hm : Mentions s v) (d : Char) (head : Str) (depth inner : Nat) :
    Found (asWritten w) (l.entryRows d head depth inner) := by
  match v with
  | .prim p =>
    cases h
    simp only [Mentions] at hm
    subst hm
    exact Found.head _ (infix_right _ (infix_cons' _ (infix_cons' _ (token_found d hw))))
  | .arr items =>
    cases h with
    | inline h1 => exact Found.head _ (infix_right _ (inline_found d hw (prims_mentions h1 hm)))
    | table h1 h2 =>
      rw [Layout.entryRows]
      rcases table_mentions h1 h2 hd hm with h3 | ⟨row, h3, h4⟩
      · exact Found.head _ (infix_right _ (columns_found d _ hw h3))
      · exact Found.tail _ ⟨_, List.mem_map_of_mem h3, cells_found d hw h4⟩
    | list h1 h2 h3 =>
      rw [Layout.entryRows]
      exact Found.tail _ (items_found hw items h3 hd hm d inner)
  | .obj es =>
    cases h with
    | object h1 =>
      rw [Layout.entryRows]
      exact Found.tail _ (entries_found hw es h1 hd.2 hm d inner)
termination_by sizeOf v

theorem entries_found {w s : Str} (hw : w <:+: s) {fold : Bool} {n : Nat} {siblings taken path : List Str} {fd : Nat}
    (es : List (Str × Json F)) {ls : List (Str × Layout F)} (h : EntriesLayout fold n siblings taken path fd es ls)
    (hd : DistinctKeysEntries es) (hm : MentionsEntries s es) (d : Char) (depth : Nat) :
    Found (asWritten w) (Layout.entriesRows d depth ls) := by
  match es with
  | [] => exact hm.elim
  | (k, v) :: es =>
    cases h with
    | @folded _ _ _ _ _ _ ks leaf l _ ls h1 h2 h3 h4 =>
      have hlt : sizeOf leaf < sizeOf v := by
        have := nested_size ks leaf h2.2.1
        rw [← h2.1.1] at this; exact this
      have hv := h2.1.1
      rw [Layout.entriesRows]
      have hkey : s ∈ k :: ks → Found (asWritten w) (l.entryRows d (keyTextOf (dotted (k :: ks))) depth (depth + 1)) := fun hs =>
        head_found d (key_found (hw.trans (dotted_found _ hs))) _ _ l
      rcases hm with hm | hm | hm
      · exact (hkey (by rw [hm]; exact List.mem_cons_self)).left _
      · rcases mentions_nested ks (by rw [← hv]; exact hm) with hm | hm
        · exact (hkey (List.mem_cons_of_mem _ hm)).left _
        · exact (value_found hw leaf h3 (nested_distinct' ks (by rw [← hv]; exact hd.1)) hm d _ _ _).left _
      · exact (entries_found hw es h4 hd.2 hm d depth).right _
    | plain h1 h2 h3 =>
      rw [Layout.entriesRows]
      rcases hm with hm | hm | hm
      · exact (head_found d (key_found (by rw [hm]; exact hw)) _ _ _).left _
      · exact (value_found hw v h2 hd.1 hm d _ _ _).left _
      · exact (entries_found hw es h3 hd.2 hm d depth).right _
termination_by sizeOf es

theorem item_found {w s : Str} (hw : w <:+: s) {fold : Bool} {n : Nat} (v : Json F) {l : Layout F} (h : ItemLayout fold n v l)
    (hd : DistinctKeys v) (hm : Mentions s v) (d : Char) (depth : Nat) : Found (asWritten w) (l.itemRows d depth) := by
  match v with
  | .prim p =>
    cases h
    simp only [Mentions] at hm
    subst hm
    rw [Layout.itemRows]
    exact Found.head _ (infix_cons' _ (infix_cons' _ (token_found d hw)))
  | .arr items =>
    cases h with
    | inline h1 =>
      rw [Layout.itemRows]
      exact Found.head _ (infix_cons' _ (infix_cons' _ (inline_found d hw (prims_mentions h1 hm))))
    | list h1 h2 =>
      rw [Layout.itemRows]
      exact Found.tail _ (items_found hw items h2 hd hm d _)
  | .obj [] => exact hm.elim
  | .obj ((k, v) :: es) =>
    cases h with
    | object h1 h2 =>
      rw [Layout.itemRows]
      rcases hm with hm | hm | hm
      · exact (head_found d (infix_cons' _ (infix_cons' _ (key_found (by rw [hm]; exact hw)))) _ _ _).left _
      · exact (value_found hw v h1 hd.2.1 hm d _ _ _).left _
      · exact (entries_found hw es h2 hd.2.2 hm d _).right _
termination_by sizeOf v

theorem items_found {w s : Str} (hw : w <:+: s) {fold : Bool} {n : Nat} (vs : List (Json F)) {ls : List (Layout F)}
    (h : ItemsLayout fold n vs ls) (hd : DistinctKeysItems vs) (hm : MentionsItems s vs) (d : Char) (depth : Nat) :
    Found (asWritten w) (Layout.itemsRows d depth ls) := by
  match vs with
  | [] => exact hm.elim
  | v :: vs =>
    cases h with
    | cons h1 h2 =>
      rw [Layout.itemsRows]
      rcases hm with hm | hm
      · exact (item_found hw v h1 hd.1 hm d depth).left _
      · exact (items_found hw vs h2 hd.2 hm d depth).right _
termination_by sizeOf vs

end

theorem document_found {w s : Str} (hw : w <:+: s) {fold : Bool} {n : Nat} {v : Json F} {l : Layout F} (h : DocumentLayout fold n v l)
    (hd : DistinctKeys v) (hm : Mentions s v) (d : Char) : Found (asWritten w) (l.documentRows d) := by
  unfold DocumentLayout at h
  match v, l, h with
  | .prim p, _, .prim _ =>
    simp only [Mentions] at hm
    subst hm
    exact Found.head _ (token_found (F := F) d hw)
  | .obj es, _, .object h1 => exact entries_found hw es h1 hd.2 hm d 0
  | .arr items, .inline _, h => exact value_found hw _ h hd hm d [] 0 1
  | .arr items, .table _ _, h => exact value_found hw _ h hd hm d [] 0 1
  | .arr items, .list _, h => exact value_found hw _ h hd hm d [] 0 1

end

mutual
theorem mentions_mapPrims {s : Str} {f : Prim F → Prim F} (hf : ∀ t, f (.str t) = .str t) (v : Json F) (h : Mentions s v) :
    Mentions s (v.mapPrims f) := by
  match v with
  | .prim p =>
    simp only [Mentions] at h
    subst h
    exact hf s
  | .arr items => exact mentionsItems_mapPrims hf items h
  | .obj es => exact mentionsEntries_mapPrims hf es h
theorem mentionsItems_mapPrims {s : Str} {f : Prim F → Prim F} (hf : ∀ t, f (.str t) = .str t) (vs : List (Json F))
    (h : MentionsItems s vs) : MentionsItems s (Json.mapPrimsItems f vs) := by
  match vs with
  | [] => exact h
  | v :: vs => exact h.imp (mentions_mapPrims hf v) (mentionsItems_mapPrims hf vs)
theorem mentionsEntries_mapPrims {s : Str} {f : Prim F → Prim F} (hf : ∀ t, f (.str t) = .str t) (es : List (Str × Json F))
    (h : MentionsEntries s es) : MentionsEntries s (Json.mapPrimsEntries f es) := by
  match es with
  | [] => exact h
  | (k, v) :: es => exact h.imp id (Or.imp (mentions_mapPrims hf v) (mentionsEntries_mapPrims hf es))
end

end Toon
