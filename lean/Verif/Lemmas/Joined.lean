import Verif.Spec.Joined
import Verif.Lemmas.LineCount
import Verif.Lemmas.Diff
import Verif.Lemmas.ExpandDepth

/-! The value with joined keys, and its layout: lemmas for C99. -/

namespace Toon

section
variable {F : Type}

/-! ## Tables -/

theorem zip_lookup {es : List (Str × Json F)} {cols : List Str} {row : List (Prim F)}
    (h : Pointwise (fun c p => lookupKey c es = some (.prim p)) cols row) : ∀ c ∈ cols,
    lookupKey c (cols.zip (row.map .prim)) = lookupKey c es := by
  induction h with
  | nil => simp
  | @cons c0 p0 cs ps h0 _ ih =>
    intro c hc
    simp only [List.map_cons, List.zip_cons_cons, lookupKey]
    by_cases he : c0 = c
    · simp only [he, if_true]; rw [← he, h0]
    · simp only [he, if_false]
      exact ih c ((List.mem_cons.mp hc).resolve_left (fun h => he h.symm))

theorem pointwise_mono_left {α β : Type} {R S : α → β → Prop} {as : List α} {bs : List β} (h : Pointwise R as bs)
    (hs : ∀ a ∈ as, ∀ b, R a b → S a b) : Pointwise S as bs := by
  induction h with
  | nil => exact .nil
  | cons h0 _ ih => exact .cons (hs _ (by simp) _ h0) (ih fun a ha => hs a (List.mem_cons_of_mem _ ha))

theorem row_cells {es : List (Str × Json F)} {cols : List Str} {row : List (Prim F)}
    (h : Pointwise (fun c p => lookupKey c es = some (.prim p)) cols row) :
    Pointwise (fun c p => lookupKey c (cols.zip (row.map .prim)) = some (.prim p)) cols row :=
  pointwise_mono_left h fun c hc p hp => by rw [zip_lookup h c hc, hp]

theorem row_len {α β : Type} {R : α → β → Prop} {as : List α} {bs : List β} (h : Pointwise R as bs) : as.length = bs.length := by
  induction h with
  | nil => rfl
  | cons _ _ ih => simp [ih]

theorem row_has {α β : Type} {R : α → β → Prop} {as : List α} {bs : List β} (h : Pointwise R as bs) : ∀ a ∈ as, ∃ b, R a b := by
  induction h with
  | nil => simp
  | cons h0 _ ih =>
    intro a ha
    rcases List.mem_cons.mp ha with rfl | ha
    · exact ⟨_, h0⟩
    · exact ih a ha

theorem table_joined {cols : List Str} {items : List (Json F)} {rows : List (List (Prim F))} (ht : IsTable items cols)
    (hc : TableCells cols items rows) :
    IsTable (rows.map fun row => Json.obj (cols.zip (row.map .prim))) cols ∧
      TableCells cols (rows.map fun row => Json.obj (cols.zip (row.map .prim))) rows := by
  have hrow : ∀ row ∈ rows, Pointwise (fun c p => lookupKey c (cols.zip (row.map .prim)) = some (.prim p)) cols row := by
    have hc' : Pointwise (fun item row => ∃ es, item = .obj es ∧ Pointwise (fun c p => lookupKey c es = some (.prim p)) cols row)
      items rows := hc
    clear hc ht
    induction hc' with
    | nil => simp
    | cons h0 _ ih =>
      intro row hr
      rcases List.mem_cons.mp hr with rfl | hr
      · obtain ⟨es, _, h1⟩ := h0; exact row_cells h1
      · exact ih row hr
  refine ⟨⟨ht.1, ?_, ?_⟩, ?_⟩
  · obtain ⟨es, rest, rfl, _⟩ := ht.2.1
    cases rows with
    | nil => have := tableCells_length hc; simp at this
    | cons row rows =>
      refine ⟨_, _, rfl, ?_⟩
      have := row_len (hrow row (by simp))
      rw [List.map_fst_zip (by simp [this])]
  · intro item hi
    obtain ⟨row, hr, rfl⟩ := List.mem_map.mp hi
    have h1 := hrow row hr
    have h2 := row_len h1
    exact ⟨_, rfl, by simp [h2], fun c hcm => row_has h1 c hcm⟩
  · unfold TableCells
    clear hc
    induction rows with
    | nil => exact .nil
    | cons row rows ih =>
      exact .cons ⟨_, rfl, hrow row (by simp)⟩ (ih fun r hr => hrow r (List.mem_cons_of_mem _ hr))

/-! ## Elements -/

theorem joinedItems_prims {fold : Bool} {n : Nat} : ∀ {vs : List (Json F)} {ls : List (Layout F)}, ItemsLayout fold n vs ls →
    ∀ {ps : List (Prim F)}, ArePrims (Layout.joinedItems ls) ps → ArePrims vs ps
  | _, _, .nil, ps, h => by
    cases ps with
    | nil => rfl
    | cons => simp [ArePrims, Layout.joinedItems] at h
  | _, _, .cons hl hr, ps, h => by
    cases ps with
    | nil => simp [ArePrims, Layout.joinedItems] at h
    | cons p ps =>
      simp only [ArePrims, Layout.joinedItems, List.map_cons, List.cons.injEq] at h
      have h2 := joinedItems_prims hr (ps := ps) h.2
      unfold ArePrims at *
      cases hl with
      | prim q => simp only [Layout.joined, Json.prim.injEq] at h; simp [h.1, h2]
      | inline _ => simp [Layout.joined] at h
      | list _ _ => simp [Layout.joined] at h
      | empty => simp [Layout.joined] at h
      | object _ _ => simp [Layout.joined] at h

theorem joinedItems_length : ∀ ls : List (Layout F), (Layout.joinedItems ls).length = ls.length
  | [] => rfl
  | _ :: ls => by simp [Layout.joinedItems, joinedItems_length ls]

theorem joinedEntries_isEmpty : ∀ ls : List (Str × Layout F), (Layout.joinedEntries ls = []) ↔ ls = []
  | [] => by simp [Layout.joinedEntries]
  | (_, _) :: _ => by simp [Layout.joinedEntries]

/-! ## The layout without folding -/

mutual
theorem value_joined {fold : Bool} {n m : Nat} : ∀ {taken path : List Str} {fd : Nat} {v : Json F} {l : Layout F},
    ValueLayout fold n taken path fd v l → l.ListsStay → ∀ {taken' path' : List Str} {fd' : Nat},
    ValueLayout false m taken' path' fd' l.joined l
  | _, _, _, _, _, .prim p, _, _, _, _ => .prim p
  | _, _, _, _, _, .inline _, _, _, _, _ => .inline rfl
  | _, _, _, _, _, .table h1 h2, _, _, _, _ => .table (table_joined h1 h2).1 (table_joined h1 h2).2
  | _, _, _, _, _, .list h1 _ hi, hs, _, _, _ =>
    .list (fun ⟨_, hp⟩ => h1 ⟨_, joinedItems_prims hi hp⟩) hs.1 (items_joined hi hs.2)
  | _, _, _, _, _, .object he, hs, _, _, _ => .object (entries_joined he hs)
theorem entries_joined {fold : Bool} {n m : Nat} : ∀ {siblings taken path : List Str} {fd : Nat}
    {es : List (Str × Json F)} {ls : List (Str × Layout F)}, EntriesLayout fold n siblings taken path fd es ls →
    Layout.ListsStayEntries ls → ∀ {siblings' taken' path' : List Str} {fd' : Nat},
    EntriesLayout false m siblings' taken' path' fd' (Layout.joinedEntries ls) ls
  | _, _, _, _, _, _, .nil, _, _, _, _, _ => .nil
  | _, _, _, _, _, _, .folded _ _ hl he, hs, _, _, _, _ => .plain (by simp) (value_joined hl hs.1) (entries_joined he hs.2)
  | _, _, _, _, _, _, .plain _ hl he, hs, _, _, _, _ => .plain (by simp) (value_joined hl hs.1) (entries_joined he hs.2)
theorem item_joined {fold : Bool} {n m : Nat} : ∀ {v : Json F} {l : Layout F}, ItemLayout fold n v l → l.ListsStayItem →
    ItemLayout false m l.joined l
  | _, _, .prim p, _ => .prim p
  | _, _, .inline _, _ => .inline rfl
  | _, _, .list h1 hi, hs => .list (fun ⟨_, hp⟩ => h1 ⟨_, joinedItems_prims hi hp⟩) (items_joined hi hs)
  | _, _, .empty, _ => .empty
  | _, _, .object hl he, hs => .object (value_joined hl hs.1) (entries_joined he hs.2)
theorem items_joined {fold : Bool} {n m : Nat} : ∀ {vs : List (Json F)} {ls : List (Layout F)}, ItemsLayout fold n vs ls →
    Layout.ListsStayItems ls → ItemsLayout false m (Layout.joinedItems ls) ls
  | _, _, .nil, _ => .nil
  | _, _, .cons hl hr, hs => .cons (item_joined hl hs.1) (items_joined hr hs.2)
end

/-! ## A list that becomes a table loses lines -/

theorem itemLines_pos (l : Layout F) : 1 ≤ l.itemLines := by
  cases l with
  | object es =>
    cases es with
    | nil => simp [Layout.itemLines]
    | cons e es =>
      have := entriesLines_ge (e :: es)
      simp only [Layout.itemLines, List.isEmpty_cons, Bool.false_eq_true, if_false, List.length_cons] at *; omega
  | _ => simp [Layout.itemLines]

theorem itemsLines_ge : ∀ ls : List (Layout F), ls.length ≤ Layout.itemsLines ls
  | [] => by simp
  | l :: ls => by
    have := itemLines_pos l
    have := itemsLines_ge ls
    simp only [List.length_cons, Layout.itemsLines]; omega

/-- An object on one line with a primitive under every column is shown as it is. -/
theorem flatItem_same {fold : Bool} {n : Nat} {v : Json F} {l : Layout F} (h : ItemLayout fold n v l) (hl : l.itemLines = 1)
    {es : List (Str × Json F)} (he : l.joined = .obj es) {cols : List Str} (hn : es.length = cols.length)
    (hp : ∀ c ∈ cols, ∃ p, lookupKey c es = some (.prim p)) : v = .obj es := by
  cases h with
  | prim p => simp [Layout.joined] at he
  | inline _ => simp [Layout.joined] at he
  | list _ _ => simp [Layout.joined] at he
  | empty => simpa [Layout.joined, Layout.joinedEntries] using he
  | @object k v l es' ls hv hr =>
    simp only [Layout.joined, Layout.joinedEntries, Json.obj.injEq] at he
    subst he
    have h1 := lines_pos l
    simp only [Layout.itemLines, List.isEmpty_cons, Bool.false_eq_true, if_false, Layout.entriesLines] at hl
    have h2 := entriesLines_ge ls
    have h3 : ls = [] := List.length_eq_zero_iff.mp (by omega)
    subst h3
    cases hr
    match cols, hn with
    | [c], _ =>
      obtain ⟨p, hp⟩ := hp c (by simp)
      simp only [Layout.joinedEntries, lookupKey] at hp
      split at hp
      · cases hv <;> simp [Layout.joined] at hp
        simp [Layout.joined, Layout.joinedEntries]
      · simp at hp

theorem flatItems_same {fold : Bool} {n : Nat} {cols : List Str} : ∀ {vs : List (Json F)} {ls : List (Layout F)}, ItemsLayout fold n vs ls →
    Layout.itemsLines ls = ls.length → (∀ item ∈ Layout.joinedItems ls, ∃ es, item = .obj es ∧ es.length = cols.length ∧
      ∀ c ∈ cols, ∃ p, lookupKey c es = some (.prim p)) → vs = Layout.joinedItems ls
  | _, _, .nil, _, _ => rfl
  | _, _, .cons (l := l) (ls := ls) hl hr, hc, ht => by
    have h1 := itemLines_pos l
    have h2 := itemsLines_ge ls
    simp only [Layout.itemsLines, List.length_cons] at hc
    obtain ⟨es, h3, h4, h5⟩ := ht l.joined (by simp [Layout.joinedItems])
    have h6 := flatItem_same hl (by omega) h3 h4 h5
    have h7 := flatItems_same hr (by omega) fun item hi => ht item (by simp [Layout.joinedItems, hi])
    rw [Layout.joinedItems, h3, h6, h7]

mutual
theorem value_joinedLines {fold : Bool} {n m : Nat} : ∀ {taken path : List Str} {fd : Nat} {v : Json F} {l : Layout F},
    ValueLayout fold n taken path fd v l → ∀ {taken' path' : List Str} {fd' : Nat} {l' : Layout F},
    ValueLayout false m taken' path' fd' l.joined l' → l'.lines ≤ l.lines ∧ (l'.lines = l.lines → l.ListsStay)
  | _, _, _, _, _, .prim p, _, _, _, _, h => by cases h; exact ⟨Nat.le_refl _, fun _ => by simp [Layout.ListsStay]⟩
  | _, _, _, _, _, .inline h1, _, _, _, l', h => by
    simp only [Layout.joined] at h
    cases h with
    | inline _ => exact ⟨Nat.le_refl _, fun _ => by simp [Layout.ListsStay]⟩
    | table g1 _ => exact absurd ⟨_, rfl⟩ (table_not_prims g1)
    | list g1 _ _ => exact absurd ⟨_, rfl⟩ g1
  | _, _, _, _, _, .table h1 h2, _, _, _, _, h => by
    have ht := table_joined h1 h2
    simp only [Layout.joined] at h
    refine ⟨?_, fun _ => by simp [Layout.ListsStay]⟩
    cases h with
    | inline g1 => exact absurd ⟨_, g1⟩ (table_not_prims ht.1)
    | table _ g2 => have := tableCells_length g2; simp only [List.length_map] at this; simp [Layout.lines, this]
    | list _ g1 _ => exact absurd ⟨_, ht.1⟩ g1
  | _, _, _, _, _, .list (ls := ls) h1 h2 hi, _, _, _, _, h => by
    simp only [Layout.joined] at h
    cases h with
    | inline g1 => exact absurd ⟨_, joinedItems_prims hi g1⟩ h1
    | table g1 g2 =>
      have h3 := tableCells_length g2
      rw [joinedItems_length] at h3
      have h4 := itemsLines_ge ls
      have h5 : Layout.itemsLines ls ≠ ls.length := fun h5 => h2 ⟨_, by rw [flatItems_same hi h5 g1.2.2]; exact g1⟩
      simp only [Layout.lines]
      exact ⟨by omega, fun h => by omega⟩
    | list _ g1 gi =>
      have h3 := items_joinedLines hi gi
      simp only [Layout.lines]
      exact ⟨by omega, fun h => ⟨g1, h3.2 (by omega)⟩⟩
  | _, _, _, _, _, .object he, _, _, _, _, h => by
    simp only [Layout.joined] at h
    cases h with
    | object ge =>
      have h3 := entries_joinedLines he ge
      simp only [Layout.lines]
      exact ⟨by omega, fun h => by simp only [Layout.ListsStay]; exact h3.2 (by omega)⟩
theorem entries_joinedLines {fold : Bool} {n m : Nat} : ∀ {siblings taken path : List Str} {fd : Nat}
    {es : List (Str × Json F)} {ls : List (Str × Layout F)}, EntriesLayout fold n siblings taken path fd es ls →
    ∀ {siblings' taken' path' : List Str} {fd' : Nat} {ls' : List (Str × Layout F)},
    EntriesLayout false m siblings' taken' path' fd' (Layout.joinedEntries ls) ls' →
    Layout.entriesLines ls' ≤ Layout.entriesLines ls ∧ (Layout.entriesLines ls' = Layout.entriesLines ls → Layout.ListsStayEntries ls)
  | _, _, _, _, _, _, .nil, _, _, _, _, _, h => by
    simp only [Layout.joinedEntries] at h
    cases h; exact ⟨Nat.le_refl _, fun _ => by simp [Layout.ListsStayEntries]⟩
  | _, _, _, _, _, _, .folded _ _ hl he, _, _, _, _, _, h => by
    simp only [Layout.joinedEntries] at h
    cases h with
    | folded hf => simp at hf
    | plain _ gl ge =>
      have h3 := value_joinedLines hl gl
      have h4 := entries_joinedLines he ge
      simp only [Layout.entriesLines]
      exact ⟨by omega, fun h => ⟨h3.2 (by omega), h4.2 (by omega)⟩⟩
  | _, _, _, _, _, _, .plain _ hl he, _, _, _, _, _, h => by
    simp only [Layout.joinedEntries] at h
    cases h with
    | folded hf => simp at hf
    | plain _ gl ge =>
      have h3 := value_joinedLines hl gl
      have h4 := entries_joinedLines he ge
      simp only [Layout.entriesLines]
      exact ⟨by omega, fun h => ⟨h3.2 (by omega), h4.2 (by omega)⟩⟩
theorem item_joinedLines {fold : Bool} {n m : Nat} : ∀ {v : Json F} {l l' : Layout F}, ItemLayout fold n v l → ItemLayout false m l.joined l' →
    l'.itemLines ≤ l.itemLines ∧ (l'.itemLines = l.itemLines → l.ListsStayItem)
  | _, _, _, .prim p, h => by cases h; exact ⟨Nat.le_refl _, fun _ => by simp [Layout.ListsStayItem]⟩
  | _, _, _, .inline h1, h => by
    simp only [Layout.joined] at h
    cases h with
    | inline _ => exact ⟨Nat.le_refl _, fun _ => by simp [Layout.ListsStayItem]⟩
    | list g1 _ => exact absurd ⟨_, rfl⟩ g1
  | _, _, _, .list h1 hi, h => by
    simp only [Layout.joined] at h
    cases h with
    | inline g1 => exact absurd ⟨_, joinedItems_prims hi g1⟩ h1
    | list _ gi =>
      have h3 := items_joinedLines hi gi
      simp only [Layout.itemLines]
      exact ⟨by omega, fun h => by simp only [Layout.ListsStayItem]; exact h3.2 (by omega)⟩
  | _, _, _, .empty, h => by
    simp only [Layout.joined, Layout.joinedEntries] at h
    cases h; exact ⟨Nat.le_refl _, fun _ => by simp [Layout.ListsStayItem, Layout.ListsStayEntries]⟩
  | _, _, _, .object hl he, h => by
    simp only [Layout.joined, Layout.joinedEntries] at h
    cases h with
    | object gl ge =>
      have h3 := value_joinedLines hl gl
      have h4 := entries_joinedLines he ge
      simp only [Layout.itemLines, Layout.entriesLines, List.isEmpty_cons, Bool.false_eq_true, if_false]
      exact ⟨by omega, fun h => ⟨h3.2 (by omega), h4.2 (by omega)⟩⟩
theorem items_joinedLines {fold : Bool} {n m : Nat} : ∀ {vs : List (Json F)} {ls ls' : List (Layout F)}, ItemsLayout fold n vs ls →
    ItemsLayout false m (Layout.joinedItems ls) ls' →
    Layout.itemsLines ls' ≤ Layout.itemsLines ls ∧ (Layout.itemsLines ls' = Layout.itemsLines ls → Layout.ListsStayItems ls)
  | _, _, _, .nil, h => by
    simp only [Layout.joinedItems] at h
    cases h; exact ⟨Nat.le_refl _, fun _ => by simp [Layout.ListsStayItems]⟩
  | _, _, _, .cons hl hr, h => by
    simp only [Layout.joinedItems] at h
    cases h with
    | cons gl gr =>
      have h3 := item_joinedLines hl gl
      have h4 := items_joinedLines hr gr
      simp only [Layout.itemsLines]
      exact ⟨by omega, fun h => ⟨h3.2 (by omega), h4.2 (by omega)⟩⟩
end

theorem document_joinedLines {fold : Bool} {n m : Nat} {v : Json F} {l l' : Layout F} (h : DocumentLayout fold n v l)
    (h' : DocumentLayout false m l.joined l') :
    l'.documentLines ≤ l.documentLines ∧ (l'.documentLines = l.documentLines → l.ListsStay) := by
  have hv := value_joinedLines h h'
  cases h with
  | object he =>
    simp only [DocumentLayout, Layout.joined] at h'
    cases h' with
    | object ge => exact entries_joinedLines he ge
  | prim p => cases h'; exact hv
  | inline h1 => simp only [DocumentLayout, Layout.joined] at h'; cases h' <;> exact hv
  | table h1 h2 => simp only [DocumentLayout, Layout.joined] at h'; cases h' <;> exact hv
  | list h1 h2 h3 => simp only [DocumentLayout, Layout.joined] at h'; cases h' <;> exact hv

/-! ## Nothing is left to fold -/

theorem dotted_dot {k : Str} {ks : List Str} (h : ks ≠ []) : '.' ∈ dotted (k :: ks) := by
  cases ks with
  | nil => exact absurd rfl h
  | cons s ss => simp [dotted]

theorem identifier_noDot {k : Str} (h : identifier k = true) : '.' ∉ k := by
  rw [identifier_eq] at h
  exact identifier_nodot h

theorem dotted_path {path path' : List Str} (h : ∀ x, x ≠ [] → dotted (path' ++ x) = dotted (path ++ x)) (ks : List Str) (hk : ks ≠ [])
    (x : List Str) (hx : x ≠ []) : dotted ((path' ++ [dotted ks]) ++ x) = dotted ((path ++ ks) ++ x) := by
  rw [List.append_assoc, List.append_assoc, h _ (by simp)]
  cases path with
  | nil =>
    simp only [List.nil_append]
    rw [dotted_append (by simp) hx, dotted_append hk hx]; rfl
  | cons p path =>
    rw [dotted_append (a := p :: path) (by simp) (b := [dotted ks] ++ x) (by simp), dotted_append (a := p :: path) (by simp) (b := ks ++ x) (by simp [hk]),
      dotted_append (a := [dotted ks]) (by simp) hx, dotted_append hk hx]; rfl

/-- A key with a dot is not folded. -/
theorem dotKeys_joined {n : Nat} : ∀ {siblings taken path : List Str} {fd : Nat} {es : List (Str × Json F)} {ls : List (Str × Layout F)},
    EntriesLayout true n siblings taken path fd es ls → ∀ s ∈ es.map Prod.fst, '.' ∈ s → s ∈ (Layout.joinedEntries ls).map Prod.fst
  | _, _, _, _, _, _, .nil, s, hs, _ => by simp at hs
  | _, _, _, _, _, _, .folded (k := k) _ hf _ he, s, hs, hd => by
    simp only [List.map_cons, List.mem_cons] at hs
    rcases hs with rfl | hs
    · exact absurd hd (identifier_noDot (hf.2.2.1 _ (by simp)))
    · simp only [Layout.joinedEntries, List.map_cons, List.mem_cons]; exact Or.inr (dotKeys_joined he s hs hd)
  | _, _, _, _, _, _, .plain _ _ he, s, hs, hd => by
    simp only [List.map_cons, List.mem_cons] at hs
    simp only [Layout.joinedEntries, List.map_cons, List.mem_cons]
    rcases hs with rfl | hs
    · exact Or.inl rfl
    · exact Or.inr (dotKeys_joined he s hs hd)

/-- What is shown as a chain of identifiers is one. -/
theorem chain_joined {n : Nat} : ∀ (ks : List Str) {leaf : Json F} {taken path : List Str} {fd : Nat} {v : Json F} {l : Layout F},
    ValueLayout true n taken path fd v l → l.joined = nested ks leaf → (∀ s ∈ ks, identifier s = true) →
    ∃ (leaf' : Json F) (l' : Layout F) (path' : List Str), v = nested ks leaf' ∧ ValueLayout true n taken path' fd leaf' l' ∧ l'.joined = leaf
  | [], _, _, _, _, _, _, h, he, _ => ⟨_, _, _, rfl, h, he⟩
  | s :: ss, leaf, _, _, _, _, l, h, he, hi => by
    rw [nested] at he
    cases h with
    | prim p => simp [Layout.joined] at he
    | inline _ => simp [Layout.joined] at he
    | table _ _ => simp [Layout.joined] at he
    | list _ _ _ => simp [Layout.joined] at he
    | object h1 =>
      simp only [Layout.joined, Json.obj.injEq] at he
      cases h1 with
      | nil => simp [Layout.joinedEntries] at he
      | folded _ hf _ _ =>
        simp only [Layout.joinedEntries, List.cons.injEq, Prod.mk.injEq] at he
        exact absurd (he.1.1 ▸ dotted_dot hf.2.1) (identifier_noDot (hi s (by simp)))
      | plain _ hl hr =>
        simp only [Layout.joinedEntries, List.cons.injEq, Prod.mk.injEq, joinedEntries_isEmpty] at he
        obtain ⟨⟨rfl, h2⟩, rfl⟩ := he
        cases hr
        obtain ⟨leaf', l', p', h3, h4, h5⟩ := chain_joined ss hl h2 fun x hx => hi x (List.mem_cons_of_mem _ hx)
        exact ⟨leaf', l', p', by rw [nested, h3], h4, h5⟩

/-- An entry that is not folded is not folded when its value has joined keys. -/
theorem plain_again {n : Nat} {siblings siblings' taken taken' path path' : List Str} {fd fd' : Nat} {k : Str} {v : Json F} {l : Layout F}
    (hv : ¬ ∃ ks leaf, Foldable siblings taken path fd k v ks leaf) {p : List Str} (hl : ValueLayout true n taken p fd v l)
    (hs : ∀ s ∈ siblings, '.' ∈ s → s ∈ siblings') (ht : ∀ s ∈ taken, s ∈ taken')
    (hp : ∀ x, x ≠ [] → dotted (path' ++ x) = dotted (path ++ x)) (h1 : height v + 2 ≤ fd) (h2 : height v + 2 ≤ fd') :
    ¬ ∃ ks leaf, Foldable siblings' taken' path' fd' k l.joined ks leaf := by
  rintro ⟨ks, leaf, ⟨hn, _, hc⟩, hne, hid, hsib, htak⟩
  obtain ⟨leaf', l', p', h3, h4, h5⟩ := chain_joined ks hl hn fun s hs => hid s (List.mem_cons_of_mem _ hs)
  have hh := nested_height ks leaf'
  rw [← h3] at hh
  refine hv ⟨ks, leaf', ⟨h3, by omega, Or.inr ?_⟩, hne, hid, fun hm => hsib (hs _ hm (dotted_dot hne)), fun hm => htak (by
    rw [hp _ (by simp)]; exact ht _ hm)⟩
  rintro k2 w rfl
  rcases hc with hc | hc
  · omega
  · cases h4 with
    | object he =>
      cases he with
      | folded _ _ _ hr => cases hr; exact hc _ _ h5.symm
      | plain _ _ hr => cases hr; exact hc _ _ h5.symm

theorem notFoldable_dot {siblings taken path : List Str} {fd : Nat} {k : Str} {v : Json F} (h : '.' ∈ k) :
    ¬ ∃ ks leaf, Foldable siblings taken path fd k v ks leaf := by
  rintro ⟨ks, leaf, _, _, hid, _⟩
  exact identifier_noDot (hid k (by simp)) h

mutual
theorem value_again {n m : Nat} : ∀ {taken path : List Str} {fd : Nat} {v : Json F} {l : Layout F},
    ValueLayout true n taken path fd v l → ∀ {taken' path' t p : List Str} {fd' f : Nat} {l' : Layout F},
    ValueLayout false m t p f l.joined l' → (∀ s ∈ taken, s ∈ taken') → (∀ x, x ≠ [] → dotted (path' ++ x) = dotted (path ++ x)) →
    height v + 1 ≤ n → height v + 1 ≤ fd → height v + 1 ≤ fd' → ValueLayout true n taken' path' fd' l.joined l'
  | _, _, _, _, _, .prim p, _, _, _, _, _, _, _, h, _, _, _, _, _ => by cases h; exact .prim p
  | _, _, _, _, _, .inline h1, _, _, _, _, _, _, _, h, _, _, _, _, _ => by
    simp only [Layout.joined] at h ⊢
    cases h with
    | inline g => exact .inline g
    | table g1 _ => exact absurd ⟨_, rfl⟩ (table_not_prims g1)
    | list g1 _ _ => exact absurd ⟨_, rfl⟩ g1
  | _, _, _, _, _, .table h1 h2, _, _, _, _, _, _, _, h, _, _, _, _, _ => by
    have ht := table_joined h1 h2
    simp only [Layout.joined] at h ⊢
    cases h with
    | inline g1 => exact absurd ⟨_, g1⟩ (table_not_prims ht.1)
    | table g1 g2 => exact .table g1 g2
    | list _ g1 _ => exact absurd ⟨_, ht.1⟩ g1
  | _, _, _, _, _, .list h1 h2 hi, _, _, _, _, _, _, _, h, _, _, hn, _, _ => by
    simp only [Layout.joined] at h ⊢
    cases h with
    | inline g1 => exact .inline g1
    | table g1 g2 => exact .table g1 g2
    | list g1 g2 gi => exact .list g1 g2 (items_again hi gi (by rw [height] at hn; omega))
  | _, _, _, _, _, .object he, _, _, _, _, _, _, _, h, ht, hp, hn, hf, hf' => by
    simp only [Layout.joined] at h ⊢
    rw [height] at hn hf hf'
    cases h with
    | object ge => exact .object (entries_again he ge (dotKeys_joined he) ht hp (by omega) (by omega) (by omega))
theorem entries_again {n m : Nat} : ∀ {siblings taken path : List Str} {fd : Nat}
    {es : List (Str × Json F)} {ls : List (Str × Layout F)}, EntriesLayout true n siblings taken path fd es ls →
    ∀ {siblings' taken' path' s t p : List Str} {fd' f : Nat} {ls' : List (Str × Layout F)},
    EntriesLayout false m s t p f (Layout.joinedEntries ls) ls' → (∀ s ∈ siblings, '.' ∈ s → s ∈ siblings') → (∀ s ∈ taken, s ∈ taken') →
    (∀ x, x ≠ [] → dotted (path' ++ x) = dotted (path ++ x)) → heightEntries es + 2 ≤ n → heightEntries es + 2 ≤ fd →
    heightEntries es + 2 ≤ fd' → EntriesLayout true n siblings' taken' path' fd' (Layout.joinedEntries ls) ls'
  | _, _, _, _, _, _, .nil, _, _, _, _, _, _, _, _, _, h, _, _, _, _, _, _ => by
    simp only [Layout.joinedEntries] at h ⊢
    cases h; exact .nil
  | _, _, _, _, _, _, .folded (k := k) (ks := ks) (leaf := leaf) _ hf hl he, _, _, _, _, _, _, _, _, _, h, hs, ht, hp, hn, h1, h2 => by
    simp only [Layout.joinedEntries] at h ⊢
    have hh := nested_height ks leaf
    rw [← hf.1.1] at hh
    simp only [heightEntries] at hn h1 h2
    cases h with
    | folded hf => simp at hf
    | plain _ gl ge =>
      refine .plain (fun _ => notFoldable_dot (dotted_dot hf.2.1)) (value_again hl gl ht (dotted_path hp (k :: ks) (by simp)) (by omega) ?_ (by omega))
        (entries_again he ge hs ht hp (by omega) (by omega) (by omega))
      simp only [List.length_cons]; omega
  | _, _, _, _, _, _, .plain (k := k) hnf hl he, _, _, _, _, _, _, _, _, _, h, hs, ht, hp, hn, h1, h2 => by
    simp only [Layout.joinedEntries] at h ⊢
    simp only [heightEntries] at hn h1 h2
    cases h with
    | folded hf => simp at hf
    | plain _ gl ge =>
      exact .plain (fun _ => plain_again (hnf rfl) hl hs ht hp (by omega) (by omega))
        (value_again hl gl ht (dotted_path hp [k] (by simp)) (by omega) (by omega) (by omega))
        (entries_again he ge hs ht hp (by omega) (by omega) (by omega))
theorem item_again {n m : Nat} : ∀ {v : Json F} {l l' : Layout F}, ItemLayout true n v l → ItemLayout false m l.joined l' →
    height v + 1 ≤ n → ItemLayout true n l.joined l'
  | _, _, _, .prim p, h, _ => by cases h; exact .prim p
  | _, _, _, .inline h1, h, _ => by
    simp only [Layout.joined] at h ⊢
    cases h with
    | inline g => exact .inline g
    | list g1 _ => exact absurd ⟨_, rfl⟩ g1
  | _, _, _, .list h1 hi, h, hn => by
    simp only [Layout.joined] at h ⊢
    cases h with
    | inline g1 => exact .inline g1
    | list g1 gi => exact .list g1 (items_again hi gi (by rw [height] at hn; omega))
  | _, _, _, .empty, h, _ => by
    simp only [Layout.joined, Layout.joinedEntries] at h ⊢
    cases h; exact .empty
  | _, _, _, .object hl he, h, hn => by
    simp only [Layout.joined, Layout.joinedEntries] at h ⊢
    simp only [height, heightEntries] at hn
    cases h with
    | object gl ge =>
      exact .object (value_again hl gl (fun _ h => h) (fun _ _ => rfl) (by omega) (by omega) (by omega))
        (entries_again he ge (dotKeys_joined he) (fun _ h => h) (fun _ _ => rfl) (by omega) (by omega) (by omega))
theorem items_again {n m : Nat} : ∀ {vs : List (Json F)} {ls ls' : List (Layout F)}, ItemsLayout true n vs ls →
    ItemsLayout false m (Layout.joinedItems ls) ls' → heightItems vs + 1 ≤ n → ItemsLayout true n (Layout.joinedItems ls) ls'
  | _, _, _, .nil, h, _ => by
    simp only [Layout.joinedItems] at h ⊢
    cases h; exact .nil
  | _, _, _, .cons hl hr, h, hn => by
    simp only [Layout.joinedItems] at h ⊢
    simp only [heightItems] at hn
    cases h with
    | cons gl gr => exact .cons (item_again hl gl (by omega)) (items_again hr gr (by omega))
end

theorem document_again {n m : Nat} {v : Json F} {l l' : Layout F} (h : DocumentLayout true n v l) (h' : DocumentLayout false m l.joined l')
    (hn : height v + 1 ≤ n) : DocumentLayout true n l.joined l' := by
  refine value_again h h' ?_ (fun _ _ => rfl) hn hn hn
  cases h with
  | object he =>
    intro s hs
    simp only [dottedKeys, List.mem_filter, decide_eq_true_eq] at hs
    simp only [Layout.joined, dottedKeys, List.mem_filter, decide_eq_true_eq]
    exact ⟨dotKeys_joined he s hs.1 hs.2, hs.2⟩
  | _ => simp [dottedKeys]

end

end Toon
