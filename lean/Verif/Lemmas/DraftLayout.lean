import Verif.Lemmas.DraftRead
import Verif.Lemmas.Diff
import Verif.Lemmas.RoundTrip

/-!
# Drafts of layouts

What the encoder writes is a draft in which everything declared is true; a draft from which elements of one
array have been taken is not.
-/

namespace Toon

section
variable {F : Type}

theorem drafts_eq (ls : List (Layout F)) : Layout.drafts ls = ls.map Layout.draft := by
  induction ls with
  | nil => rfl
  | cons l ls ih => rw [Layout.drafts, ih, List.map_cons]

section
variable [F64 F]

mutual

theorem entryRows_layout (d : Char) (head : Str) (depth inner : Nat) (l : Layout F) :
    l.draft.entryRows d head depth inner = l.entryRows d head depth inner := by
  match l with
  | .prim p => simp only [Layout.draft, Draft.entryRows, Layout.entryRows]
  | .inline ps => simp only [Layout.draft, Draft.entryRows, Layout.entryRows, declaredInline, inlineText]
  | .table cols rows => simp only [Layout.draft, Draft.entryRows, Layout.entryRows]
  | .list items => simp only [Layout.draft, Draft.entryRows, Layout.entryRows, itemsRows_layout d inner items]
  | .object es => simp only [Layout.draft, Draft.entryRows, Layout.entryRows, entriesRows_layout d inner es]

theorem entriesRows_layout (d : Char) (depth : Nat) (es : List (Str × Layout F)) :
    Draft.entriesRows d depth (Layout.draftEntries es) = Layout.entriesRows d depth es := by
  match es with
  | [] => simp only [Layout.draftEntries, Draft.entriesRows, Layout.entriesRows]
  | (k, l) :: es =>
    simp only [Layout.draftEntries, Draft.entriesRows, Layout.entriesRows, entryRows_layout d _ depth (depth + 1) l,
      entriesRows_layout d depth es]

theorem itemRows_layout (d : Char) (depth : Nat) (l : Layout F) : l.draft.itemRows d depth = l.itemRows d depth := by
  match l with
  | .prim p => simp only [Layout.draft, Draft.itemRows, Layout.itemRows]
  | .inline ps => simp only [Layout.draft, Draft.itemRows, Layout.itemRows, declaredInline, inlineText]
  | .table cols rows => simp only [Layout.draft, Draft.itemRows, Layout.itemRows]
  | .list items => simp only [Layout.draft, Draft.itemRows, Layout.itemRows, itemsRows_layout d (depth + 1) items]
  | .object [] => simp only [Layout.draft, Layout.draftEntries, Draft.itemRows, Layout.itemRows]
  | .object ((k, l) :: es) =>
    simp only [Layout.draft, Layout.draftEntries, Draft.itemRows, Layout.itemRows, entryRows_layout d _ depth (depth + 2) l,
      entriesRows_layout d (depth + 1) es]

theorem itemsRows_layout (d : Char) (depth : Nat) (ls : List (Layout F)) :
    Draft.itemsRows d depth (Layout.drafts ls) = Layout.itemsRows d depth ls := by
  match ls with
  | [] => simp only [Layout.drafts, Draft.itemsRows, Layout.itemsRows]
  | l :: ls => simp only [Layout.drafts, Draft.itemsRows, Layout.itemsRows, itemRows_layout d depth l, itemsRows_layout d depth ls]

end

theorem documentRows_layout (d : Char) (l : Layout F) : l.draft.documentRows d = l.documentRows d := by
  cases l with
  | prim p => simp only [Layout.draft, Draft.documentRows, Layout.documentRows]
  | object es => simp only [Layout.draft, Draft.documentRows, Layout.documentRows, entriesRows_layout d 0 es]
  | _ =>
    simp only [Layout.draft, Draft.documentRows, Layout.documentRows]
    rw [← entryRows_layout]
    simp only [Layout.draft]

end

/-! ## Layouts of values -/

theorem lookupKey_mem' {k : Str} {es : List (Str × Json F)} {v : Json F} (h : lookupKey k es = some v) : ∃ e ∈ es, e.2 = v := by
  induction es with
  | nil => simp [lookupKey] at h
  | cons e es ih =>
    obtain ⟨k', w⟩ := e
    rw [lookupKey] at h
    split at h
    · exact ⟨(k', w), by simp, by simpa using h⟩
    · obtain ⟨e, he, h'⟩ := ih h
      exact ⟨e, List.mem_cons_of_mem _ he, h'⟩

theorem allPrimsItems_mem {P : Prim F → Prop} {vs : List (Json F)} (h : AllPrimsItems P vs) : ∀ v ∈ vs, AllPrims P v := by
  induction vs with
  | nil => simp
  | cons v vs ih =>
    intro w hw
    rcases List.mem_cons.mp hw with rfl | hw
    · exact h.1
    · exact ih h.2 w hw

theorem allPrimsEntries_mem {P : Prim F → Prop} {es : List (Str × Json F)} (h : AllPrimsEntries P es) : ∀ e ∈ es, AllPrims P e.2 := by
  induction es with
  | nil => simp
  | cons e es ih =>
    intro w hw
    rcases List.mem_cons.mp hw with rfl | hw
    · exact h.1
    · exact ih h.2 w hw

theorem cells_plain {P : Prim F → Prop} {es : List (Str × Json F)} (h : AllPrimsEntries P es) {cols : List Str} {row : List (Prim F)}
    (hr : Pointwise (fun c p => lookupKey c es = some (.prim p)) cols row) : ∀ p ∈ row, P p := by
  induction hr with
  | nil => simp
  | cons h1 _ ih =>
    intro p hp
    rcases List.mem_cons.mp hp with rfl | hp
    · obtain ⟨e, he, h2⟩ := lookupKey_mem' h1
      have := allPrimsEntries_mem h e he
      rw [h2] at this
      exact this
    · exact ih p hp

theorem table_rows_plain {P : Prim F → Prop} {items : List (Json F)} (h : AllPrimsItems P items) {cols : List Str}
    {rows : List (List (Prim F))} (hr : TableCells cols items rows) :
    ∀ row ∈ rows, row.length = cols.length ∧ ∀ p ∈ row, P p := by
  unfold TableCells at hr
  induction hr with
  | nil => simp
  | cons h1 _ ih =>
    intro row hm
    rcases List.mem_cons.mp hm with rfl | hm
    · obtain ⟨es, rfl, h2⟩ := h1
      exact ⟨h2.length_eq.symm, cells_plain h.1 h2⟩
    · exact ih h.2 row hm

theorem nested_prims {P : Prim F → Prop} (ks : List Str) {leaf : Json F} (h : AllPrims P (nested ks leaf)) : AllPrims P leaf := by
  induction ks with
  | nil => exact h
  | cons k ks ih => exact ih h.1

theorem nested_writable (k : Str) (ks : List Str) {leaf : Json F} (hi : ∀ s ∈ k :: ks, identifier s = true)
    (h : WritableEntries [(k, nested ks leaf)]) :
    Writable true leaf ∧ ∀ s, leaf = .prim (.str s) → headerLike s = false := by
  induction ks generalizing k with
  | nil => exact ⟨h.2.1, fun s hs => h.1 s hs (identifier_bareKey (hi k (by simp)))⟩
  | cons k' ks ih => exact ih k' (fun s hs => hi s (List.mem_cons_of_mem _ hs)) h.2.1

variable [F64 F]

theorem layout_str {fold : Bool} {n : Nat} {taken path : List Str} {fd : Nat} {v : Json F} {l : Layout F}
    (h : ValueLayout fold n taken path fd v l) {s : Str} (hs : l.draft = .prim (.str s)) : v = .prim (.str s) := by
  cases h with
  | prim p => simpa [Layout.draft] using hs
  | _ => simp [Layout.draft] at hs

theorem sound_inline {items : List (Json F)} {ps : List (Prim F)} (h : ArePrims items ps) (hl : items.length ≤ 100000000)
    (hp : AllPrimsItems PlainPrim items) : (Draft.inline ps.length ps).Honest ∧ (Draft.inline ps.length ps).Legible := by
  rw [ArePrims] at h
  subst h
  refine ⟨by rw [Draft.Honest], ?_⟩
  rw [Draft.Legible]
  exact ⟨by simpa using hl, fun p hm => allPrimsItems_mem hp (.prim p) (List.mem_map_of_mem hm)⟩

mutual

theorem value_sound {fold : Bool} {n : Nat} {taken path : List Str} {fd : Nat} (v : Json F) {l : Layout F}
    (h : ValueLayout fold n taken path fd v l) (hw : Writable true v) (hp : AllPrims PlainPrim v) :
    l.draft.Honest ∧ l.draft.Legible := by
  match v with
  | .prim p => cases h; rw [Layout.draft, Draft.Honest, Draft.Legible]; exact ⟨trivial, hp⟩
  | .arr items =>
    cases h with
    | inline h1 =>
      rw [Layout.draft]
      exact sound_inline h1 hw.1 hp
    | table h1 h2 =>
      have hr := table_rows_plain hp h2
      have hn := h2.length_eq
      rw [Layout.draft, Draft.Honest, Draft.Legible]
      refine ⟨⟨rfl, fun row hm => (hr row hm).1⟩, by rw [← hn]; exact hw.1, h1.1, hw.2.1 rfl _ h1, fun row hm => ⟨?_, (hr row hm).2⟩⟩
      rintro rfl
      exact h1.1 (List.length_eq_zero_iff.mp (hr [] hm).1.symm)
    | list h1 h2 h3 =>
      have hi : WritableItems items := by
        rcases hw.2.2 with ⟨_, h4⟩ | h4
        · exact absurd h4 h2
        · exact h4
      have ih := items_sound items h3 hi hp
      rw [Layout.draft, Draft.Honest, Draft.Legible]
      refine ⟨⟨by simp [drafts_eq], ih.1⟩, by rw [itemsLayout_length h3]; exact hw.1, by simp [drafts_eq], ih.2⟩
  | .obj es =>
    cases h with
    | object h1 =>
      rw [Layout.draft, Draft.Honest, Draft.Legible]
      exact entries_sound es h1 hw hp
termination_by sizeOf v

theorem entries_sound {fold : Bool} {n : Nat} {siblings taken path : List Str} {fd : Nat} (es : List (Str × Json F))
    {ls : List (Str × Layout F)} (h : EntriesLayout fold n siblings taken path fd es ls)
    (hw : WritableEntries es) (hp : AllPrimsEntries PlainPrim es) :
    Draft.HonestEntries (Layout.draftEntries ls) ∧ Draft.LegibleEntries (Layout.draftEntries ls) := by
  match es with
  | [] => cases h; simp [Layout.draftEntries, Draft.HonestEntries, Draft.LegibleEntries]
  | (k, v) :: es =>
    cases h with
    | @folded _ _ _ _ _ _ ks leaf l _ ls h1 h2 h3 h4 =>
      have hlt : sizeOf leaf < sizeOf v := by
        have := nested_size ks leaf h2.2.1
        rw [← h2.1.1] at this; exact this
      have hv := h2.1.1
      have a := nested_writable k ks h2.2.2.1 (by rw [← hv]; exact ⟨hw.1, hw.2.1, trivial⟩)
      have ih := value_sound leaf h3 a.1 (nested_prims ks (by rw [← hv]; exact hp.1))
      have ih' := entries_sound es h4 hw.2.2 hp.2
      rw [Layout.draftEntries, Draft.HonestEntries, Draft.LegibleEntries]
      exact ⟨⟨ih.1, ih'.1⟩, fun s hs _ => a.2 s (layout_str h3 hs), ih.2, ih'.2⟩
    | plain h1 h2 h3 =>
      have ih := value_sound v h2 hw.2.1 hp.1
      have ih' := entries_sound es h3 hw.2.2 hp.2
      rw [Layout.draftEntries, Draft.HonestEntries, Draft.LegibleEntries]
      exact ⟨⟨ih.1, ih'.1⟩, fun s hs => hw.1 s (layout_str h2 hs), ih.2, ih'.2⟩
termination_by sizeOf es

theorem item_sound {fold : Bool} {n : Nat} (v : Json F) {l : Layout F} (h : ItemLayout fold n v l)
    (hw : Writable false v) (hp : AllPrims PlainPrim v) : l.draft.Honest ∧ l.draft.Legible := by
  match v with
  | .prim p => cases h; rw [Layout.draft, Draft.Honest, Draft.Legible]; exact ⟨trivial, hp⟩
  | .arr items =>
    cases h with
    | inline h1 =>
      rw [Layout.draft]
      exact sound_inline h1 hw.1 hp
    | list h1 h2 =>
      have hi : WritableItems items := by
        rcases hw.2.2 with ⟨h4, _⟩ | h4
        · cases h4
        · exact h4
      have ih := items_sound items h2 hi hp
      rw [Layout.draft, Draft.Honest, Draft.Legible]
      refine ⟨⟨by simp [drafts_eq], ih.1⟩, by rw [itemsLayout_length h2]; exact hw.1, by simp [drafts_eq], ih.2⟩
  | .obj [] => cases h; simp [Layout.draft, Layout.draftEntries, Draft.Honest, Draft.HonestEntries, Draft.Legible, Draft.LegibleEntries]
  | .obj ((k, v) :: es) =>
    cases h with
    | object h1 h2 =>
      have ih := value_sound v h1 hw.2.1 hp.1
      have ih' := entries_sound es h2 hw.2.2 hp.2
      rw [Layout.draft, Layout.draftEntries, Draft.Honest, Draft.Legible, Draft.HonestEntries, Draft.LegibleEntries]
      exact ⟨⟨ih.1, ih'.1⟩, fun s hs => hw.1 s (layout_str h1 hs), ih.2, ih'.2⟩
termination_by sizeOf v

theorem items_sound {fold : Bool} {n : Nat} (vs : List (Json F)) {ls : List (Layout F)} (h : ItemsLayout fold n vs ls)
    (hw : WritableItems vs) (hp : AllPrimsItems PlainPrim vs) :
    Draft.HonestItems (Layout.drafts ls) ∧ Draft.LegibleItems (Layout.drafts ls) := by
  match vs with
  | [] => cases h; simp [Layout.drafts, Draft.HonestItems, Draft.LegibleItems]
  | v :: vs =>
    cases h with
    | cons h1 h2 =>
      have ih := item_sound v h1 hw.1 hp.1
      have ih' := items_sound vs h2 hw.2 hp.2
      rw [Layout.drafts, Draft.HonestItems, Draft.LegibleItems]
      exact ⟨⟨ih.1, ih'.1⟩, ih.2, ih'.2⟩
termination_by sizeOf vs

end

/-! ## Losses -/

theorem legibleItems_iff (vs : List (Draft F)) : Draft.LegibleItems vs ↔ ∀ v ∈ vs, v.Legible := by
  induction vs with
  | nil => simp [Draft.LegibleItems]
  | cons v vs ih => simp [Draft.LegibleItems, ih]

omit [F64 F] in
theorem honestItems_iff (vs : List (Draft F)) : Draft.HonestItems vs ↔ ∀ v ∈ vs, v.Honest := by
  induction vs with
  | nil => simp [Draft.HonestItems]
  | cons v vs ih => simp [Draft.HonestItems, ih]

theorem legibleEntries_iff (es : List (Str × Draft F)) : Draft.LegibleEntries es ↔
    ∀ e ∈ es, (∀ s, e.2 = .prim (.str s) → bareKey e.1 = true → headerLike s = false) ∧ e.2.Legible := by
  induction es with
  | nil => simp [Draft.LegibleEntries]
  | cons e es ih => obtain ⟨k, v⟩ := e; simp only [Draft.LegibleEntries, ih, List.forall_mem_cons, and_assoc]

omit [F64 F] in
theorem honestEntries_iff (es : List (Str × Draft F)) : Draft.HonestEntries es ↔ ∀ e ∈ es, e.2.Honest := by
  induction es with
  | nil => simp [Draft.HonestEntries]
  | cons e es ih => obtain ⟨k, v⟩ := e; simp only [Draft.HonestEntries, ih, List.forall_mem_cons]

theorem sublist_shorter {α : Type} {a b : List α} (h : a.Sublist b) (hn : a ≠ b) : a.length < b.length := by
  rcases Nat.lt_or_ge a.length b.length with h1 | h1
  · exact h1
  · exact absurd (h.eq_of_length_le h1) hn

omit [F64 F] in
theorem Draft.Loses.not_prim {a b : Draft F} (h : a.Loses b) (p : Prim F) : b ≠ .prim p := by
  cases h <;> simp

omit [F64 F] in
theorem Draft.Loses.not_empty {a b : Draft F} (h : a.Loses b) : b ≠ .object [] := by
  cases h <;> simp

omit [F64 F] in
theorem Draft.Loses.dishonest {a b : Draft F} (h : a.Loses b) (ha : a.Honest) : ¬ b.Honest := by
  induction h with
  | inline h1 h2 =>
    rw [Draft.Honest] at ha ⊢
    have := sublist_shorter h1 h2
    omega
  | table h1 h2 =>
    rw [Draft.Honest] at ha ⊢
    have := sublist_shorter h1 h2
    omega
  | list h1 h2 =>
    rw [Draft.Honest] at ha ⊢
    have := sublist_shorter h1 h2
    omega
  | item _ ih =>
    rw [Draft.Honest, honestItems_iff] at ha ⊢
    intro hb
    exact ih (ha.2 _ (by simp)) (hb.2 _ (by simp))
  | entry _ ih =>
    rw [Draft.Honest, honestEntries_iff] at ha ⊢
    intro hb
    exact ih (ha _ (List.mem_append_right _ (List.mem_cons_self ..))) (hb _ (List.mem_append_right _ (List.mem_cons_self ..)))

omit [F64 F] in
theorem Draft.Loses.dishonest_more {a b : Draft F} (h : a.Loses b) (hb : b.Honest) : ¬ a.Honest :=
  fun ha => h.dishonest ha hb

theorem Draft.Loses.legible {a b : Draft F} (h : a.Loses b) (ha : a.Honest) (hl : a.Legible) : b.Legible := by
  induction h with
  | inline h1 h2 =>
    rw [Draft.Legible] at hl ⊢
    exact ⟨hl.1, fun p hp => hl.2 p (h1.subset hp)⟩
  | table h1 h2 =>
    rw [Draft.Legible] at hl ⊢
    exact ⟨hl.1, hl.2.1, hl.2.2.1, fun p hp => hl.2.2.2 p (h1.subset hp)⟩
  | @list n items items' h1 h2 =>
    rw [Draft.Honest] at ha
    rw [Draft.Legible, legibleItems_iff] at hl ⊢
    refine ⟨hl.1, ?_, fun p hp => hl.2.2 p (h1.subset hp)⟩
    rw [List.getElem?_eq_none (by have := sublist_shorter h1 h2; omega)]
    simp
  | @item n pre post v w h1 ih =>
    rw [Draft.Honest, honestItems_iff] at ha
    rw [Draft.Legible, legibleItems_iff] at hl ⊢
    refine ⟨hl.1, ?_, ?_⟩
    · rw [List.getElem?_eq_none (by have := ha.1; simp only [List.length_append, List.length_cons] at this ⊢; omega)]
      simp
    · intro x hx
      rcases List.mem_append.mp hx with hx | hx
      · exact hl.2.2 x (List.mem_append_left _ hx)
      · rcases List.mem_cons.mp hx with rfl | hx
        · exact ih (ha.2 _ (by simp)) (hl.2.2 _ (by simp))
        · exact hl.2.2 x (by simp [hx])
  | @entry pre post k v w h1 ih =>
    rw [Draft.Honest, honestEntries_iff] at ha
    rw [Draft.Legible, legibleEntries_iff] at hl ⊢
    intro x hx
    rcases List.mem_append.mp hx with hx | hx
    · exact hl x (List.mem_append_left _ hx)
    · rcases List.mem_cons.mp hx with rfl | hx
      · refine ⟨fun s hs => absurd hs (h1.not_prim _), ih (ha (k, v) (by simp)) (hl (k, v) (by simp)).2⟩
      · exact hl x (by simp [hx])

/-! ## Texts -/

theorem decodeStream_written_draft [LawfulF64 F] {indent : Nat} (hi : 0 < indent) {d : Char} (hd : GoodDelim d) (v : Draft F) (h : v.Legible) :
    Tells (decodeStream (F := F) indent true (splitOn '\n' (v.written indent d))) v.Honest (emitEvents v.value) := by
  have key := decodeStream_draft hi hd v h
  rw [Draft.written, separated_eq]
  cases hr : (v.documentRows d).map (rowText indent) with
  | nil =>
    rw [hr] at key
    exact key
  | cons l ls =>
    rw [splitOn_joinWith (by simp), ← hr]
    · exact key
    · intro x hx
      rw [← hr] at hx
      obtain ⟨r, hm, rfl⟩ := List.mem_map.mp hx
      have := linesOk_document hd h.readable ⟨r.1, r.2⟩ (by rw [outs]; exact List.mem_map_of_mem hm)
      exact renderLine_lf (indent := indent) (l := ⟨r.1, r.2⟩) this

end

end Toon
