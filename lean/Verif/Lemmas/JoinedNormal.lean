import Verif.Lemmas.Joined
import Verif.Lemmas.Written
import Verif.Lemmas.ShapeExact
import Verif.Lemmas.ExpandMerge

/-! What the value with joined keys keeps: lemmas for C99. -/

namespace Toon

section
variable {F : Type}

theorem cell_col {α β : Type} {R : α → β → Prop} {as : List α} {bs : List β} (h : Pointwise R as bs) : ∀ b ∈ bs, ∃ a, R a b := by
  induction h with
  | nil => simp
  | cons h0 _ ih =>
    intro b hb
    rcases List.mem_cons.mp hb with rfl | hb
    · exact ⟨_, h0⟩
    · exact ih b hb

theorem joined_cells {R : Prim F → Prop} {cols : List Str} {items : List (Json F)} {rows : List (List (Prim F))}
    (h : TableCells cols items rows) (hR : ∀ item ∈ items, ∀ es, item = .obj es → ∀ k p, (k, Json.prim p) ∈ es → R p) :
    ∀ row ∈ rows, cols.length = row.length ∧ ∀ p ∈ row, R p := by
  unfold TableCells at h
  induction h with
  | nil => simp
  | cons h0 _ ih =>
    intro row hr
    rcases List.mem_cons.mp hr with rfl | hr
    · obtain ⟨es, rfl, hp⟩ := h0
      have hes := hR _ (by simp) es rfl
      exact ⟨row_len hp, fun p hm => by
        obtain ⟨c, hc⟩ := cell_col hp p hm
        exact hes _ _ (lookup_mem hc)⟩
    · exact ih (fun item hi => hR item (List.mem_cons_of_mem _ hi)) row hr

theorem zip_prim {cols : List Str} {row : List (Prim F)} {e : Str × Json F} (h : e ∈ cols.zip (row.map .prim)) :
    ∃ p ∈ row, e.2 = .prim p := by
  have := (List.of_mem_zip (a := e.1) (b := e.2) h).2
  obtain ⟨p, hp, he⟩ := List.mem_map.mp this
  exact ⟨p, hp, he.symm⟩

/-! ## Columns -/

mutual
theorem value_joinedAligned {fold : Bool} {n : Nat} : ∀ {taken path : List Str} {fd : Nat} {v : Json F} {l : Layout F},
    ValueLayout fold n taken path fd v l → l.ListsStay → Aligned true l.joined
  | _, _, _, _, _, .prim p, _ => by simp [Layout.joined, Aligned]
  | _, _, _, _, _, .inline (ps := ps) _, _ => by
    simp only [Layout.joined, Aligned]
    refine ⟨fun _ cols ht => absurd ⟨_, rfl⟩ (table_not_prims ht), alignedItems_of fun v hv => ?_⟩
    obtain ⟨p, _, rfl⟩ := List.mem_map.mp hv
    simp [Aligned]
  | _, _, _, _, _, .table (cols := cols) (rows := rows) h1 h2, _ => by
    have hc := joined_cells (R := fun _ => True) h2 (by simp)
    simp only [Layout.joined, Aligned]
    refine ⟨fun _ cols' ht es hm => ?_, alignedItems_of fun v hv => ?_⟩
    · have key : ∀ es : List (Str × Json F), Json.obj es ∈ (rows.map fun row => Json.obj (cols.zip (row.map .prim))) → es.map Prod.fst = cols := fun es hm => by
        obtain ⟨row, hr, he⟩ := List.mem_map.mp hm
        rw [← Json.obj.inj he, List.map_fst_zip (by simp [(hc row hr).1])]
      obtain ⟨es0, rest, h3, h4⟩ := ht.2.1
      rw [key es hm, ← h4, key es0 (by rw [h3]; simp)]
    · obtain ⟨row, _, rfl⟩ := List.mem_map.mp hv
      simp only [Aligned]
      exact alignedEntries_prims fun e he => by obtain ⟨p, _, hp⟩ := zip_prim he; exact ⟨p, hp⟩
  | _, _, _, _, _, .list _ _ hi, hs => by
    simp only [Layout.joined, Aligned]
    exact ⟨fun _ cols ht => absurd ⟨_, ht⟩ hs.1, items_joinedAligned hi hs.2⟩
  | _, _, _, _, _, .object he, hs => by simp only [Layout.joined, Aligned]; exact entries_joinedAligned he hs
theorem entries_joinedAligned {fold : Bool} {n : Nat} : ∀ {siblings taken path : List Str} {fd : Nat}
    {es : List (Str × Json F)} {ls : List (Str × Layout F)}, EntriesLayout fold n siblings taken path fd es ls →
    Layout.ListsStayEntries ls → AlignedEntries (Layout.joinedEntries ls)
  | _, _, _, _, _, _, .nil, _ => by simp [Layout.joinedEntries, AlignedEntries]
  | _, _, _, _, _, _, .folded _ _ hl he, hs => ⟨value_joinedAligned hl hs.1, entries_joinedAligned he hs.2⟩
  | _, _, _, _, _, _, .plain _ hl he, hs => ⟨value_joinedAligned hl hs.1, entries_joinedAligned he hs.2⟩
theorem item_joinedAligned {fold : Bool} {n : Nat} : ∀ {v : Json F} {l : Layout F}, ItemLayout fold n v l → l.ListsStayItem →
    Aligned false l.joined
  | _, _, .prim p, _ => by simp [Layout.joined, Aligned]
  | _, _, .inline (ps := ps) _, _ => by
    simp only [Layout.joined, Aligned]
    refine ⟨by simp, alignedItems_of fun v hv => ?_⟩
    obtain ⟨p, _, rfl⟩ := List.mem_map.mp hv
    simp [Aligned]
  | _, _, .list _ hi, hs => by simp only [Layout.joined, Aligned]; exact ⟨by simp, items_joinedAligned hi hs⟩
  | _, _, .empty, _ => by simp [Layout.joined, Layout.joinedEntries, Aligned, AlignedEntries]
  | _, _, .object hl he, hs => by
    simp only [Layout.joined, Layout.joinedEntries, Aligned]
    exact ⟨value_joinedAligned hl hs.1, entries_joinedAligned he hs.2⟩
theorem items_joinedAligned {fold : Bool} {n : Nat} : ∀ {vs : List (Json F)} {ls : List (Layout F)}, ItemsLayout fold n vs ls →
    Layout.ListsStayItems ls → AlignedItems (Layout.joinedItems ls)
  | _, _, .nil, _ => by simp [Layout.joinedItems, AlignedItems]
  | _, _, .cons hl hr, hs => ⟨item_joinedAligned hl hs.1, items_joinedAligned hr hs.2⟩
end

/-! ## Numbers -/

variable [F64 F]

theorem normalItems_all {vs : List (Json F)} : NormalItems vs ↔ ∀ v ∈ vs, Normal v := by
  induction vs with
  | nil => simp [NormalItems]
  | cons v vs ih => simp [NormalItems, ih]

theorem normalEntries_all {es : List (Str × Json F)} : NormalEntries es ↔ ∀ e ∈ es, Normal e.2 := by
  induction es with
  | nil => simp [NormalEntries]
  | cons e es ih => obtain ⟨k, v⟩ := e; simp [NormalEntries, ih]

theorem normal_nested : ∀ (ks : List Str) {v : Json F}, Normal (nested ks v) → Normal v
  | [], _, h => h
  | _ :: ss, _, h => by
    simp only [nested, Normal, NormalEntries] at h
    exact normal_nested ss h.1

mutual
theorem value_joinedNormal {fold : Bool} {n : Nat} : ∀ {taken path : List Str} {fd : Nat} {v : Json F} {l : Layout F},
    ValueLayout fold n taken path fd v l → Normal v → Normal l.joined
  | _, _, _, _, _, .prim p, h => h
  | _, _, _, _, _, .inline hp, h => by rw [hp] at h; exact h
  | _, _, _, _, _, .table (cols := cols) (items := items) h1 h2, h => by
    have hc := joined_cells (R := fun p => normPrim p = p) h2 (by
      intro item hi es he k p hm
      simp only [Normal] at h
      have h3 := normalItems_all.mp h item hi
      rw [he] at h3
      simp only [Normal] at h3
      exact normalEntries_all.mp h3 _ hm)
    simp only [Layout.joined, Normal]
    refine normalItems_all.mpr fun v hv => ?_
    obtain ⟨row, hr, rfl⟩ := List.mem_map.mp hv
    simp only [Normal]
    refine normalEntries_all.mpr fun e he => ?_
    obtain ⟨p, hp, hv⟩ := zip_prim he
    rw [hv]
    exact (hc row hr).2 p hp
  | _, _, _, _, _, .list _ _ hi, h => by
    simp only [Normal] at h
    simp only [Layout.joined, Normal]
    exact items_joinedNormal hi h
  | _, _, _, _, _, .object he, h => by
    simp only [Normal] at h
    simp only [Layout.joined, Normal]
    exact entries_joinedNormal he h
theorem entries_joinedNormal {fold : Bool} {n : Nat} : ∀ {siblings taken path : List Str} {fd : Nat}
    {es : List (Str × Json F)} {ls : List (Str × Layout F)}, EntriesLayout fold n siblings taken path fd es ls →
    NormalEntries es → NormalEntries (Layout.joinedEntries ls)
  | _, _, _, _, _, _, .nil, _ => by simp [Layout.joinedEntries, NormalEntries]
  | _, _, _, _, _, _, .folded (ks := ks) _ hf hl he, h => by
    refine ⟨value_joinedNormal hl (normal_nested ks ?_), entries_joinedNormal he h.2⟩
    rw [← hf.1.1]; exact h.1
  | _, _, _, _, _, _, .plain _ hl he, h => ⟨value_joinedNormal hl h.1, entries_joinedNormal he h.2⟩
theorem item_joinedNormal {fold : Bool} {n : Nat} : ∀ {v : Json F} {l : Layout F}, ItemLayout fold n v l → Normal v → Normal l.joined
  | _, _, .prim p, h => h
  | _, _, .inline hp, h => by rw [hp] at h; exact h
  | _, _, .list _ hi, h => by
    simp only [Normal] at h
    simp only [Layout.joined, Normal]
    exact items_joinedNormal hi h
  | _, _, .empty, _ => by simp [Layout.joined, Layout.joinedEntries, Normal, NormalEntries]
  | _, _, .object hl he, h => by
    simp only [Normal, NormalEntries] at h
    simp only [Layout.joined, Layout.joinedEntries, Normal]
    exact ⟨value_joinedNormal hl h.1, entries_joinedNormal he h.2⟩
theorem items_joinedNormal {fold : Bool} {n : Nat} : ∀ {vs : List (Json F)} {ls : List (Layout F)}, ItemsLayout fold n vs ls →
    NormalItems vs → NormalItems (Layout.joinedItems ls)
  | _, _, .nil, _ => by simp [Layout.joinedItems, NormalItems]
  | _, _, .cons hl hr, h => ⟨item_joinedNormal hl h.1, items_joinedNormal hr h.2⟩
end

end

end Toon
