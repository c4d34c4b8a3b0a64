import Verif.Lemmas.LayoutMeans
import Verif.Lemmas.Redact
import Verif.Props.Misread

/-! The keys that are read from a layout, and layouts that are not read at all: lemmas for C97. -/

namespace Toon

section
variable {F : Type} [F64 F]

theorem misreadTree_as {strict : Bool} {k s : Str} {e : Str × Bool × ETree F} (h : MisreadTree strict k s e) :
    MisreadAs strict k s (e.1, e.2.2.json) := by
  obtain ⟨h, text, cells, prims, h1, h2, h3, h4, h5, h6, _, h8⟩ := h
  refine ⟨h, text, cells, prims, h1, h2, h3, h4, h5, h6, ?_⟩
  have e0 : ∀ ps : List (Prim F), ETree.jsonItems (ps.map ETree.prim) = ps.map Json.prim := by
    intro ps
    induction ps with
    | nil => rfl
    | cons p ps ih => simp [ETree.jsonItems, ETree.json, ih]
  rw [h8, ETree.json, e0]

/-- What is true of a key that is read. -/
def KeyRead (K : Str → Prop) (n : Nat) (k : Str) (q : Bool) : Prop := (FoldedFrom K n k ∧ q = !bareKey k) ∨ ':' ∈ k

omit [F64 F] in
theorem treeKeys_prims (P : Str → Bool → Prop) (ps : List (Prim F)) : ETree.AllKeysItems P (ps.map ETree.prim) := by
  induction ps with
  | nil => simp [ETree.AllKeysItems]
  | cons p ps ih => simp [ETree.AllKeysItems, ETree.AllKeys, ih]

omit [F64 F] in
theorem treeKeys_cells {P : Str → Bool → Prop} : ∀ (cs : List (Str × Prim F)), (∀ c ∈ cs, P c.1 (!bareKey c.1)) →
    ETree.AllKeysEntries P (cs.map fun c => (c.1, !bareKey c.1, .prim c.2))
  | [], _ => by simp [ETree.AllKeysEntries]
  | c :: cs, h => by
    simp only [List.map_cons, ETree.AllKeysEntries, ETree.AllKeys]
    exact ⟨h c (by simp), trivial, treeKeys_cells cs fun c hc => h c (by simp [hc])⟩

omit [F64 F] in
theorem treeKeys_rows {P : Str → Bool → Prop} (cols : List Str) (hc : ∀ c ∈ cols, P c (!bareKey c)) : ∀ rows : List (List (Prim F)),
    ETree.AllKeysItems P (rows.map fun row => .obj ((cols.zip row).map fun c => (c.1, !bareKey c.1, .prim c.2)))
  | [] => by simp [ETree.AllKeysItems]
  | row :: rows => by
    simp only [List.map_cons, ETree.AllKeysItems, ETree.AllKeys]
    exact ⟨treeKeys_cells _ fun c h => hc _ (List.of_mem_zip h).1, treeKeys_rows cols hc rows⟩

omit [F64 F] in
theorem allKeys_nested {K : Str → Prop} : ∀ (ks : List Str) (leaf : Json F), AllKeys K (nested ks leaf) → (∀ s ∈ ks, K s) ∧ AllKeys K leaf
  | [], _, h => ⟨by simp, h⟩
  | s :: ss, leaf, h => by
    simp only [nested, AllKeys, AllKeysEntries, and_true] at h
    obtain ⟨h1, h2⟩ := allKeys_nested ss leaf h.2
    exact ⟨by simpa using ⟨h.1, h1⟩, h2⟩

/-- The key of one entry that is read. -/
theorem entryKey_read {strict : Bool} {K : Str → Prop} {n : Nat} {k : Str} {l : Layout F} {e : Str × Bool × ETree F}
    (hk : FoldedFrom K n k) (hl : ∀ t, l.Means strict t → t.AllKeys (KeyRead K n)) (h : EntryLaidOut strict k l e) :
    KeyRead K n e.1 e.2.1 ∧ e.2.2.AllKeys (KeyRead K n) := by
  rcases h with ⟨s, rfl, h1, h2⟩ | ⟨_, h1, h2, h3⟩
  · obtain ⟨more, hm⟩ := (C91_misread strict k s _ h1.1 (misreadTree_as h2)).1
    simp only at hm
    refine ⟨Or.inr (by rw [hm]; simp), ?_⟩
    obtain ⟨h, _, _, prims, _, _, _, _, _, _, _, h8⟩ := h2
    rw [h8, ETree.AllKeys]
    exact treeKeys_prims _ _
  · rw [h1, h2]
    exact ⟨Or.inl ⟨hk, rfl⟩, hl _ h3⟩

mutual
theorem value_keysRead {strict fold : Bool} {n : Nat} {K : Str → Prop} : ∀ {taken path : List Str} {fd : Nat} {v : Json F} {l : Layout F},
    ValueLayout fold n taken path fd v l → fd ≤ n → AllKeys K v → ∀ t, l.Means strict t → t.AllKeys (KeyRead K n)
  | _, _, _, _, _, .prim p, _, _, t, h => by
    simp only [Layout.Means] at h
    rw [h, ETree.AllKeys]; trivial
  | _, _, _, _, _, .inline _, _, _, t, h => by
    simp only [Layout.Means] at h
    rw [h.2, ETree.AllKeys]
    exact treeKeys_prims _ _
  | _, _, _, _, _, .table (cols := cols) ht _, _, hk, t, h => by
    simp only [Layout.Means] at h
    rw [h.2.2, ETree.AllKeys]
    refine treeKeys_rows _ (fun c hc => Or.inl ⟨Or.inl ?_, rfl⟩) _
    obtain ⟨es, rest, rfl, rfl⟩ := ht.2.1
    simp only [AllKeys, AllKeysItems] at hk
    exact allKeysEntries_fst hk.1 c hc
  | _, _, _, _, _, .list _ _ hi, _, hk, t, h => by
    simp only [Layout.Means] at h
    obtain ⟨_, ts, rfl, h⟩ := h
    rw [ETree.AllKeys]
    exact items_keysRead hi (by simpa only [AllKeys] using hk) ts h
  | _, _, _, _, _, .object he, hfd, hk, t, h => by
    simp only [Layout.Means] at h
    obtain ⟨ts, rfl, h⟩ := h
    rw [ETree.AllKeys]
    exact entries_keysRead he hfd (by simpa only [AllKeys] using hk) ts h
theorem entries_keysRead {strict fold : Bool} {n : Nat} {K : Str → Prop} : ∀ {siblings taken path : List Str} {fd : Nat}
    {es : List (Str × Json F)} {ls : List (Str × Layout F)},
    EntriesLayout fold n siblings taken path fd es ls → fd ≤ n → AllKeysEntries K es →
    ∀ ts, Layout.MeansEntries strict ls ts → ETree.AllKeysEntries (KeyRead K n) ts
  | _, _, _, _, _, _, .nil, _, _, ts, h => by
    simp only [Layout.MeansEntries] at h
    rw [h, ETree.AllKeysEntries]; trivial
  | _, _, _, fd, _, _, .folded (k := k) (ks := ks) (leaf := leaf) (l := l) _ hf hl he, hfd, hk, ts, h => by
    simp only [Layout.MeansEntries] at h
    obtain ⟨⟨k', q', t'⟩, rest, rfl, h1, h2⟩ := h
    simp only [AllKeysEntries] at hk
    obtain ⟨⟨h3, h4, _⟩, h5, h6, _⟩ := hf
    obtain ⟨h7, h8⟩ := allKeys_nested ks leaf (h3 ▸ hk.2.1)
    have hfrom : FoldedFrom K n (dotted (k :: ks)) := by
      refine Or.inr ⟨k :: ks, ?_, ?_, ?_, rfl⟩
      · have := List.length_pos_iff.mpr h5; simp only [List.length_cons]; omega
      · simp only [List.length_cons]; omega
      · intro s hs
        refine ⟨h6 s hs, ?_⟩
        rcases List.mem_cons.mp hs with rfl | hs
        · exact hk.1
        · exact h7 s hs
    have h9 := entryKey_read hfrom (value_keysRead hl (Nat.le_trans (Nat.sub_le _ _) hfd) h8) h1
    rw [ETree.AllKeysEntries]
    exact ⟨h9.1, h9.2, entries_keysRead he hfd hk.2.2 rest h2⟩
  | _, _, _, fd, _, _, .plain (k := k) (l := l) _ hl he, hfd, hk, ts, h => by
    simp only [Layout.MeansEntries] at h
    obtain ⟨⟨k', q', t'⟩, rest, rfl, h1, h2⟩ := h
    simp only [AllKeysEntries] at hk
    have h9 := entryKey_read (Or.inl hk.1) (value_keysRead hl hfd hk.2.1) h1
    rw [ETree.AllKeysEntries]
    exact ⟨h9.1, h9.2, entries_keysRead he hfd hk.2.2 rest h2⟩
theorem item_keysRead {strict fold : Bool} {n : Nat} {K : Str → Prop} : ∀ {v : Json F} {l : Layout F},
    ItemLayout fold n v l → AllKeys K v → ∀ t, l.Means strict t → t.AllKeys (KeyRead K n)
  | _, _, .prim p, _, t, h => by
    simp only [Layout.Means] at h
    rw [h, ETree.AllKeys]; trivial
  | _, _, .inline _, _, t, h => by
    simp only [Layout.Means] at h
    rw [h.2, ETree.AllKeys]
    exact treeKeys_prims _ _
  | _, _, .list _ hi, hk, t, h => by
    simp only [Layout.Means] at h
    obtain ⟨_, ts, rfl, h⟩ := h
    rw [ETree.AllKeys]
    exact items_keysRead hi (by simpa only [AllKeys] using hk) ts h
  | _, _, .empty, _, t, h => by
    simp only [Layout.Means, Layout.MeansEntries] at h
    obtain ⟨ts, rfl, rfl⟩ := h
    rw [ETree.AllKeys, ETree.AllKeysEntries]; trivial
  | _, _, .object (k := k) (l := l) hl he, hk, t, h => by
    simp only [Layout.Means, Layout.MeansEntries] at h
    obtain ⟨_, rfl, ⟨k', q', t'⟩, rest, rfl, h1, h2⟩ := h
    simp only [AllKeys, AllKeysEntries] at hk
    have h9 := entryKey_read (Or.inl hk.1) (value_keysRead hl (Nat.le_refl _) hk.2.1) h1
    rw [ETree.AllKeys, ETree.AllKeysEntries]
    exact ⟨h9.1, h9.2, entries_keysRead he (Nat.le_refl _) hk.2.2 rest h2⟩
theorem items_keysRead {strict fold : Bool} {n : Nat} {K : Str → Prop} : ∀ {vs : List (Json F)} {ls : List (Layout F)},
    ItemsLayout fold n vs ls → AllKeysItems K vs → ∀ ts, Layout.MeansItems strict ls ts → ETree.AllKeysItems (KeyRead K n) ts
  | _, _, .nil, _, ts, h => by
    simp only [Layout.MeansItems] at h
    rw [h, ETree.AllKeysItems]; trivial
  | _, _, .cons hl hr, hk, ts, h => by
    simp only [Layout.MeansItems] at h
    obtain ⟨t, rest, rfl, h1, h2⟩ := h
    simp only [AllKeysItems] at hk
    rw [ETree.AllKeysItems]
    exact ⟨item_keysRead hl hk.1 t h1, items_keysRead hr hk.2 rest h2⟩
end

/-! ## A field that denies the whole text -/

omit [F64 F] in
theorem fieldIn_nested {k : Str} {p : Prim F} : ∀ (ks : List Str) (k0 : Str) (leaf : Json F), FieldIn k p (.obj [(k0, nested ks leaf)]) →
    FieldIn k p leaf ∨ leaf = .prim p
  | [], k0, leaf, h => by
    cases h with
    | here h => simp only [nested, List.mem_singleton, Prod.mk.injEq] at h; exact Or.inr h.2.symm
    | inside h h' =>
      simp only [nested, List.mem_singleton, Prod.mk.injEq] at h
      rw [h.2] at h'; exact Or.inl h'
  | s :: ss, k0, leaf, h => by
    cases h with
    | here h => simp [nested] at h
    | inside h h' =>
      simp only [List.mem_singleton, Prod.mk.injEq] at h
      rw [h.2, nested] at h'
      exact fieldIn_nested ss s leaf h'

theorem mem_normalizeEntries {k : Str} {v : Json F} : ∀ {es : List (Str × Json F)}, (k, v) ∈ es → (k, normalize v) ∈ normalizeEntries es
  | (k', v') :: es, h => by
    rw [normalizeEntries]
    rcases List.mem_cons.mp h with h | h
    · simp only [Prod.mk.injEq] at h
      rw [h.1, h.2]; simp
    · exact List.mem_cons_of_mem _ (mem_normalizeEntries h)

theorem fieldIn_normalize {k s : Str} {v : Json F} (h : FieldIn k (.str s) v) : FieldIn k (.str s) (normalize v) := by
  induction h with
  | here h =>
    rw [normalize]
    have := mem_normalizeEntries h
    rw [show normalize (.prim (.str s) : Json F) = .prim (.str s) by simp [normalize, normPrim]] at this
    exact .here this
  | inside h _ ih =>
    rw [normalize]
    exact .inside (mem_normalizeEntries h) ih

theorem denied_prim {k : Str} (hk : bareKey k = true) (e : Str × Bool × ETree F) :
    ¬ EntryLaidOut true k (.prim (.str "[2]: x".toList)) e := by
  rintro (⟨s, h1, _, h2⟩ | ⟨h1, _⟩)
  · simp only [Layout.prim.injEq, Prim.str.injEq] at h1
    subst h1
    exact misread_denied hk _ (misreadTree_as h2)
  · exact h1 _ rfl ⟨hk, by decide +kernel⟩

mutual
theorem value_denied {fold : Bool} {n : Nat} {k : Str} (hk : bareKey k = true) : ∀ {taken path : List Str} {fd : Nat}
    {v : Json F} {l : Layout F}, ValueLayout fold n taken path fd v l → FieldIn k (.str "[2]: x".toList) v → ∀ t, ¬ l.Means true t
  | _, _, _, _, _, .prim p, hf, t, _ => by cases hf
  | _, _, _, _, _, .inline _, hf, t, _ => by cases hf
  | _, _, _, _, _, .table _ _, hf, t, _ => by cases hf
  | _, _, _, _, _, .list _ _ _, hf, t, _ => by cases hf
  | _, _, _, _, _, .object (es := es) he, hf, t, h => by
    simp only [Layout.Means] at h
    obtain ⟨ts, _, h⟩ := h
    exact entries_denied hk he hf ts h
theorem entries_denied {fold : Bool} {n : Nat} {k : Str} (hk : bareKey k = true) : ∀ {siblings taken path : List Str} {fd : Nat}
    {es : List (Str × Json F)} {ls : List (Str × Layout F)},
    EntriesLayout fold n siblings taken path fd es ls → FieldIn k (.str "[2]: x".toList) (.obj es) →
    ∀ ts, ¬ Layout.MeansEntries true ls ts
  | _, _, _, _, _, _, .nil, hf, ts, _ => by
    cases hf with
    | here h => simp at h
    | inside h _ => simp at h
  | _, _, _, _, _, _, .folded (k := k0) (v := v) (ks := ks) (leaf := leaf) (l := l) (es := es) _ hfo hl he, hf, ts, h => by
    simp only [Layout.MeansEntries] at h
    obtain ⟨e, rest, rfl, h1, h2⟩ := h
    obtain ⟨⟨h3, _, _⟩, h5, h6, _⟩ := hfo
    subst h3
    have hsplit : FieldIn k (.str "[2]: x".toList) (.obj [(k0, nested ks leaf)]) ∨ FieldIn k (.str "[2]: x".toList) (.obj es) := by
      cases hf with
      | here h =>
        rcases List.mem_cons.mp h with h | h
        · exact Or.inl (.here (by rw [h]; simp))
        · exact Or.inr (.here h)
      | inside h h' =>
        rcases List.mem_cons.mp h with h | h
        · exact Or.inl (.inside (by rw [h]; simp) h')
        · exact Or.inr (.inside h h')
    rcases hsplit with hs | hs
    · rcases fieldIn_nested ks k0 leaf hs with h7 | h7
      · rcases h1 with ⟨s, h8, _⟩ | ⟨_, _, _, h8⟩
        · subst h8
          cases hl
          cases h7
        · exact value_denied hk hl h7 _ h8
      · subst h7
        cases hl
        refine denied_prim ?_ e h1
        rw [bareKey_eq]
        refine dotted_bare ⟨k0 :: ks, ?_, h6, rfl⟩
        have := List.length_pos_iff.mpr h5
        simp only [List.length_cons]; omega
    · exact entries_denied hk he hs rest h2
  | _, _, _, _, _, _, .plain (k := k0) (v := v) (l := l) (es := es) _ hl he, hf, ts, h => by
    simp only [Layout.MeansEntries] at h
    obtain ⟨e, rest, rfl, h1, h2⟩ := h
    cases hf with
    | here h =>
      rcases List.mem_cons.mp h with h | h
      · simp only [Prod.mk.injEq] at h
        obtain ⟨rfl, rfl⟩ := h
        cases hl
        exact denied_prim hk e h1
      · exact entries_denied hk he (.here h) rest h2
    | inside h h' =>
      rcases List.mem_cons.mp h with h | h
      · simp only [Prod.mk.injEq] at h
        obtain ⟨rfl, rfl⟩ := h
        rcases h1 with ⟨s, h8, _⟩ | ⟨_, _, _, h8⟩
        · subst h8
          cases hl
          cases h'
        · exact value_denied hk hl h' _ h8
      · exact entries_denied hk he (.inside h h') rest h2
end

end

end Toon
