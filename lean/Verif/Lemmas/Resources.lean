import Verif.Lemmas.GrammarRoot
import Verif.Spec.Resources

/-! Bounds on the value of a document, by induction over the grammar. -/

namespace Toon

variable {F : Type} [F64 F]
mutual
theorem entry_suffix {strict : Bool} {blanks : List Nat} : ∀ {depth : Nat} {content : Str} {rest rest' : List Line} {e : Str × Bool × ETree F},
    EntryMeans strict blanks depth content rest e rest' → rest' <:+ rest
  | _, _, _, _, _, .array _ _ ha => array_suffix ha
  | _, _, _, _, _, .prim _ _ _ _ => List.suffix_refl _
  | _, _, _, _, _, .empty _ _ _ _ => List.suffix_refl _
  | _, _, _, _, _, .object _ _ _ _ hb => block_suffix hb
theorem block_suffix {strict : Bool} {blanks : List Nat} : ∀ {inList : Bool} {depth : Nat} {rest rest' : List Line} {es : List (Str × Bool × ETree F)},
    BlockMeans strict blanks inList depth rest es rest' → rest' <:+ rest
  | _, _, _, _, _, .stop _ => List.suffix_refl _
  | _, _, _, _, _, .entry _ _ he hb => ((block_suffix hb).trans (entry_suffix he)).trans (List.suffix_cons _ _)
theorem array_suffix {strict : Bool} {blanks : List Nat} : ∀ {depth : Nat} {h : Header} {rest rest' : List Line} {t : ETree F},
    ArrayMeans strict blanks depth h rest t rest' → rest' <:+ rest
  | _, _, _, _, _, .inline _ _ _ _ => List.suffix_refl _
  | _, _, _, _, _, .table _ _ _ _ _ _ _ _ => List.suffix_append _ _
  | _, _, _, _, _, .list _ _ _ _ => List.suffix_append _ _
theorem items_suffix {strict : Bool} {blanks : List Nat} : ∀ {n depth : Nat} {rest rest' : List Line} {ts : List (ETree F)},
    ItemsMean strict blanks n depth rest ts rest' → rest' <:+ rest
  | _, _, _, _, _, .stop _ => List.suffix_refl _
  | _, _, _, _, _, .item _ hi hb => ((items_suffix hb).trans (item_suffix hi)).trans (List.suffix_cons _ _)
theorem item_suffix {strict : Bool} {blanks : List Nat} : ∀ {depth : Nat} {content : Str} {rest rest' : List Line} {t : ETree F},
    ItemMeans' strict blanks depth content rest t rest' → rest' <:+ rest
  | _, _, _, _, _, .hyphen => List.suffix_refl _
  | _, _, _, _, _, .blank _ => List.suffix_refl _
  | _, _, _, _, _, .array _ _ _ ha => array_suffix ha
  | _, _, _, _, _, .object _ _ he hb => (block_suffix hb).trans (entry_suffix he)
  | _, _, _, _, _, .prim _ _ _ _ => List.suffix_refl _
end

/-! ## Nesting -/

/-- The sum of the depths of lines. -/
def depthSum (ls : List Line) : Nat := (ls.map (·.depth)).sum

theorem depthSum_cons (l : Line) (ls : List Line) : depthSum (l :: ls) = l.depth + depthSum ls := by
  simp [depthSum]

theorem depthSum_append (a b : List Line) : depthSum (a ++ b) = depthSum a + depthSum b := by
  simp [depthSum]

theorem depthSum_suffix {a b : List Line} (h : a <:+ b) : depthSum a ≤ depthSum b := by
  obtain ⟨c, rfl⟩ := h
  rw [depthSum_append]; omega

omit [F64 F] in
theorem heightItems_prims (ps : List (Prim F)) : heightItems (ETree.jsonItems (ps.map .prim)) = 0 := by
  induction ps with
  | nil => rfl
  | cons p ps ih => simp [ETree.jsonItems, heightItems, ETree.json, height, ih]

omit [F64 F] in
theorem heightEntries_pad (fs : List FieldName) (ps : List (Prim F)) : heightEntries (ETree.jsonEntries (padFields fs ps)) = 0 := by
  induction fs generalizing ps with
  | nil => cases ps <;> rfl
  | cons f fs ih => cases ps <;> simp [padFields, ETree.jsonEntries, heightEntries, ETree.json, height, ih]

theorem heightItems_rows {strict : Bool} {fields : List FieldName} {d : Char} : ∀ {body : List Line} {ts : List (ETree F)},
    Pointwise (TableRow strict fields d) body ts → heightItems (ETree.jsonItems ts) ≤ if body = [] then 0 else 1
  | _, _, .nil => by simp [ETree.jsonItems, heightItems]
  | _, _, .cons (b := t) h hs => by
    obtain ⟨cells, prims, _, _, _, rfl⟩ := h
    have := heightItems_rows hs
    simp only [ETree.jsonItems, heightItems, ETree.json, height, heightEntries_pad]
    split at this <;> simp <;> omega

mutual
theorem entry_deep {strict : Bool} {blanks : List Nat} : ∀ {depth : Nat} {content : Str} {rest rest' : List Line} {e : Str × Bool × ETree F},
    EntryMeans strict blanks depth content rest e rest' → ∀ E, depth ≤ E → (∀ l ∈ rest, l.depth + 1 ≤ E) →
    depth + height (ETree.json e.2.2) ≤ E + 1
  | _, _, _, _, _, .array _ _ ha, E, hd, hl => array_deep ha E hd hl
  | _, _, _, _, _, .prim _ _ _ _, E, hd, hl => by simp only [ETree.json, height]; omega
  | _, _, _, _, _, .empty _ _ _ _, E, hd, hl => by simp only [ETree.json, ETree.jsonEntries, height, heightEntries]; omega
  | _, _, _, _, _, .object (line := line) _ _ _ hlt hb, E, hd, hl => by
    have h1 := hl line (by simp)
    have h2 := block_deep hb E (by omega) hl
    simp only [ETree.json, height]; omega
theorem block_deep {strict : Bool} {blanks : List Nat} : ∀ {inList : Bool} {depth : Nat} {rest rest' : List Line} {es : List (Str × Bool × ETree F)},
    BlockMeans strict blanks inList depth rest es rest' → ∀ E, depth ≤ E → (∀ l ∈ rest, l.depth + 1 ≤ E) →
    depth + heightEntries (ETree.jsonEntries es) ≤ E + 1
  | _, _, _, _, _, .stop _, E, hd, hl => by simp only [ETree.jsonEntries, heightEntries]; omega
  | _, _, _, _, _, .entry (e := e) hq _ he hb, E, hd, hl => by
    have h1 := entry_deep he E hd (fun l h => hl l (by simp [h]))
    have h2 := block_deep hb E hd (fun l h => hl l (by have := (entry_suffix he).subset h; simp [this]))
    obtain ⟨k, q, t⟩ := e
    simp only [ETree.jsonEntries, heightEntries] at h1 ⊢
    omega
theorem array_deep {strict : Bool} {blanks : List Nat} : ∀ {depth : Nat} {h : Header} {rest rest' : List Line} {t : ETree F},
    ArrayMeans strict blanks depth h rest t rest' → ∀ E, depth ≤ E → (∀ l ∈ rest, l.depth + 1 ≤ E) →
    depth + height t.json ≤ E + 1
  | _, _, _, _, _, .inline _ _ _ _, E, hd, hl => by simp only [ETree.json, height, heightItems_prims]; omega
  | _, _, _, _, _, .table (body := body) _ _ _ hdep hrows _ _ _, E, hd, hl => by
    have h1 := heightItems_rows hrows
    simp only [ETree.json, height]
    cases body with
    | nil => simp at h1; omega
    | cons l ls =>
      have h2 := hdep l (by simp)
      have h3 := hl l (by simp)
      simp at h1
      omega
  | _, _, _, _, _, .list _ _ hitems _, E, hd, hl => by
    have h1 := items_deep hitems E hl
    simp only [ETree.json, height]
    omega
theorem items_deep {strict : Bool} {blanks : List Nat} : ∀ {n depth : Nat} {rest rest' : List Line} {ts : List (ETree F)},
    ItemsMean strict blanks n depth rest ts rest' → ∀ E, (∀ l ∈ rest, l.depth + 1 ≤ E) →
    heightItems (ETree.jsonItems ts) = 0 ∨ depth + heightItems (ETree.jsonItems ts) ≤ E + 1
  | _, _, _, _, _, .stop _, E, hl => by simp [ETree.jsonItems, heightItems]
  | _, _, _, _, _, .item (line := line) hq hi hb, E, hl => by
    have h0 := hl line (by simp)
    have h1 := item_deep hi E (by omega) (fun l h => hl l (by simp [h]))
    have h2 := items_deep hb E (fun l h => hl l (by have := (item_suffix hi).subset h; simp [this]))
    simp only [ETree.jsonItems, heightItems]
    omega
theorem item_deep {strict : Bool} {blanks : List Nat} : ∀ {depth : Nat} {content : Str} {rest rest' : List Line} {t : ETree F},
    ItemMeans' strict blanks depth content rest t rest' → ∀ E, depth + 1 ≤ E → (∀ l ∈ rest, l.depth + 1 ≤ E) →
    depth + height t.json ≤ E + 1
  | _, _, _, _, _, .hyphen, E, hd, hl => by simp only [ETree.json, ETree.jsonEntries, height, heightEntries]; omega
  | _, _, _, _, _, .blank _, E, hd, hl => by simp only [ETree.json, ETree.jsonEntries, height, heightEntries]; omega
  | _, _, _, _, _, .array _ _ _ ha, E, hd, hl => array_deep ha E (by omega) hl
  | _, _, _, _, _, .object (e := e) _ _ he hb, E, hd, hl => by
    have h1 := entry_deep he E hd hl
    have h2 := block_deep hb E hd (fun l h => hl l ((entry_suffix he).subset h))
    obtain ⟨k, q, t⟩ := e
    simp only at h1
    simp only [ETree.json, ETree.jsonEntries, height, heightEntries]
    omega
  | _, _, _, _, _, .prim _ _ _ _, E, hd, hl => by simp only [ETree.json, height]; omega
end

theorem document_deep {strict : Bool} {blanks : List Nat} {lines rest' : List Line} {t : ETree F}
    (h : DocumentMeans strict blanks lines t rest') (D : Nat) (hl : ∀ l ∈ lines, l.depth ≤ D) : height t.json ≤ D + 3 := by
  cases h with
  | empty => simp [ETree.json, ETree.jsonEntries, height, heightEntries]
  | array _ _ _ ha =>
    have := array_deep ha (D + 1) (by omega) (fun l h => by have := hl l (by simp [h]); omega)
    omega
  | prim _ _ => simp [ETree.json, height]
  | object _ he hb =>
    have h1 := entry_deep he (D + 1) (by omega) (fun l h => by have := hl l (by simp [h]); omega)
    have h2 := block_deep hb (D + 1) (by omega) (fun l h => by have := hl l (by have := (entry_suffix he).subset h; simp [this]); omega)
    rename_i e es _
    obtain ⟨k, q, t⟩ := e
    simp only [ETree.json, ETree.jsonEntries, height, heightEntries]
    simp only at h1
    omega

/-! ## Nesting against the total indentation -/

/-- `m` lines at depths beyond `d`, one deeper than the other, before `rest'`. -/
def Stairs (m d : Nat) (rest rest' : List Line) : Prop := 2 * (m * d) + m * (m + 1) + 2 * depthSum rest' ≤ 2 * depthSum rest

theorem Stairs.zero {d : Nat} {rest rest' : List Line} (h : rest' <:+ rest) : Stairs 0 d rest rest' := by
  have := depthSum_suffix h
  unfold Stairs
  omega

theorem Stairs.lower {m d d' : Nat} {rest rest' : List Line} (h : Stairs m d rest rest') (hd : d' ≤ d) : Stairs m d' rest rest' := by
  unfold Stairs at *
  have := Nat.mul_le_mul_left m hd
  omega

theorem Stairs.extend {m d : Nat} {a b c e : List Line} (h : Stairs m d b c) (h1 : b <:+ a) (h2 : e <:+ c) : Stairs m d a e := by
  have := depthSum_suffix h1
  have := depthSum_suffix h2
  unfold Stairs at *
  omega

theorem Stairs.succ {m d d' : Nat} {line : Line} {rest rest' : List Line} (h : Stairs m d' rest rest') (hd : d + 1 ≤ d')
    (hl : line.depth = d') : Stairs (m + 1) d (line :: rest) rest' := by
  unfold Stairs at *
  rw [depthSum_cons]
  have h1 := Nat.mul_le_mul_left m hd
  have e1 : (m + 1) * d = m * d + d := by rw [Nat.add_mul]; omega
  have e2 : (m + 1) * (m + 1 + 1) = m * (m + 1) + 2 * (m + 1) := by
    rw [Nat.add_mul, Nat.mul_add]; omega
  have e3 : m * (d + 1) = m * d + m := by rw [Nat.mul_add]; omega
  omega

mutual
theorem entry_stairs {strict : Bool} {blanks : List Nat} : ∀ {depth : Nat} {content : Str} {rest rest' : List Line} {e : Str × Bool × ETree F},
    EntryMeans strict blanks depth content rest e rest' → ∃ m, height (ETree.json e.2.2) ≤ 2 * m + 1 ∧ Stairs m depth rest rest'
  | _, _, _, _, _, .array _ _ ha => array_stairs ha
  | _, _, _, _, _, .prim _ _ _ _ => ⟨0, by simp [ETree.json, height], .zero (List.suffix_refl _)⟩
  | _, _, _, _, _, .empty _ _ _ _ =>
    ⟨0, by simp [ETree.json, ETree.jsonEntries, height, heightEntries], .zero (List.suffix_refl _)⟩
  | _, _, _, _, _, .object (line := line) _ _ _ hlt hb => by
    rcases block_stairs hb with hz | ⟨m, h1, h2⟩
    · exact ⟨0, by simp only [ETree.json, height]; omega, .zero (block_suffix hb)⟩
    · exact ⟨m + 1, by simp only [ETree.json, height]; omega, h2 _ hlt⟩
theorem block_stairs {strict : Bool} {blanks : List Nat} : ∀ {inList : Bool} {depth : Nat} {rest rest' : List Line} {es : List (Str × Bool × ETree F)},
    BlockMeans strict blanks inList depth rest es rest' → heightEntries (ETree.jsonEntries es) = 0 ∨
    ∃ m, heightEntries (ETree.jsonEntries es) ≤ 2 * m + 1 ∧ ∀ d, d + 1 ≤ depth → Stairs (m + 1) d rest rest'
  | _, _, _, _, _, .stop _ => by simp [ETree.jsonEntries, heightEntries]
  | _, _, _, _, _, .entry (e := e) hq _ he hb => by
    obtain ⟨m1, h1, s1⟩ := entry_stairs he
    have hb2 := block_stairs hb
    have suf := block_suffix hb
    have suf1 := entry_suffix he
    obtain ⟨k, q, t⟩ := e
    simp only [ETree.jsonEntries, heightEntries] at h1 ⊢
    have use1 : ∀ d, d + 1 ≤ _ → Stairs (m1 + 1) d _ _ := fun d hd => (Stairs.succ s1 hd hq).extend (List.suffix_refl _) suf
    rcases hb2 with hz | ⟨m2, h2, s2⟩
    · exact Or.inr ⟨m1, by omega, use1⟩
    · by_cases hle : m2 ≤ m1
      · exact Or.inr ⟨m1, by omega, use1⟩
      · exact Or.inr ⟨m2, by omega, fun d hd => (s2 d hd).extend (suf1.trans (List.suffix_cons _ _)) (List.suffix_refl _)⟩
theorem array_stairs {strict : Bool} {blanks : List Nat} : ∀ {depth : Nat} {h : Header} {rest rest' : List Line} {t : ETree F},
    ArrayMeans strict blanks depth h rest t rest' → ∃ m, height t.json ≤ 2 * m + 1 ∧ Stairs m depth rest rest'
  | _, _, _, _, _, .inline _ _ _ _ => ⟨0, by simp [ETree.json, height, heightItems_prims], .zero (List.suffix_refl _)⟩
  | _, _, _, _, _, .table (body := body) _ _ _ hdep hrows _ _ _ => by
    have h1 := heightItems_rows hrows
    cases body with
    | nil => exact ⟨0, by simp at h1; simp [ETree.json, height, h1], .zero (List.suffix_refl _)⟩
    | cons l ls =>
      refine ⟨1, by simp at h1; simp only [ETree.json, height]; omega, ?_⟩
      exact Stairs.succ (.zero (List.suffix_append _ _)) (Nat.le_refl _) (hdep l (by simp))
  | _, _, _, _, _, .list (ts := ts) _ _ hitems _ => by
    rcases items_stairs hitems with hz | ⟨m, h1, h2⟩
    · exact ⟨0, by simp only [ETree.json, height]; omega, .zero (List.suffix_append _ _)⟩
    · exact ⟨m + 1, by simp only [ETree.json, height]; omega, h2 _ (Nat.le_refl _)⟩
theorem items_stairs {strict : Bool} {blanks : List Nat} : ∀ {n depth : Nat} {rest rest' : List Line} {ts : List (ETree F)},
    ItemsMean strict blanks n depth rest ts rest' → heightItems (ETree.jsonItems ts) = 0 ∨
    ∃ m, heightItems (ETree.jsonItems ts) ≤ 2 * m + 2 ∧ ∀ d, d + 1 ≤ depth → Stairs (m + 1) d rest rest'
  | _, _, _, _, _, .stop _ => by simp [ETree.jsonItems, heightItems]
  | _, _, _, _, _, .item hq hi hb => by
    obtain ⟨m1, h1, s1⟩ := item_stairs hi
    have hb2 := items_stairs hb
    have suf := items_suffix hb
    have suf1 := item_suffix hi
    simp only [ETree.jsonItems, heightItems]
    have use1 : ∀ d, d + 1 ≤ _ → Stairs (m1 + 1) d _ _ := fun d hd => (Stairs.succ s1 hd hq).extend (List.suffix_refl _) suf
    rcases hb2 with hz | ⟨m2, h2, s2⟩
    · exact Or.inr ⟨m1, by omega, use1⟩
    · by_cases hle : m2 ≤ m1
      · exact Or.inr ⟨m1, by omega, use1⟩
      · exact Or.inr ⟨m2, by omega, fun d hd => (s2 d hd).extend (suf1.trans (List.suffix_cons _ _)) (List.suffix_refl _)⟩
theorem item_stairs {strict : Bool} {blanks : List Nat} : ∀ {depth : Nat} {content : Str} {rest rest' : List Line} {t : ETree F},
    ItemMeans' strict blanks depth content rest t rest' → ∃ m, height t.json ≤ 2 * m + 2 ∧ Stairs m depth rest rest'
  | _, _, _, _, _, .hyphen => ⟨0, by simp [ETree.json, ETree.jsonEntries, height, heightEntries], .zero (List.suffix_refl _)⟩
  | _, _, _, _, _, .blank _ => ⟨0, by simp [ETree.json, ETree.jsonEntries, height, heightEntries], .zero (List.suffix_refl _)⟩
  | _, _, _, _, _, .array _ _ _ ha => by
    obtain ⟨m, h1, h2⟩ := array_stairs ha
    exact ⟨m, by omega, h2⟩
  | _, _, _, _, _, .object (e := e) _ _ he hb => by
    obtain ⟨m1, h1, s1⟩ := entry_stairs he
    have hb2 := block_stairs hb
    have suf := block_suffix hb
    have suf1 := entry_suffix he
    obtain ⟨k, q, t⟩ := e
    simp only at h1
    simp only [ETree.json, ETree.jsonEntries, height, heightEntries]
    have s1' := (s1.lower (Nat.le_succ _)).extend (List.suffix_refl _) suf
    rcases hb2 with hz | ⟨m2, h2, s2⟩
    · exact ⟨m1, by omega, s1'⟩
    · by_cases hle : m2 ≤ m1
      · exact ⟨m1, by omega, s1'⟩
      · exact ⟨m2 + 1, by omega, (s2 _ (Nat.le_refl _)).extend suf1 (List.suffix_refl _)⟩
  | _, _, _, _, _, .prim _ _ _ _ => ⟨0, by simp [ETree.json, height], .zero (List.suffix_refl _)⟩
end

theorem root_stairs {strict : Bool} {blanks : List Nat} : ∀ {inList : Bool} {depth : Nat} {rest rest' : List Line} {es : List (Str × Bool × ETree F)},
    BlockMeans strict blanks inList depth rest es rest' → heightEntries (ETree.jsonEntries es) = 0 ∨
    ∃ m, heightEntries (ETree.jsonEntries es) ≤ 2 * m + 1 ∧ Stairs m depth rest rest'
  | _, _, _, _, _, .stop _ => by simp [ETree.jsonEntries, heightEntries]
  | _, _, _, _, _, .entry (e := e) hq _ he hb => by
    obtain ⟨m1, h1, s1⟩ := entry_stairs he
    have hb2 := root_stairs hb
    have suf := block_suffix hb
    have suf1 := entry_suffix he
    obtain ⟨k, q, t⟩ := e
    simp only [ETree.jsonEntries, heightEntries] at h1 ⊢
    rename_i line rest₀ _ _ _
    have use1 := s1.extend (List.suffix_cons line _) suf
    rcases hb2 with hz | ⟨m2, h2, s2⟩
    · exact Or.inr ⟨m1, by omega, use1⟩
    · by_cases hle : m2 ≤ m1
      · exact Or.inr ⟨m1, by omega, use1⟩
      · exact Or.inr ⟨m2, by omega, s2.extend (suf1.trans (List.suffix_cons _ _)) (List.suffix_refl _)⟩

theorem document_stairs {strict : Bool} {blanks : List Nat} {lines rest' : List Line} {t : ETree F}
    (h : DocumentMeans strict blanks lines t rest') : ∃ m, height t.json ≤ 2 * m + 2 ∧ m * (m + 1) ≤ 2 * depthSum lines := by
  have final : ∀ {m : Nat} {a b : List Line}, Stairs m 0 a b → a <:+ lines → m * (m + 1) ≤ 2 * depthSum lines := by
    intro m a b h1 h2
    have := depthSum_suffix h2
    unfold Stairs at h1
    omega
  cases h with
  | empty => exact ⟨0, by simp [ETree.json, ETree.jsonEntries, height, heightEntries], by simp⟩
  | array _ _ _ ha =>
    obtain ⟨m, h1, h2⟩ := array_stairs ha
    exact ⟨m, by omega, final h2 (List.suffix_cons _ _)⟩
  | prim _ _ => exact ⟨0, by simp [ETree.json, height], by simp⟩
  | @object line rest rest₁ _ e es _ he hb =>
    obtain ⟨m1, h1, s1⟩ := entry_stairs he
    have suf := entry_suffix he
    have hz : heightEntries (ETree.jsonEntries es) = 0 ∨ ∃ m, heightEntries (ETree.jsonEntries es) ≤ 2 * m + 1 ∧ Stairs m 0 rest₁ rest' :=
      root_stairs hb
    obtain ⟨k, q, t⟩ := e
    simp only at h1
    simp only [ETree.json, ETree.jsonEntries, height, heightEntries]
    rcases hz with hz | ⟨m2, h2, s2⟩
    · exact ⟨m1, by omega, final s1 (List.suffix_cons _ _)⟩
    · by_cases hle : m2 ≤ m1
      · exact ⟨m1, by omega, final s1 (List.suffix_cons _ _)⟩
      · exact ⟨m2, by omega, final s2 (suf.trans (List.suffix_cons _ _))⟩

end Toon
