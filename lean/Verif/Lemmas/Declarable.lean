import Verif.Lemmas.Resources
import Verif.Spec.Values

/-! How many elements the arrays of a document have, by induction over the grammar. -/

namespace Toon

section
variable {F : Type} [F64 F]

omit [F64 F] in
theorem jsonItems_count (ts : List (ETree F)) : (ETree.jsonItems ts).length = ts.length := by
  induction ts with
  | nil => rfl
  | cons t ts ih => simp [ETree.jsonItems, ih]

omit [F64 F] in
theorem declarable_prims (strict : Bool) (ps : List (Prim F)) :
    DeclarableItems strict (ETree.jsonItems (ps.map .prim)) ∧
      ∀ v ∈ ETree.jsonItems (ps.map .prim), ∃ p, v = Json.prim p := by
  induction ps with
  | nil => simp [ETree.jsonItems, DeclarableItems]
  | cons p ps ih => simpa [ETree.jsonItems, ETree.json, DeclarableItems, Declarable] using ih

omit [F64 F] in
theorem declarable_pad (strict : Bool) (fs : List FieldName) (ps : List (Prim F)) :
    DeclarableEntries strict (ETree.jsonEntries (padFields fs ps)) := by
  induction fs generalizing ps with
  | nil => simp [padFields, ETree.jsonEntries, DeclarableEntries]
  | cons f fs ih => cases ps <;> simp [padFields, ETree.jsonEntries, ETree.json, DeclarableEntries, Declarable, ih]

theorem declarable_rows {strict : Bool} {fields : List FieldName} {d : Char} : ∀ {body : List Line} {ts : List (ETree F)},
    Pointwise (TableRow strict fields d) body ts →
      DeclarableItems strict (ETree.jsonItems ts) ∧ ts.length = body.length
  | _, _, .nil => by simp [ETree.jsonItems, DeclarableItems]
  | _, _, .cons (b := t) h hs => by
    obtain ⟨cells, prims, _, _, _, rfl⟩ := h
    have := declarable_rows hs
    simp [ETree.jsonItems, ETree.json, DeclarableItems, Declarable, declarable_pad, this]

theorem pointwise_length {α β : Type} {R : α → β → Prop} : ∀ {as : List α} {bs : List β}, Pointwise R as bs →
    as.length = bs.length
  | _, _, .nil => rfl
  | _, _, .cons _ h => by simp [pointwise_length h]

mutual
theorem entry_declarable {strict : Bool} {blanks : List Nat} : ∀ {depth : Nat} {content : Str} {rest rest' : List Line}
    {e : Str × Bool × ETree F}, EntryMeans strict blanks depth content rest e rest' → Declarable strict e.2.2.json
  | _, _, _, _, _, .array hm _ ha => by
    obtain ⟨_, _, _, _, _, _, _, hl, _⟩ := hm
    exact array_declarable ha hl
  | _, _, _, _, _, .prim _ _ _ _ => by simp [ETree.json, Declarable]
  | _, _, _, _, _, .empty _ _ _ _ => by simp [ETree.json, ETree.jsonEntries, Declarable, DeclarableEntries]
  | _, _, _, _, _, .object _ _ _ _ hb => by
    simpa [ETree.json, Declarable] using block_declarable hb
theorem block_declarable {strict : Bool} {blanks : List Nat} : ∀ {inList : Bool} {depth : Nat} {rest rest' : List Line}
    {es : List (Str × Bool × ETree F)}, BlockMeans strict blanks inList depth rest es rest' →
      DeclarableEntries strict (ETree.jsonEntries es)
  | _, _, _, _, _, .stop _ => by simp [ETree.jsonEntries, DeclarableEntries]
  | _, _, _, _, _, .entry (e := (k, q, t)) _ _ he hb => by
    have h1 := entry_declarable he
    have h2 := block_declarable hb
    simpa [ETree.jsonEntries, DeclarableEntries] using ⟨h1, h2⟩
theorem array_declarable {strict : Bool} {blanks : List Nat} : ∀ {depth : Nat} {h : Header} {rest rest' : List Line}
    {t : ETree F}, ArrayMeans strict blanks depth h rest t rest' → h.length ≤ 100000000 → Declarable strict t.json
  | _, _, _, _, _, .inline (cells := cells) (prims := prims) _ _ hp hs, hl => by
    have h1 := declarable_prims strict prims
    simp only [ETree.json, Declarable]
    refine ⟨?_, h1.1⟩
    cases hstr : strict with
    | false => exact Or.inr ⟨rfl, h1.2⟩
    | true =>
      left
      rw [jsonItems_count, List.length_map, ← pointwise_length hp, hs hstr]
      exact hl
  | _, _, _, _, _, .table _ _ _ _ hrows hle _ _, hl => by
    have h1 := declarable_rows hrows
    simp only [ETree.json, Declarable]
    exact ⟨Or.inl (by rw [jsonItems_count, h1.2]; omega), h1.1⟩
  | _, _, _, _, _, .list _ _ hitems _, hl => by
    have h1 := items_declarable hitems
    simp only [ETree.json, Declarable]
    exact ⟨Or.inl (by rw [jsonItems_count]; omega), h1.1⟩
theorem items_declarable {strict : Bool} {blanks : List Nat} : ∀ {n depth : Nat} {rest rest' : List Line}
    {ts : List (ETree F)}, ItemsMean strict blanks n depth rest ts rest' →
      DeclarableItems strict (ETree.jsonItems ts) ∧ ts.length ≤ n
  | _, _, _, _, _, .stop _ => by simp [ETree.jsonItems, DeclarableItems]
  | _, _, _, _, _, .item _ hi hb => by
    have h1 := item_declarable hi
    have h2 := items_declarable hb
    simpa [ETree.jsonItems, DeclarableItems] using ⟨⟨h1, h2.1⟩, h2.2⟩
theorem item_declarable {strict : Bool} {blanks : List Nat} : ∀ {depth : Nat} {content : Str} {rest rest' : List Line}
    {t : ETree F}, ItemMeans' strict blanks depth content rest t rest' → Declarable strict t.json
  | _, _, _, _, _, .hyphen => by simp [ETree.json, ETree.jsonEntries, Declarable, DeclarableEntries]
  | _, _, _, _, _, .blank _ => by simp [ETree.json, ETree.jsonEntries, Declarable, DeclarableEntries]
  | _, _, _, _, _, .array _ _ hm ha => by
    obtain ⟨_, _, _, _, _, _, _, hl, _⟩ := hm
    exact array_declarable ha hl
  | _, _, _, _, _, .object (e := (k, q, t)) _ _ he hb => by
    have h1 := entry_declarable he
    have h2 := block_declarable hb
    simpa [ETree.json, ETree.jsonEntries, Declarable, DeclarableEntries] using ⟨h1, h2⟩
  | _, _, _, _, _, .prim _ _ _ _ => by simp [ETree.json, Declarable]
end

theorem document_declarable {strict : Bool} {blanks : List Nat} {lines rest' : List Line} {t : ETree F}
    (h : DocumentMeans strict blanks lines t rest') : Declarable strict t.json := by
  cases h with
  | empty => simp [ETree.json, ETree.jsonEntries, Declarable, DeclarableEntries]
  | array _ _ hm ha =>
    obtain ⟨_, _, _, _, _, _, _, hl, _⟩ := hm
    exact array_declarable ha hl
  | prim _ _ => simp [ETree.json, Declarable]
  | @object _ _ _ _ e es _ he hb =>
    obtain ⟨k, q, t⟩ := e
    have h1 := entry_declarable he
    have h2 := block_declarable hb
    simpa [ETree.json, ETree.jsonEntries, Declarable, DeclarableEntries] using ⟨h1, h2⟩

end

end Toon
