import Verif.Spec.Sequence
import Verif.Lemmas.Readings

/-! The primitives of a decoded value stand in the text in the same order (C116). -/

namespace Toon

theorem WordsOf.before {a text : Str} {ws : List Str} (ha : ∀ c, a.getLast? = some c → isWs c = true ∨ c ∈ [':', ',', '|', '\t'])
    (h : WordsOf ws text) : WordsOf ws (a ++ text) := by
  cases h with
  | none => exact .none _
  | @word a' w b ws h1 h2 h3 =>
    have : a ++ (a' ++ w ++ b) = (a ++ a') ++ w ++ b := by simp
    rw [this]
    refine .word ?_ h2 h3
    intro c hc
    rw [List.getLast?_append] at hc
    cases h : a'.getLast? with
    | none => rw [h] at hc; exact ha c (by simpa using hc)
    | some d => rw [h] at hc; exact h1 c (by rw [h]; simpa using hc)

theorem WordsOf.after {b text : Str} {ws : List Str} (hb : ∀ c, b.head? = some c → isWs c = true ∨ c ∈ [',', '|', '\t'])
    (h : WordsOf ws text) : WordsOf ws (text ++ b) := by
  induction h with
  | none => exact .none _
  | @word a w b' ws h1 h2 _ ih =>
    have : a ++ w ++ b' ++ b = a ++ w ++ (b' ++ b) := by simp
    rw [this]
    refine .word h1 ?_ ih
    intro c hc
    rw [List.head?_append] at hc
    cases h : b'.head? with
    | none => rw [h] at hc; exact hb c (by simpa using hc)
    | some d => rw [h] at hc; exact h2 c (by rw [h]; simpa using hc)

theorem WordsOf.wider {x y : Str} {ws : List Str} (h : WordsOf ws x) (hw : WordOf x y) : WordsOf ws y := by
  obtain ⟨a, b, rfl, h1, h2⟩ := hw
  exact (h.before h1).after h2

theorem wordsOf_one {w text : Str} (h : WordOf w text) : WordsOf [w] text := by
  obtain ⟨a, b, rfl, h1, h2⟩ := h
  exact .word h1 h2 (.none _)

theorem delim_before {d : Char} (hd : d ∈ [',', '|', '\t']) (b : Str) :
    ∀ c, (b ++ [d]).getLast? = some c → isWs c = true ∨ c ∈ [':', ',', '|', '\t'] := by
  intro c hc
  simp only [List.getLast?_append, List.getLast?_singleton, Option.some_or, Option.some.injEq] at hc
  exact Or.inr (List.mem_cons_of_mem _ (hc ▸ hd))

theorem splitsInto_words {d : Char} {text : Str} {ps : List Str} (hd : d ∈ [',', '|', '\t']) (h : SplitsInto d text ps) :
    WordsOf (ps.map trim) text := by
  induction h with
  | last _ => exact wordsOf_one (trim_word _)
  | @cut p rest ps _ _ _ ih =>
    obtain ⟨a, b, e, h1, h2⟩ := trim_word p
    have e' : p ++ d :: rest = a ++ trim p ++ (b ++ d :: rest) := by
      have : a ++ trim p ++ (b ++ d :: rest) = (a ++ trim p ++ b) ++ d :: rest := by simp
      rw [this, ← e]
    rw [e', List.map_cons]
    refine .word h1 ?_ ?_
    · intro c hc
      cases b with
      | nil => simp only [List.nil_append, List.head?_cons, Option.some.injEq] at hc; exact Or.inr (hc ▸ hd)
      | cons x b => exact h2 c hc
    · have := ih.before (delim_before hd b)
      simpa using this

theorem cells_sequence {d : Char} {text : Str} {cells : List Str} (hd : d ∈ [',', '|', '\t']) (h : Cells d text cells) : WordsOf cells text := by
  rcases h with ⟨rfl, rfl⟩ | ⟨_, ps, h1, rfl⟩
  · exact .none _
  · exact splitsInto_words hd h1

theorem WordsIn.append {a b x y : List Str} (h : WordsIn a x) (h' : WordsIn b y) : WordsIn (a ++ b) (x ++ y) := by
  induction h with
  | nil => exact h'
  | line h1 _ ih => rw [List.append_assoc]; exact .line h1 ih

theorem WordsIn.first {ws : List Str} {x y : Str} {xs : List Str} (h : WordsIn ws (x :: xs)) (hw : WordOf x y) : WordsIn ws (y :: xs) := by
  cases h with
  | line h1 h2 => exact .line (h1.wider hw) h2

theorem wordsIn_one {ws : List Str} {x : Str} (h : WordsOf ws x) : WordsIn ws [x] := by
  have := WordsIn.line h .nil
  rwa [List.append_nil] at this

theorem wordsIn_none : ∀ xs : List Str, WordsIn [] xs
  | [] => .nil
  | x :: xs => .line (.none x) (wordsIn_none xs)

theorem Pointwise.join {α β : Type} {R : α → β → Prop} {as as' : List α} {bs bs' : List β} (h : Pointwise R as bs) (h' : Pointwise R as' bs') :
    Pointwise R (as ++ as') (bs ++ bs') := by
  induction h with
  | nil => exact h'
  | cons h1 _ ih => exact .cons h1 ih

section
variable {F : Type} [F64 F]

theorem Loosely.join {ws ws' : List Str} {ps ps' : List (Prim F)} (h : Loosely ws ps) (h' : Loosely ws' ps') : Loosely (ws ++ ws') (ps ++ ps') := by
  induction h with
  | nil => exact h'
  | take h1 _ ih => exact .take h1 ih
  | unused _ ih => exact .unused ih
  | supplied _ ih => exact .supplied ih

theorem loosely_pointwise {ws : List Str} {ps : List (Prim F)} (h : Pointwise TokenMeans ws ps) : Loosely ws ps := by
  induction h with
  | nil => exact .nil
  | cons h1 _ ih => exact .take h1 ih

/-- The primitives are the meanings of words that stand in these texts in this order; when not `strict`, loosely. -/
def ReadIn (strict : Bool) (texts : List Str) (ps : List (Prim F)) : Prop :=
  ∃ ws, WordsIn ws texts ∧ Loosely ws ps ∧ (strict = true → Pointwise TokenMeans ws ps)

theorem ReadIn.append {strict : Bool} {x y : List Str} {ps qs : List (Prim F)} (h : ReadIn strict x ps) (h' : ReadIn strict y qs) :
    ReadIn strict (x ++ y) (ps ++ qs) := by
  obtain ⟨ws, h1, h2, h3⟩ := h
  obtain ⟨ws', h4, h5, h6⟩ := h'
  exact ⟨ws ++ ws', h1.append h4, h2.join h5, fun e => (h3 e).join (h6 e)⟩

theorem ReadIn.first {strict : Bool} {x y : Str} {xs : List Str} {ps : List (Prim F)} (h : ReadIn strict (x :: xs) ps) (hw : WordOf x y) :
    ReadIn strict (y :: xs) ps := by
  obtain ⟨ws, h1, h2⟩ := h
  exact ⟨ws, h1.first hw, h2⟩

theorem readIn_exact {strict : Bool} {ws xs : List Str} {ps : List (Prim F)} (h : WordsIn ws xs) (hp : Pointwise TokenMeans ws ps) :
    ReadIn strict xs ps := ⟨ws, h, loosely_pointwise hp, fun _ => hp⟩

theorem readIn_none {strict : Bool} (xs : List Str) : ReadIn strict xs ([] : List (Prim F)) := readIn_exact (wordsIn_none xs) .nil

theorem readIn_one {strict : Bool} {w x : Str} {p : Prim F} (h : TokenMeans w p) (hw : WordOf w x) : ReadIn strict [x] [p] :=
  readIn_exact (wordsIn_one (wordsOf_one hw)) (.cons h .nil)

/-- A text without words in front. -/
theorem ReadIn.below {strict : Bool} {xs : List Str} {ps : List (Prim F)} (x : Str) (h : ReadIn strict xs ps) : ReadIn strict (x :: xs) ps :=
  (readIn_none [x]).append h

omit [F64 F] in
theorem inside_prims (ps : List (Prim F)) : insideItems (ETree.jsonItems (ps.map .prim)) = ps := by
  induction ps with
  | nil => simp [ETree.jsonItems, insideItems]
  | cons p ps ih => simp [ETree.jsonItems, ETree.json, insideItems, inside, ih]

omit [F64 F] in
theorem inside_pad : ∀ (fields : List FieldName) (ps : List (Prim F)), ps.length = fields.length →
    insideEntries (ETree.jsonEntries (padFields fields ps)) = ps
  | [], [], _ => by simp [padFields, ETree.jsonEntries, insideEntries]
  | f :: fs, p :: ps, h => by
    have := inside_pad fs ps (by simpa using h)
    simp [padFields, ETree.jsonEntries, ETree.json, insideEntries, inside, this]

theorem pad_loosely : ∀ (fields : List FieldName) {cells : List Str} {ps : List (Prim F)}, Pointwise TokenMeans cells ps →
    Loosely cells (insideEntries (ETree.jsonEntries (padFields fields ps)))
  | [], _, _, .nil => by simp only [padFields, ETree.jsonEntries, insideEntries]; exact .nil
  | [], _, _, .cons _ h => by
    have := pad_loosely [] h
    simp only [padFields, ETree.jsonEntries, insideEntries] at this ⊢
    exact .unused this
  | _ :: fs, _, _, .nil => by
    have := pad_loosely fs (Pointwise.nil (R := TokenMeans (F := F)))
    simp only [padFields, ETree.jsonEntries, ETree.json, insideEntries, inside] at this ⊢
    exact .supplied this
  | _ :: fs, _, _, .cons h1 h => by
    have := pad_loosely fs h
    simp only [padFields, ETree.jsonEntries, ETree.json, insideEntries, inside] at this ⊢
    exact .take h1 this

theorem rows_sequence {strict : Bool} {fields : List FieldName} {d : Char} {body : List Line} {ts : List (ETree F)} (hd : d ∈ [',', '|', '\t'])
    (h : Pointwise (TableRow strict fields d) body ts) : ReadIn strict (body.map (·.content)) (insideItems (ETree.jsonItems ts)) := by
  induction h with
  | nil => exact readIn_none _
  | cons h1 _ ih =>
    obtain ⟨cells, prims, hc, ht, hl, rfl⟩ := h1
    simp only [List.map_cons, ETree.jsonItems, ETree.json, insideItems, inside]
    refine ReadIn.append (x := [_]) ⟨cells, wordsIn_one (cells_sequence hd hc), pad_loosely fields ht, fun e => ?_⟩ ih
    rw [inside_pad fields prims (ht.same_length.symm.trans (hl e))]
    exact ht

mutual
theorem entry_sequence {strict : Bool} {blanks : List Nat} :
    ∀ {depth : Nat} {content : Str} {rest rest' : List Line} {e : Str × Bool × ETree F},
    EntryMeans strict blanks depth content rest e rest' →
    ∃ used, rest = used ++ rest' ∧ ReadIn strict (content :: used.map (·.content)) (inside (ETree.json e.2.2))
  | _, content, _, _, _, .array hm _ ha => by
    obtain ⟨used, h1, h2⟩ := array_sequence (headerMeans_word hm).2 content (headerMeans_word hm).1 ha
    exact ⟨used, h1, h2⟩
  | _, _, _, _, _, .prim (after := after) _ hk _ ht => by
    refine ⟨[], rfl, ?_⟩
    simp only [ETree.json, inside]
    exact readIn_one ht ((trim_word after).trans (keyLineMeans_word hk))
  | _, _, _, _, _, .empty _ _ _ _ => by
    refine ⟨[], rfl, ?_⟩
    simp only [ETree.json, ETree.jsonEntries, inside, insideEntries]
    exact readIn_none _
  | _, content, _, _, _, .object _ _ _ _ hb => by
    obtain ⟨used, h1, h2⟩ := block_sequence hb
    refine ⟨used, h1, ?_⟩
    simp only [ETree.json, inside]
    exact h2.below content
theorem block_sequence {strict : Bool} {blanks : List Nat} :
    ∀ {inList : Bool} {depth : Nat} {rest rest' : List Line} {es : List (Str × Bool × ETree F)},
    BlockMeans strict blanks inList depth rest es rest' →
    ∃ used, rest = used ++ rest' ∧ ReadIn strict (used.map (·.content)) (insideEntries (ETree.jsonEntries es))
  | _, _, _, _, _, .stop _ => by
    refine ⟨[], rfl, ?_⟩
    simp only [ETree.jsonEntries, insideEntries]
    exact readIn_none _
  | _, _, _, _, _, .entry (line := line) (e := e) _ _ he hb => by
    obtain ⟨u1, h1, h2⟩ := entry_sequence he
    obtain ⟨u2, h3, h4⟩ := block_sequence hb
    obtain ⟨k, q, t⟩ := e
    refine ⟨line :: (u1 ++ u2), by rw [h1, h3]; simp, ?_⟩
    simp only [ETree.jsonEntries, insideEntries, List.map_cons, List.map_append]
    exact h2.append h4
theorem array_sequence {strict : Bool} {blanks : List Nat} :
    ∀ {depth : Nat} {h : Header} {rest rest' : List Line} {t : ETree F}, h.delim ∈ [',', '|', '\t'] → (content : Str) →
    (∀ text, h.inline = some text → WordOf text content) → ArrayMeans strict blanks depth h rest t rest' →
    ∃ used, rest = used ++ rest' ∧ ReadIn strict (content :: used.map (·.content)) (inside t.json)
  | _, _, _, _, _, hd, content, hi, .inline h1 hc ht _ => by
    refine ⟨[], rfl, ?_⟩
    simp only [ETree.json, inside, inside_prims]
    exact readIn_exact (wordsIn_one ((cells_sequence hd hc).wider (hi _ h1))) ht
  | _, _, _, _, _, hd, content, _, .table (body := body) _ _ _ _ hrows _ _ _ => by
    refine ⟨body, rfl, ?_⟩
    simp only [ETree.json, inside]
    exact (rows_sequence hd hrows).below content
  | _, _, _, _, _, _, content, _, .list _ _ hitems _ => by
    obtain ⟨used, h1, h2⟩ := items_sequence hitems
    refine ⟨used, h1, ?_⟩
    simp only [ETree.json, inside]
    exact h2.below content
theorem items_sequence {strict : Bool} {blanks : List Nat} : ∀ {n depth : Nat} {rest rest' : List Line} {ts : List (ETree F)},
    ItemsMean strict blanks n depth rest ts rest' →
    ∃ used, rest = used ++ rest' ∧ ReadIn strict (used.map (·.content)) (insideItems (ETree.jsonItems ts))
  | _, _, _, _, _, .stop _ => by
    refine ⟨[], rfl, ?_⟩
    simp only [ETree.jsonItems, insideItems]
    exact readIn_none _
  | _, _, _, _, _, .item (line := line) _ hi hb => by
    obtain ⟨u1, h1, h2⟩ := item_sequence hi
    obtain ⟨u2, h3, h4⟩ := items_sequence hb
    refine ⟨line :: (u1 ++ u2), by rw [h1, h3]; simp, ?_⟩
    simp only [ETree.jsonItems, insideItems, List.map_cons, List.map_append]
    exact h2.append h4
theorem item_sequence {strict : Bool} {blanks : List Nat} : ∀ {depth : Nat} {content : Str} {rest rest' : List Line} {t : ETree F},
    ItemMeans' strict blanks depth content rest t rest' →
    ∃ used, rest = used ++ rest' ∧ ReadIn strict (content :: used.map (·.content)) (inside t.json)
  | _, _, _, _, _, .hyphen => by
    refine ⟨[], rfl, ?_⟩
    simp only [ETree.json, ETree.jsonEntries, inside, insideEntries]
    exact readIn_none _
  | _, _, _, _, _, .blank _ => by
    refine ⟨[], rfl, ?_⟩
    simp only [ETree.json, ETree.jsonEntries, inside, insideEntries]
    exact readIn_none _
  | _, _, _, _, _, .array _ _ hm ha => by
    obtain ⟨used, h1, h2⟩ := array_sequence (headerMeans_word hm).2 _ (headerMeans_word hm).1 ha
    exact ⟨used, h1, h2.first (item_word _)⟩
  | _, _, _, _, _, .object (e := e) _ _ he hb => by
    obtain ⟨u1, h1, h2⟩ := entry_sequence he
    obtain ⟨u2, h3, h4⟩ := block_sequence hb
    obtain ⟨k, q, t⟩ := e
    refine ⟨u1 ++ u2, by rw [h1, h3]; simp, ?_⟩
    simp only [ETree.json, ETree.jsonEntries, inside, insideEntries, List.map_append]
    exact (h2.first (item_word _)).append h4
  | _, _, _, _, _, .prim _ _ _ ht => by
    refine ⟨[], rfl, ?_⟩
    simp only [ETree.json, inside]
    exact readIn_one ht ((trim_word _).trans (item_word _))
end

theorem document_sequence {strict : Bool} {blanks : List Nat} {lines rest' : List Line} {t : ETree F} (h : DocumentMeans strict blanks lines t rest') :
    ReadIn strict (lines.map (·.content)) (inside t.json) := by
  cases h with
  | empty =>
    simp only [ETree.json, ETree.jsonEntries, inside, insideEntries]
    exact readIn_none _
  | array _ _ hm ha =>
    obtain ⟨used, h1, h2⟩ := array_sequence (headerMeans_word hm).2 _ (headerMeans_word hm).1 ha
    have := h2.append (readIn_none (F := F) (rest'.map (·.content)))
    rw [h1]
    simpa using this
  | prim _ ht =>
    simp only [ETree.json, inside]
    exact readIn_one ht (trim_word _)
  | @object line rest rest₁ _ e es _ he hb =>
    obtain ⟨u1, h1, h2⟩ := entry_sequence he
    obtain ⟨u2, h3, h4⟩ := block_sequence hb
    obtain ⟨k, q, t⟩ := e
    have := (h2.append h4).append (readIn_none (F := F) (rest'.map (·.content)))
    simp only [ETree.json, ETree.jsonEntries, inside, insideEntries]
    rw [h1, h3]
    simpa using this

theorem scansTo_sequence {indent : Nat} {strict : Bool} {n : Nat} {source : List Str} {lines : List Line} {blanks : List Nat}
    (h : ScansTo indent strict n source lines blanks) : ∀ ws, WordsIn ws (lines.map (·.content)) → WordsIn ws source := by
  induction h with
  | nil => intro ws h; exact h
  | blank _ _ ih => intro ws h; exact .line (ws := []) (.none _) (ih ws h)
  | @line _ spaces content _ _ _ _ _ _ _ ih =>
    intro ws h
    simp only [List.map_cons] at h
    cases h with
    | line h1 h2 =>
      refine .line (h1.before ?_) (ih _ h2)
      intro c hc
      have := List.eq_of_mem_replicate (List.mem_of_getLast? hc)
      subst this
      exact Or.inl (by decide)

end

end Toon
