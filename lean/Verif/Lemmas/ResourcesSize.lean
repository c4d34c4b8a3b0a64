import Verif.Lemmas.Resources
import Verif.Lemmas.ExpandDepth

/-! The size of a decoded value against the size of the text (C59). -/

namespace Toon

/-! ## Lengths of the parts of a line -/

theorem trimStart_length_le (s : Str) : (trimStart s).length ≤ s.length := by
  unfold trimStart
  exact (List.dropWhile_sublist _).length_le

theorem trim_length_le (s : Str) : (trim s).length ≤ s.length := by
  unfold trim trimEnd
  rw [List.length_reverse]
  refine Nat.le_trans (List.dropWhile_sublist _).length_le ?_
  rw [List.length_reverse]
  exact trimStart_length_le s

theorem quotedDenotes_length {body s : Str} (h : QuotedDenotes body s) : s.length ≤ body.length := by
  induction h with
  | nil => simp
  | plain _ _ _ ih => simp only [List.length_cons]; omega
  | escape _ _ ih => simp only [List.length_cons]; omega

theorem keyLineMeans_length {content k after : Str} {q : Bool} (h : KeyLineMeans content k q after) :
    k.length + after.length + 1 ≤ content.length := by
  cases h with
  | quoted hq =>
    have := quotedDenotes_length hq
    simp only [List.length_cons, List.length_append, List.cons_append]; omega
  | bare _ _ =>
    rename_i a _ _
    have := trim_length_le a
    simp only [List.length_cons, List.length_append]; omega

theorem beforeBracket_length {content pre rest : Str} (h : BeforeBracket content pre rest) :
    pre.length + rest.length + 1 = content.length := by
  cases h <;> simp <;> omega

/-- The length of what is between the braces. -/
def optLength : Option Str → Nat
  | none => 0
  | some s => s.length + 2

theorem afterBracket_length {rest after : Str} {cols : Option Str} (h : AfterBracket rest cols after) :
    optLength cols + after.length + 1 ≤ rest.length := by
  cases h <;> simp [optLength] <;> omega

theorem headerKey_length {pre : Str} {k : Option Str} {q : Bool} (h : HeaderKey pre k q) : (k.getD []).length ≤ pre.length := by
  cases h with
  | none => simp
  | quoted ht hq =>
    have h1 := trim_length_le pre
    have h2 := quotedDenotes_length hq
    rw [ht] at h1
    simp at h1 ⊢
    omega
  | bare => simpa using trim_length_le pre

theorem splitsInto_length {d : Char} {text : Str} {ps : List Str} (h : SplitsInto d text ps) :
    (ps.map List.length).sum + ps.length = text.length + 1 := by
  induction h with
  | last _ => simp
  | cut _ _ _ ih => simp only [List.map_cons, List.sum_cons, List.length_cons, List.length_append]; omega

theorem sum_trim_le (ps : List Str) : ((ps.map trim).map List.length).sum ≤ (ps.map List.length).sum := by
  induction ps with
  | nil => simp
  | cons p ps ih =>
    have := trim_length_le p
    simp only [List.map_cons, List.sum_cons]
    omega

theorem cells_length {d : Char} {text : Str} {cells : List Str} (h : Cells d text cells) :
    (cells.map List.length).sum + cells.length ≤ text.length + 1 := by
  rcases h with ⟨rfl, rfl⟩ | ⟨_, ps, h1, rfl⟩
  · simp
  · have := splitsInto_length h1
    have := sum_trim_le ps
    simp only [List.length_map]
    omega

theorem Pointwise.same_length {α β : Type} {r : α → β → Prop} {as : List α} {bs : List β} (h : Pointwise r as bs) : as.length = bs.length := by
  induction h with
  | nil => rfl
  | cons _ _ ih => simp [ih]

/-- The names of the columns, each with a separator. -/
def namesLength (fields : List FieldName) : Nat := (fields.map fun f => f.name.length + 1).sum

theorem names_length {cells : List Str} {names : List FieldName} (h : Pointwise NameMeans cells names) :
    namesLength names ≤ (cells.map List.length).sum + cells.length := by
  induction h with
  | nil => simp [namesLength]
  | cons h1 _ ih =>
    have : _ := h1
    unfold namesLength at ih ⊢
    simp only [List.map_cons, List.sum_cons, List.length_cons]
    cases h1 with
    | quoted hq =>
      have := quotedDenotes_length hq
      simp only [List.length_cons, List.cons_append, List.length_append] at *
      omega
    | bare _ => simp only at *; omega

/-- What a header takes of its line. -/
theorem headerMeans_length {content : Str} {h : Header} (hm : HeaderMeans content h) :
    (h.key.getD []).length + (h.inline.getD []).length + 3 ≤ content.length ∧
    namesLength (h.fields.getD []) ≤ content.length := by
  obtain ⟨pre, seg, cols, after, ⟨rest, hb, _, ha⟩, hk, _, _, hc, hi⟩ := hm
  have h1 := beforeBracket_length hb
  have h2 := afterBracket_length ha
  have h3 := headerKey_length hk
  simp only [List.length_append, List.length_cons] at h1
  have h4 : (h.inline.getD []).length ≤ after.length := by
    rcases hi with ⟨_, e⟩ | ⟨_, e⟩
    · simp [e]
    · simpa [e] using trim_length_le after
  refine ⟨by omega, ?_⟩
  generalize h.fields = fields at hc ⊢
  cases hc with
  | none => simp [namesLength]
  | some hcells hnames =>
    have h5 := cells_length hcells
    have h6 := names_length hnames
    simp only [optLength, Option.getD_some] at *
    omega

section
variable {F : Type} [F64 F]

theorem tokenMeans_volume {t : Str} {p : Prim F} (h : TokenMeans t p) : volume (.prim p) ≤ 1 + t.length := by
  cases h with
  | quoted hq =>
    have := quotedDenotes_length hq
    simp [volume]; omega
  | _ => simp [volume]

theorem prims_nodes (prims : List (Prim F)) : nodesItems (ETree.jsonItems (prims.map .prim)) = prims.length := by
  induction prims with
  | nil => simp [ETree.jsonItems, nodesItems]
  | cons p ps ih => simp only [List.map_cons, ETree.jsonItems, ETree.json, nodesItems, nodes, ih, List.length_cons]; omega

theorem prims_volume {cells : List Str} {prims : List (Prim F)} (h : Pointwise TokenMeans cells prims) :
    volumeItems (ETree.jsonItems (prims.map .prim)) ≤ (cells.map List.length).sum + cells.length := by
  induction h with
  | nil => simp [ETree.jsonItems, volumeItems]
  | cons h1 _ ih =>
    have := tokenMeans_volume h1
    simp only [List.map_cons, ETree.jsonItems, ETree.json, volumeItems, List.sum_cons, List.length_cons]; omega

omit [F64 F] in
theorem padFields_nodes (fields : List FieldName) : ∀ (prims : List (Prim F)),
    nodesEntries (ETree.jsonEntries (padFields fields prims)) = fields.length := by
  induction fields with
  | nil => intro prims; simp [padFields, ETree.jsonEntries, nodesEntries]
  | cons c cs ih =>
    intro prims
    cases prims <;> simp [padFields, ETree.jsonEntries, ETree.json, nodesEntries, nodes, ih, Nat.add_comm]

theorem padFields_volume (fields : List FieldName) : ∀ {cells : List Str} {prims : List (Prim F)}, Pointwise TokenMeans cells prims →
    volumeEntries (ETree.jsonEntries (padFields fields prims)) ≤ namesLength fields + (cells.map List.length).sum := by
  induction fields with
  | nil => intro cells prims _; simp [padFields, ETree.jsonEntries, volumeEntries]
  | cons c cs ih =>
    intro cells prims h
    cases h with
    | nil =>
      have := ih (.nil (R := TokenMeans (F := F)))
      simp only [padFields, ETree.jsonEntries, ETree.json, volumeEntries, volume, namesLength, List.map_cons, List.sum_cons] at *
      omega
    | cons h1 h2 =>
      have := ih h2
      have := tokenMeans_volume h1
      simp only [padFields, ETree.jsonEntries, ETree.json, volumeEntries, namesLength, List.map_cons, List.sum_cons] at *
      omega

/-! ## The lines -/

/-- The characters of the lines, and `w` for every line. -/
def load (w : Nat) (lines : List Line) : Nat := (lines.map fun l => l.content.length + w).sum

theorem load_cons (w : Nat) (l : Line) (ls : List Line) : load w (l :: ls) = l.content.length + w + load w ls := by
  simp [load]

theorem load_append (w : Nat) (a b : List Line) : load w (a ++ b) = load w a + load w b := by
  simp [load]

theorem load_eq (w : Nat) (ls : List Line) : load w ls = load 0 ls + w * ls.length := by
  induction ls with
  | nil => simp [load]
  | cons l ls ih => rw [load_cons, load_cons, ih, List.length_cons, Nat.mul_add]; omega

theorem rows_nodes {fields : List FieldName} {d : Char} {body : List Line} {ts : List (ETree F)}
    (h : Pointwise (TableRow true fields d) body ts) : nodesItems (ETree.jsonItems ts) ≤ load 2 body := by
  induction h with
  | nil => simp [ETree.jsonItems, nodesItems]
  | cons h1 _ ih =>
    obtain ⟨cells, prims, hc, _, hl, rfl⟩ := h1
    have h2 := cells_length hc
    have h3 := hl rfl
    simp only [ETree.jsonItems, ETree.json, nodesItems, nodes, padFields_nodes, load_cons]
    omega

theorem rows_volume {strict : Bool} {fields : List FieldName} {d : Char} {body : List Line} {ts : List (ETree F)} {B : Nat}
    (hB : namesLength fields ≤ B) (h : Pointwise (TableRow strict fields d) body ts) :
    volumeItems (ETree.jsonItems ts) ≤ load (2 + B) body := by
  induction h with
  | nil => simp [ETree.jsonItems, volumeItems]
  | cons h1 _ ih =>
    obtain ⟨cells, prims, hc, ht, _, rfl⟩ := h1
    have h2 := cells_length hc
    have h3 := padFields_volume fields ht
    simp only [ETree.jsonItems, ETree.json, volumeItems, volume, load_cons]
    omega

/-! ## Values in strict mode -/

mutual
theorem entry_nodes {blanks : List Nat} : ∀ {depth : Nat} {content : Str} {rest rest' : List Line} {e : Str × Bool × ETree F},
    EntryMeans true blanks depth content rest e rest' → nodes (ETree.json e.2.2) + load 2 rest' ≤ content.length + load 2 rest
  | _, _, _, _, _, .array hm _ ha => by
    have := array_nodes ha
    have := headerMeans_length hm
    simp only
    omega
  | _, _, _, _, _, .prim _ hk _ _ => by
    have := keyLineMeans_length hk
    simp only [ETree.json, nodes]
    omega
  | _, _, _, _, _, .empty _ hk _ _ => by
    have := keyLineMeans_length hk
    simp only [ETree.json, ETree.jsonEntries, nodes, nodesEntries]
    omega
  | _, _, _, _, _, .object _ hk _ _ hb => by
    have := keyLineMeans_length hk
    have := block_nodes hb
    simp only [ETree.json, nodes]
    omega
theorem block_nodes {blanks : List Nat} : ∀ {inList : Bool} {depth : Nat} {rest rest' : List Line} {es : List (Str × Bool × ETree F)},
    BlockMeans true blanks inList depth rest es rest' → nodesEntries (ETree.jsonEntries es) + load 2 rest' ≤ load 2 rest
  | _, _, _, _, _, .stop _ => by simp [ETree.jsonEntries, nodesEntries]
  | _, _, _, _, _, .entry (e := e) _ _ he hb => by
    have h1 := entry_nodes he
    have h2 := block_nodes hb
    obtain ⟨k, q, t⟩ := e
    simp only [ETree.jsonEntries, nodesEntries, load_cons] at h1 ⊢
    omega
theorem array_nodes {blanks : List Nat} : ∀ {depth : Nat} {h : Header} {rest rest' : List Line} {t : ETree F},
    ArrayMeans true blanks depth h rest t rest' → nodes t.json + load 2 rest' ≤ (h.inline.getD []).length + 2 + load 2 rest
  | _, _, _, _, _, .inline hi hc ht _ => by
    have h1 := cells_length hc
    have h2 := ht.same_length
    simp only [ETree.json, nodes, prims_nodes, hi, Option.getD_some]
    omega
  | _, _, _, _, _, .table _ _ _ _ hrows _ _ _ => by
    have := rows_nodes hrows
    simp only [ETree.json, nodes, load_append]
    omega
  | _, _, _, _, _, .list _ _ hitems _ => by
    have := items_nodes hitems
    simp only [ETree.json, nodes]
    omega
theorem items_nodes {blanks : List Nat} : ∀ {n depth : Nat} {rest rest' : List Line} {ts : List (ETree F)},
    ItemsMean true blanks n depth rest ts rest' → nodesItems (ETree.jsonItems ts) + load 2 rest' ≤ load 2 rest
  | _, _, _, _, _, .stop _ => by simp [ETree.jsonItems, nodesItems]
  | _, _, _, _, _, .item _ hi hb => by
    have := item_nodes hi
    have := items_nodes hb
    simp only [ETree.jsonItems, nodesItems, load_cons]
    omega
theorem item_nodes {blanks : List Nat} : ∀ {depth : Nat} {content : Str} {rest rest' : List Line} {t : ETree F},
    ItemMeans' true blanks depth content rest t rest' → nodes t.json + load 2 rest' ≤ content.length + load 2 rest
  | _, _, _, _, _, .hyphen => by simp [ETree.json, ETree.jsonEntries, nodes, nodesEntries]
  | _, _, _, _, _, .blank _ => by simp [ETree.json, ETree.jsonEntries, nodes, nodesEntries]
  | _, _, _, _, _, .array _ _ hm ha => by
    have := array_nodes ha
    have := headerMeans_length hm
    simp only [List.length_cons]
    omega
  | _, _, _, _, _, .object (e := e) _ _ he hb => by
    have h1 := entry_nodes he
    have h2 := block_nodes hb
    obtain ⟨k, q, t⟩ := e
    simp only at h1
    simp only [ETree.json, ETree.jsonEntries, nodes, nodesEntries, List.length_cons]
    omega
  | _, _, _, _, _, .prim _ _ _ _ => by
    simp only [ETree.json, nodes, List.length_cons]
    omega
end

theorem document_nodes {blanks : List Nat} {lines rest' : List Line} {t : ETree F}
    (h : DocumentMeans true blanks lines t rest') : nodes t.json ≤ 1 + load 2 lines := by
  cases h with
  | empty => simp [ETree.json, ETree.jsonEntries, nodes, nodesEntries]
  | array _ _ hm ha =>
    have := array_nodes ha
    have := headerMeans_length hm
    simp only [load_cons]
    omega
  | prim _ _ => simp [ETree.json, nodes]
  | @object line rest rest₁ _ e es _ he hb =>
    have h1 := entry_nodes he
    have h2 := block_nodes hb
    obtain ⟨k, q, t⟩ := e
    simp only at h1
    simp only [ETree.json, ETree.jsonEntries, nodes, nodesEntries, load_cons]
    omega

/-! ## Values and characters, in any mode -/

mutual
theorem entry_volume {strict : Bool} {blanks : List Nat} {B : Nat} : ∀ {depth : Nat} {content : Str} {rest rest' : List Line} {e : Str × Bool × ETree F},
    content.length ≤ B → (∀ l ∈ rest, l.content.length ≤ B) → EntryMeans strict blanks depth content rest e rest' →
    e.1.length + volume (ETree.json e.2.2) + load (2 + B) rest' ≤ content.length + load (2 + B) rest
  | _, _, _, _, _, hB, hr, .array hm hk ha => by
    have h2 := headerMeans_length hm
    have := array_volume (Nat.le_trans h2.2 hB) hr ha
    rw [hk] at h2
    simp only [Option.getD_some] at *
    omega
  | _, _, _, _, _, _, _, .prim (after := after) _ hk _ ht => by
    have := keyLineMeans_length hk
    have := tokenMeans_volume ht
    have := trim_length_le after
    simp only [ETree.json]
    omega
  | _, _, _, _, _, _, _, .empty _ hk _ _ => by
    have := keyLineMeans_length hk
    simp only [ETree.json, ETree.jsonEntries, volume, volumeEntries]
    omega
  | _, _, _, _, _, _, hr, .object _ hk _ _ hb => by
    have := keyLineMeans_length hk
    have := block_volume hr hb
    simp only [ETree.json, volume]
    omega
theorem block_volume {strict : Bool} {blanks : List Nat} {B : Nat} : ∀ {inList : Bool} {depth : Nat} {rest rest' : List Line} {es : List (Str × Bool × ETree F)},
    (∀ l ∈ rest, l.content.length ≤ B) → BlockMeans strict blanks inList depth rest es rest' →
    volumeEntries (ETree.jsonEntries es) + load (2 + B) rest' ≤ load (2 + B) rest
  | _, _, _, _, _, _, .stop _ => by simp [ETree.jsonEntries, volumeEntries]
  | _, _, _, _, _, hr, .entry (e := e) _ _ he hb => by
    have h1 := entry_volume (hr _ (by simp)) (fun l hl => hr l (by simp [hl])) he
    have h2 := block_volume (fun l hl => hr l (List.mem_cons_of_mem _ ((entry_suffix he).subset hl))) hb
    obtain ⟨k, q, t⟩ := e
    simp only [ETree.jsonEntries, volumeEntries, load_cons] at h1 ⊢
    omega
theorem array_volume {strict : Bool} {blanks : List Nat} {B : Nat} : ∀ {depth : Nat} {h : Header} {rest rest' : List Line} {t : ETree F},
    namesLength (h.fields.getD []) ≤ B → (∀ l ∈ rest, l.content.length ≤ B) → ArrayMeans strict blanks depth h rest t rest' →
    volume t.json + load (2 + B) rest' ≤ (h.inline.getD []).length + 2 + load (2 + B) rest
  | _, _, _, _, _, _, _, .inline hi hc ht _ => by
    have h1 := cells_length hc
    have h2 := prims_volume ht
    simp only [ETree.json, volume, hi, Option.getD_some]
    omega
  | _, _, _, _, _, hB, _, .table _ hf _ _ hrows _ _ _ => by
    rw [hf] at hB
    have := rows_volume hB hrows
    simp only [ETree.json, volume, load_append]
    omega
  | _, _, _, _, _, _, hr, .list _ _ hitems _ => by
    have := items_volume hr hitems
    simp only [ETree.json, volume]
    omega
theorem items_volume {strict : Bool} {blanks : List Nat} {B : Nat} : ∀ {n depth : Nat} {rest rest' : List Line} {ts : List (ETree F)},
    (∀ l ∈ rest, l.content.length ≤ B) → ItemsMean strict blanks n depth rest ts rest' →
    volumeItems (ETree.jsonItems ts) + load (2 + B) rest' ≤ load (2 + B) rest
  | _, _, _, _, _, _, .stop _ => by simp [ETree.jsonItems, volumeItems]
  | _, _, _, _, _, hr, .item _ hi hb => by
    have := item_volume (hr _ (by simp)) (fun l hl => hr l (by simp [hl])) hi
    have := items_volume (fun l hl => hr l (List.mem_cons_of_mem _ ((item_suffix hi).subset hl))) hb
    simp only [ETree.jsonItems, volumeItems, load_cons]
    omega
theorem item_volume {strict : Bool} {blanks : List Nat} {B : Nat} : ∀ {depth : Nat} {content : Str} {rest rest' : List Line} {t : ETree F},
    content.length ≤ B → (∀ l ∈ rest, l.content.length ≤ B) → ItemMeans' strict blanks depth content rest t rest' →
    volume t.json + load (2 + B) rest' ≤ content.length + load (2 + B) rest
  | _, _, _, _, _, _, _, .hyphen => by simp [ETree.json, ETree.jsonEntries, volume, volumeEntries]
  | _, _, _, _, _, _, _, .blank _ => by simp [ETree.json, ETree.jsonEntries, volume, volumeEntries]
  | _, _, _, _, _, hB, hr, .array _ _ hm ha => by
    have h2 := headerMeans_length hm
    simp only [List.length_cons] at hB
    have := array_volume (B := B) (by omega) hr ha
    simp only [List.length_cons]
    omega
  | _, _, _, _, _, hB, hr, .object (e := e) _ _ he hb => by
    simp only [List.length_cons] at hB
    have h1 := entry_volume (B := B) (by omega) hr he
    have h2 := block_volume (fun l hl => hr l ((entry_suffix he).subset hl)) hb
    obtain ⟨k, q, t⟩ := e
    simp only at h1
    simp only [ETree.json, ETree.jsonEntries, volume, volumeEntries, List.length_cons]
    omega
  | _, _, _, _, _, _, _, .prim (after := after) _ _ _ ht => by
    have := tokenMeans_volume ht
    have := trim_length_le after
    simp only [ETree.json, List.length_cons]
    omega
end

theorem document_volume {strict : Bool} {blanks : List Nat} {B : Nat} {lines rest' : List Line} {t : ETree F}
    (hr : ∀ l ∈ lines, l.content.length ≤ B) (h : DocumentMeans strict blanks lines t rest') :
    volume t.json ≤ 1 + load (2 + B) lines := by
  cases h with
  | empty => simp [ETree.json, ETree.jsonEntries, volume, volumeEntries]
  | array _ _ hm ha =>
    have h2 := headerMeans_length hm
    have := array_volume (Nat.le_trans h2.2 (hr _ (by simp))) (fun l hl => hr l (by simp [hl])) ha
    simp only [load_cons]
    omega
  | @prim line _ _ ht =>
    have := tokenMeans_volume ht
    have := trim_length_le line.content
    simp only [ETree.json, load_cons]
    omega
  | @object line rest rest₁ _ e es _ he hb =>
    have h1 := entry_volume (hr _ (by simp)) (fun l hl => hr l (by simp [hl])) he
    have h2 := block_volume (fun l hl => hr l (List.mem_cons_of_mem _ ((entry_suffix he).subset hl))) hb
    obtain ⟨k, q, t⟩ := e
    simp only at h1
    simp only [ETree.json, ETree.jsonEntries, volume, volumeEntries, load_cons]
    omega

/-! ## The source -/

/-- The characters of the source lines, and one line end each. -/
def sourceLength (source : List Str) : Nat := (source.map fun raw => raw.length + 1).sum

theorem sourceLength_split (c : Char) (text : Str) : sourceLength (splitOn c text) = text.length + 1 := by
  induction text with
  | nil => simp [splitOn, sourceLength]
  | cons x xs ih =>
    unfold splitOn
    unfold sourceLength at *
    split
    · simp only [List.map_cons, List.sum_cons, List.length_cons, List.length_nil, ih]; omega
    · cases h : splitOn c xs with
      | nil => exact absurd h (splitOn_ne_nil c xs)
      | cons w ws => simp only [h, List.map_cons, List.sum_cons, List.length_cons] at *; omega

theorem scansTo_length {indent : Nat} {strict : Bool} {n : Nat} {source : List Str} {lines : List Line} {blanks : List Nat}
    (h : ScansTo indent strict n source lines blanks) :
    indent * depthSum lines + load 1 lines ≤ sourceLength source ∧ 2 * lines.length ≤ load 1 lines := by
  induction h with
  | nil => simp [depthSum, load, sourceLength]
  | blank _ _ ih =>
    simp only [sourceLength, List.map_cons, List.sum_cons] at *
    omega
  | @line n spaces content rest ls bs hb _ _ _ ih =>
    have h1 : indent * (spaces / indent) ≤ spaces := Nat.mul_div_le spaces indent
    have h2 : 0 < content.length := by
      cases content with
      | nil => exact absurd (by simp [BlankLine]) hb
      | cons _ _ => simp
    simp only [sourceLength, List.map_cons, List.sum_cons, depthSum_cons, load_cons, Nat.mul_add, List.length_append,
      List.length_replicate, List.length_cons] at *
    omega

theorem sourceLength_mem {source : List Str} {raw : Str} (h : raw ∈ source) : raw.length + 1 ≤ sourceLength source := by
  induction source with
  | nil => simp at h
  | cons w ws ih =>
    simp only [sourceLength, List.map_cons, List.sum_cons] at *
    rcases List.mem_cons.mp h with rfl | h
    · omega
    · have := ih h; omega

theorem scansTo_lines {indent : Nat} {strict : Bool} {n : Nat} {source : List Str} {lines : List Line} {blanks : List Nat}
    (h : ScansTo indent strict n source lines blanks) : lines.length ≤ source.length := by
  induction h with
  | nil => simp
  | blank _ _ ih => simp only [List.length_cons]; omega
  | line _ _ _ _ ih => simp only [List.length_cons]; omega

/-- Every line comes from a source line, with its indentation. -/
theorem scansTo_mem {indent : Nat} {strict : Bool} {n : Nat} {source : List Str} {lines : List Line} {blanks : List Nat}
    (h : ScansTo indent strict n source lines blanks) : ∀ l ∈ lines, ∃ raw ∈ source, ∃ spaces,
      raw = List.replicate spaces ' ' ++ l.content ∧ l.depth = spaces / indent := by
  induction h with
  | nil => simp
  | blank _ _ ih =>
    intro l hl
    obtain ⟨raw, h1, h2⟩ := ih l hl
    exact ⟨raw, by simp [h1], h2⟩
  | line _ _ _ _ ih =>
    intro l hl
    rcases List.mem_cons.mp hl with rfl | hl
    · exact ⟨_, by simp, _, rfl, rfl⟩
    · obtain ⟨raw, h1, h2⟩ := ih l hl
      exact ⟨raw, by simp [h1], h2⟩

end

/-! ## Path expansion -/

section
variable {F : Type}

theorem volumeEntries_append (a b : List (Str × Json F)) : volumeEntries (a ++ b) = volumeEntries a + volumeEntries b := by
  induction a with
  | nil => simp [volumeEntries]
  | cons e es ih => obtain ⟨k, v⟩ := e; simp only [List.cons_append, volumeEntries, ih]; omega

theorem replaceKey_volume {k : Str} {c v : Json F} {a : List (Str × Json F)} (h : lookupKey k a = some c) :
    volumeEntries (replaceKey k v a) + volume c = volumeEntries a + volume v := by
  induction a with
  | nil => simp [lookupKey] at h
  | cons e es ih =>
    obtain ⟨k', v'⟩ := e
    unfold replaceKey
    unfold lookupKey at h
    split at h
    · rename_i hk
      rw [if_pos (by simpa using hk)]
      simp only [Option.some.injEq] at h
      subst h
      simp only [volumeEntries]
      omega
    · rename_i hk
      rw [if_neg (by simpa using hk)]
      have := ih h
      simp only [volumeEntries]
      omega

theorem volume_pos (v : Json F) : 0 < volume v := by
  rcases v with ⟨_ | _ | _ | _⟩ | _ | _ <;> simp [volume] <;> omega

mutual
theorem deepMerge_volume (a b : Json F) : volume (deepMerge a b) ≤ volume a + volume b := by
  match b with
  | .prim p => simp only [deepMerge]; omega
  | .arr items => simp only [deepMerge]; omega
  | .obj b =>
    match a with
    | .prim p => simp only [deepMerge]; omega
    | .arr items => simp only [deepMerge]; omega
    | .obj a =>
      simp only [deepMerge, volume]
      have := mergeObj_volume a b
      omega
theorem mergeObj_volume (a b : List (Str × Json F)) : volumeEntries (mergeObj a b) ≤ volumeEntries a + volumeEntries b := by
  match b with
  | [] => rw [mergeObj]; omega
  | (k, v) :: b =>
    rw [mergeObj_cons]
    have h1 := mergeObj_volume (putMerge a k v) b
    have h2 : volumeEntries (putMerge a k v) ≤ volumeEntries a + (k.length + volume v) := by
      unfold putMerge
      cases hl : lookupKey k a with
      | none => simp only [volumeEntries_append, volumeEntries]; omega
      | some c =>
        have h3 := deepMerge_volume c v
        have h4 := replaceKey_volume (v := deepMerge c v) hl
        simp only
        omega
    simp only [volumeEntries]
    omega
end

theorem nested_volume (segs : List Str) (v : Json F) : volume (nested segs v) = sourceLength segs + volume v := by
  induction segs with
  | nil => simp [nested, sourceLength]
  | cons s ss ih => simp only [nested, volume, volumeEntries, ih, sourceLength, List.map_cons, List.sum_cons]; omega

theorem atPath_volume {segs : List Str} (h : segs ≠ []) (v : Json F) :
    volumeEntries (atPath segs v) + 1 = sourceLength segs + volume v := by
  cases segs with
  | nil => exact absurd rfl h
  | cons s ss => simp only [atPath, volumeEntries, nested_volume, sourceLength, List.map_cons, List.sum_cons]; omega

theorem keyPath_length (q : Bool) (k : Str) : sourceLength (keyPath q k) = k.length + 1 := by
  unfold keyPath
  split
  · rw [splitDots_eq]; exact sourceLength_split '.' k
  · simp [sourceLength]

mutual
theorem expanded_volume (t : ETree F) : volume (expanded t) ≤ volume t.json := by
  match t with
  | .prim p => simp [expanded, ETree.json]
  | .arr n items => simp only [expanded, ETree.json, volume]; have := expandedItems_volume items; omega
  | .obj es =>
    simp only [expanded, ETree.json, volume]
    have := expandedEntries_volume (quotedIn es) es []
    simp only [volumeEntries] at this
    omega
theorem expandedItems_volume (ts : List (ETree F)) : volumeItems (expandedItems ts) ≤ volumeItems (ETree.jsonItems ts) := by
  match ts with
  | [] => simp [expandedItems, volumeItems]
  | t :: ts =>
    simp only [expandedItems, volumeItems, ETree.jsonItems]
    have := expanded_volume t
    have := expandedItems_volume ts
    omega
theorem expandedEntries_volume (quoted : Str → Bool) (es : List (Str × Bool × ETree F)) (acc : List (Str × Json F)) :
    volumeEntries (expandedEntries quoted es acc) ≤ volumeEntries acc + volumeEntries (ETree.jsonEntries es) := by
  match es with
  | [] => rw [expandedEntries]; omega
  | (k, q, t) :: es =>
    rw [expandedEntries, ETree.jsonEntries, volumeEntries]
    have h1 := expandedEntries_volume quoted es (mergeObj acc (atPath (keyPath (quoted k) k) (expanded t)))
    have h2 := mergeObj_volume acc (atPath (keyPath (quoted k) k) (expanded t))
    have h3 := atPath_volume (keyPath_ne (quoted k) k) (expanded t)
    have h4 := expanded_volume t
    have h5 := keyPath_length (quoted k) k
    omega
end

/-! ## Values, characters and nesting -/

mutual
theorem nodes_le_volume (v : Json F) : nodes v ≤ volume v := by
  match v with
  | .prim p => cases p <;> simp [nodes, volume]
  | .arr items => simp only [nodes, volume]; have := nodesItems_le_volume items; omega
  | .obj es => simp only [nodes, volume]; have := nodesEntries_le_volume es; omega
theorem nodesItems_le_volume (vs : List (Json F)) : nodesItems vs ≤ volumeItems vs := by
  match vs with
  | [] => simp [nodesItems]
  | v :: vs =>
    simp only [nodesItems, volumeItems]
    have := nodes_le_volume v
    have := nodesItems_le_volume vs
    omega
theorem nodesEntries_le_volume (es : List (Str × Json F)) : nodesEntries es ≤ volumeEntries es := by
  match es with
  | [] => simp [nodesEntries]
  | (k, v) :: es =>
    simp only [nodesEntries, volumeEntries]
    have := nodes_le_volume v
    have := nodesEntries_le_volume es
    omega
end

end

end Toon
