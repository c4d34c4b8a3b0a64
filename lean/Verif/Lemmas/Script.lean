import Verif.Lemmas.ScriptText

/-! What the grammar makes of scripts. -/

namespace Toon

section
variable {F : Type} [F64 F]

/-! ## Cells -/

omit [F64 F] in
theorem rowWords_eq (d : Char) (row : List (Word F)) : rowWords d row = separated d ((row.map Word.word).map Padded.written) := by
  rw [rowWords, List.map_map]; rfl

theorem words_fit {d : Char} {row : List (Word F)} (h : RightCells d row) : ∀ w ∈ row.map Word.word, Visible w.text ∧ CellText d w.text := by
  intro w hw
  obtain ⟨x, hx, rfl⟩ := List.mem_map.mp hw
  exact ⟨(h x hx).1.1, (h x hx).2⟩

theorem words_mean {d : Char} : ∀ {row : List (Word F)}, RightCells d row →
    Pointwise TokenMeans ((row.map Word.word).map Padded.text) (row.map Word.prim)
  | [], _ => .nil
  | w :: row, h => .cons (h w (by simp)).1.2 (words_mean fun x hx => h x (List.mem_cons_of_mem _ hx))

omit [F64 F] in
theorem padFields_zip : ∀ (names : List FieldName) (cols : List Column) (row : List (Word F)),
    names.map (·.name) = cols.map Column.name → row.length = cols.length →
    ETree.jsonEntries (padFields names (row.map Word.prim)) = (cols.zip row).map fun c => (c.1.name, .prim c.2.prim)
  | [], [], _, _, _ => by simp [padFields, ETree.jsonEntries]
  | [], _ :: _, _, h, _ => by simp at h
  | _ :: _, [], _, h, _ => by simp at h
  | n :: names, c :: cols, [], _, h => by simp at h
  | n :: names, c :: cols, w :: row, h, hl => by
    simp only [List.map_cons, List.cons.injEq] at h
    simp only [List.length_cons, Nat.add_right_cancel_iff] at hl
    simp [padFields, ETree.jsonEntries, ETree.json, padFields_zip names cols row h.2 hl, h.1]

theorem table_script {strict : Bool} {d : Char} (hd : GoodDelim d) {names : List FieldName} {cols : List Column} (hne : cols ≠ [])
    (hn : names.map (·.name) = cols.map Column.name) {depth : Nat} (rows : List (List (Word F)))
    (h : ∀ row ∈ rows, row.length = cols.length ∧ (∀ w, row.head? = some w → w.word.before = 0) ∧ RightCells d row) :
    ∀ ls : List Line, Proj ls (outs (rows.map fun row => (depth, rowWords d row))) →
      (∀ line ∈ ls, line.depth = depth) ∧ ls.length = rows.length ∧
      Pointwise (TableRow strict names d) ls (rows.map fun row => .obj (padFields names (row.map Word.prim))) := by
  induction rows with
  | nil => intro ls hp; rw [Proj.nil_iff.mp hp]; exact ⟨by simp, rfl, .nil⟩
  | cons row rows ih =>
    intro ls hp
    rw [List.map_cons] at hp
    obtain ⟨l, ls, rfl, h1, h2, hp⟩ := Proj.cons hp
    obtain ⟨h3, h4, h5⟩ := ih (fun r hr => h r (by simp [hr])) ls hp
    obtain ⟨hlen, _, hrow⟩ := h row (by simp)
    have hrne : row ≠ [] := by
      intro he; subst he
      cases cols with
      | nil => exact hne rfl
      | cons _ _ => simp at hlen
    have hc := cells_words hd (ws := row.map Word.word) (by simpa using hrne) (words_fit hrow)
    have hnl : names.length = cols.length := by
      have := congrArg List.length hn
      simpa using this
    refine ⟨?_, by simp [h4], .cons ⟨_, row.map Word.prim, by rw [h2]; simp only [rowWords_eq]; exact hc, words_mean hrow, ?_, rfl⟩ h5⟩
    · intro l' hl'
      rcases List.mem_cons.mp hl' with rfl | hl'
      · exact h1
      · exact h3 l' hl'
    · intro _
      simp [hlen, hnl]

/-! ## Where lines begin -/

omit [F64 F] in
theorem script_entries_head (depth : Nat) (es : List (Key × Script F)) {ls rest : List Line}
    (hp : Proj ls (outs (Script.entriesRows depth es))) (hr : RestLe depth rest) : RestLe depth (ls ++ rest) := by
  cases es with
  | nil =>
    rw [Script.entriesRows] at hp
    rw [Proj.nil_iff.mp hp]
    exact hr
  | cons e es =>
    obtain ⟨k, v⟩ := e
    rw [Script.entriesRows] at hp
    obtain ⟨l, ls, rfl, h, _⟩ := Proj.cons hp
    intro l' hl'
    simp at hl'
    subst hl'
    exact Nat.le_of_eq h

omit [F64 F] in
theorem script_item_cons (depth : Nat) (v : Script F) : ∃ c tl, v.itemRows depth = (depth, c) :: tl := by
  match v with
  | .prim w => exact ⟨_, _, by rw [Script.itemRows]⟩
  | .inline _ _ _ => exact ⟨_, _, by rw [Script.itemRows]⟩
  | .table _ _ _ _ => exact ⟨_, _, by rw [Script.itemRows]⟩
  | .list _ _ _ => exact ⟨_, _, by rw [Script.itemRows]⟩
  | .object [] => exact ⟨_, _, by rw [Script.itemRows]⟩
  | .object ((_, _) :: _) => exact ⟨_, _, by rw [Script.itemRows, List.cons_append]⟩

omit [F64 F] in
theorem script_items_head (depth : Nat) (vs : List (Script F)) {ls rest : List Line}
    (hp : Proj ls (outs (Script.itemsRows depth vs))) (hr : RestLe depth rest) : RestLe depth (ls ++ rest) := by
  cases vs with
  | nil =>
    rw [Script.itemsRows] at hp
    rw [Proj.nil_iff.mp hp]
    exact hr
  | cons v vs =>
    obtain ⟨c, tl, hc⟩ := script_item_cons depth v
    rw [Script.itemsRows, hc] at hp
    obtain ⟨l, ls, rfl, h, _⟩ := Proj.cons hp
    intro l' hl'
    simp at hl'
    subst hl'
    exact Nat.le_of_eq h

/-! ## The induction -/

/-- Arrays of all three forms. -/
def Script.isArray : Script F → Prop
  | .prim _ => False
  | .object _ => False
  | _ => True

theorem notNext_below {base : Nat} {rest : List Line} (hr : RestLe base rest) (p : Str → Prop) : ¬ NextIs (base + 1) p rest :=
  notNext_shallow (fun l hl => Nat.lt_succ_of_le (hr l hl)) p

theorem noBlank_nil (body : List Line) : NoBlankWithin [] body := by
  intro _ _ _ _ b hb
  simp at hb

theorem script_prim_item {w : Word F} (h : w.Right) (hc : w.word.text.head? = some '"' ∨ ':' ∉ w.word.text) :
    ¬ HasColon w.word.written ∧ NoHeader w.word.written := by
  obtain ⟨hv, ht⟩ := h
  by_cases hq : w.word.text.head? = some '"'
  · have : ∃ body s, w.word.text = '"' :: body ++ ['"'] ∧ QuotedDenotes body s := by
      generalize w.word.text = t at ht hq
      generalize w.prim = p at ht
      cases ht with
      | empty => simp at hq
      | quoted h => exact ⟨_, _, rfl, h⟩
      | «true» => simp at hq
      | «false» => simp at hq
      | null => simp at hq
      | number hg _ _ =>
        exfalso
        obtain ⟨sign, int, frac, exp, rfl, hs, hi, _⟩ := hg
        rcases hs with rfl | rfl
        · cases int with
          | nil => exact hi.1 rfl
          | cons c int =>
            simp at hq
            subst hq
            exact absurd (hi.2 '"' (by simp)) (by decide)
        · simp at hq
      | bare _ hh _ _ _ _ => exact absurd hq hh
    obtain ⟨body, s, he, hd⟩ := this
    have hlit := quotedDenotes_literal hd
    have hblank : BlankLine (List.replicate w.word.before ' ') := by
      intro c hc; rw [List.eq_of_mem_replicate hc]; decide
    constructor
    · rw [hasColon_noCut, Classical.not_not]
      exact CellText.written_noCut (by decide) (by decide) (Or.inl ⟨body, s, he, hd⟩)
    · refine ⟨fun _ => ⟨_, body, List.replicate w.word.after ' ', hblank, hlit, by rw [Padded.written, he]; simp⟩, ?_⟩
      rintro pre seg cols after ⟨rest, hb, _, _⟩
      exfalso
      have hW : w.word.written = List.replicate w.word.before ' ' ++ '"' :: (body ++ '"' :: List.replicate w.word.after ' ') := by
        rw [Padded.written, he]; simp
      rw [hW] at hb
      generalize hX : seg ++ ']' :: rest = X at hb
      generalize hC : List.replicate w.word.before ' ' ++ '"' :: (body ++ '"' :: List.replicate w.word.after ' ') = C at hb
      cases hb with
      | quoted hws hl =>
        rename_i ws body'
        have e1 := trimStart_quote (r := body ++ '"' :: List.replicate w.word.after ' ') hblank
        have e2 := trimStart_quote (r := body' ++ '"' :: '[' :: X) hws
        have hC' : ws ++ '"' :: (body' ++ '"' :: '[' :: X) = List.replicate w.word.before ' ' ++ '"' :: (body ++ '"' :: List.replicate w.word.after ' ') := by
          rw [hC]; simp
        rw [hC', e1] at e2
        simp only [List.cons.injEq, true_and] at e2
        have := (closing_unique hlit hl e2).2
        have hm : '[' ∈ List.replicate w.word.after ' ' := by rw [this]; simp
        exact absurd (List.eq_of_mem_replicate hm) (by decide)
      | bare hv' _ =>
        apply hv'
        rw [← hC]
        exact ⟨_, _, hblank, rfl⟩
  · have hcol : ':' ∉ w.word.written := by
      rw [Padded.mem_written (by decide)]
      rcases hc with hc | hc
      · exact absurd hc hq
      · exact hc
    constructor
    · rintro ⟨a, b, he, _⟩
      exact hcol (by rw [he]; simp)
    · constructor
      · rintro ⟨ws, rest, hb, he⟩
        exfalso
        have h1 : trim w.word.written = w.word.text := hv.trim_written
        have h2 : trimStart w.word.written = w.word.text ++ List.replicate w.word.after ' ' := by
          rw [Padded.written, List.append_assoc, trimStart_all_ws (spaces_ws _), trimStart_eq_self]
          intro c hc
          cases htx : w.word.text with
          | nil => exact absurd htx hv.1
          | cons x t =>
            rw [htx] at hc
            simp at hc
            subst hc
            exact hv.2.2.1 _ (by rw [htx]; rfl)
        rw [he, trimStart_quote hb] at h2
        cases htx : w.word.text with
        | nil => exact absurd htx hv.1
        | cons x t =>
          rw [htx] at h2 hq
          simp at h2 hq
          exact hq h2.1.symm
      · rintro pre seg cols after ⟨rest, hb, _, ha⟩
        exfalso
        have hr : ':' ∈ rest := by cases ha <;> simp
        have : ':' ∈ seg ++ ']' :: rest := by simp [hr]
        generalize seg ++ ']' :: rest = X at hb this
        apply hcol
        generalize w.word.written = C at hb
        cases hb <;> simp [this]

mutual
theorem array_script {strict : Bool} (key : Option Key) (hk : ∀ k, key = some k → k.Right) (base : Nat) (v : Script F) (h : v.Right)
    (ha : v.isArray) : ∃ hdr : Header, HeaderMeans (keyBefore key ++ v.text) hdr ∧ hdr.key = key.map Key.name ∧
      HasColon (keyBefore key ++ v.text) ∧
      ∀ ls rest : List Line, Proj ls (outs (v.rowsBelow (base + 1))) → RestLe base rest →
        ∃ t : ETree F, ArrayMeans strict [] base hdr (ls ++ rest) t rest ∧ t.json = v.value := by
  have hst : quoteState (keyBefore key) = .out := by
    cases key with
    | none => rfl
    | some k => exact (hk k rfl).state
  match v, h, ha with
  | .prim _, _, ha => exact absurd ha id
  | .object _, _, ha => exact absurd ha id
  | .inline d len cells, h, _ =>
    simp only [Script.Right] at h
    obtain ⟨hl, hn, hc⟩ := h
    have hd := lengthMeans_delim hl
    obtain ⟨hdr, h1, h2, h3, h4, h5, h6⟩ := header_plain hk hl hn (rowWords d cells)
    refine ⟨hdr, by simpa [Script.text] using h1, h2, by simpa [Script.text] using array_line hl hst (rowWords d cells), ?_⟩
    intro ls rest hp hr
    rw [Script.rowsBelow] at hp
    rw [Proj.nil_iff.mp hp]
    by_cases hne : cells = []
    · subst hne
      have hb : BlankLine (rowWords (F := F) d []) := by intro c hc; simp [rowWords, separated] at hc
      rcases h6 with h6 | h6
      · refine ⟨.arr hdr.length [], ?_, by simp [ETree.json, ETree.jsonItems, Script.value]⟩
        refine ArrayMeans.list (body := []) h6.2 (Or.inl h5) (.stop (Or.inr (notNext_below hr _))) ?_
        intro _
        exact ⟨by rw [h3]; rfl, noBlank_nil _, notNext_below hr _⟩
      · exact absurd hb h6.1
    · obtain ⟨hnb, hcells⟩ := trim_words hd (ws := cells.map Word.word) (by simpa using hne) (words_fit hc)
      rw [← rowWords_eq] at hnb hcells
      rcases h6 with h6 | h6
      · exact absurd h6.1 hnb
      · refine ⟨.arr hdr.length ((cells.map Word.prim).map .prim), ?_, ?_⟩
        · refine ArrayMeans.inline h6.2 (by rw [h4]; exact hcells) (words_mean hc) ?_
          intro _
          rw [h3]
          simp
        · simp only [ETree.json, Script.value]
          rw [jsonItems_of, List.map_map]
          simp only [ETree.json]
          rfl
  | .table d len cols rows, h, _ =>
    simp only [Script.Right] at h
    obtain ⟨hl, hn, hne, hc, hrows⟩ := h
    have hd := lengthMeans_delim hl
    obtain ⟨hdr, h1, h2, h3, h4, h5, names, h6, h7⟩ := header_table hk hl hn hne hc
    refine ⟨hdr, by simpa [Script.text] using h1, h2, by simpa [Script.text] using table_line hl hst hc, ?_⟩
    intro ls rest hp hr
    rw [Script.rowsBelow] at hp
    obtain ⟨e1, e2, e3⟩ := table_script (strict := strict) hd hne h7 rows hrows ls hp
    refine ⟨.arr hdr.length (rows.map fun row => .obj (padFields names (row.map Word.prim))), ?_, ?_⟩
    · refine ArrayMeans.table h5 h6 ?_ e1 (by rw [h4]; exact e3) (by rw [h3, e2]; exact Nat.le_refl _) (fun _ => notNext_below hr _) ?_
      · intro he
        subst he
        cases cols with
        | nil => exact hne rfl
        | cons _ _ => simp at h7
      · intro _
        exact ⟨by rw [h3, e2], noBlank_nil _, notNext_below hr _⟩
    · simp only [ETree.json, Script.value]
      rw [jsonItems_of]
      congr 1
      apply List.map_congr_left
      intro row hrow
      simp only [ETree.json]
      rw [padFields_zip names cols row h7 (hrows row hrow).1]
  | .list d len items, h, _ =>
    simp only [Script.Right] at h
    obtain ⟨hl, hn, hitems⟩ := h
    obtain ⟨hdr, h1, h2, h3, h4, h5, h6⟩ := header_plain hk hl hn []
    refine ⟨hdr, by simpa [Script.text] using h1, h2, by simpa [Script.text] using array_line hl hst [], ?_⟩
    intro ls rest hp hr
    rw [Script.rowsBelow] at hp
    obtain ⟨ts, e1, e2, e3⟩ := items_script (strict := strict) base items hitems ls rest hp hr
    have hin : hdr.inline = none := by
      rcases h6 with h6 | h6
      · exact h6.2
      · exact absurd (by intro c hc; simp at hc) h6.1
    refine ⟨.arr hdr.length ts, ArrayMeans.list hin (Or.inl h5) (by rw [h3]; exact e1) ?_, ?_⟩
    · intro _
      exact ⟨by rw [h3, e3], noBlank_nil _, notNext_below hr _⟩
    · simp only [ETree.json, Script.value, e2]
termination_by (sizeOf v, 1)

theorem entry_script {strict : Bool} (k : Key) (hk : k.Right) (base : Nat) (v : Script F) (h : v.Right)
    (hw : ∀ w, v = .prim w → k.text.head? = some '"' ∨ '[' ∉ w.word.text ∨ ':' ∉ w.word.text) (ls rest : List Line)
    (hp : Proj ls (outs (v.rowsBelow (base + 1)))) (hr : RestLe base rest) :
    ∃ (q : Bool) (t : ETree F), EntryMeans strict [] base (k.text ++ v.text) (ls ++ rest) (k.name, q, t) rest ∧ t.json = v.value := by
  have hk' : ∀ k', some k = some k' → k'.Right := by intro k' he; cases he; exact hk
  have arr : (∃ hdr : Header, HeaderMeans (keyBefore (some k) ++ v.text) hdr ∧ hdr.key = (some k).map Key.name ∧
      HasColon (keyBefore (some k) ++ v.text) ∧
      ∀ ls rest : List Line, Proj ls (outs (v.rowsBelow (base + 1))) → RestLe base rest →
        ∃ t : ETree F, ArrayMeans strict [] base hdr (ls ++ rest) t rest ∧ t.json = v.value) →
      ∃ (q : Bool) (t : ETree F), EntryMeans strict [] base (k.text ++ v.text) (ls ++ rest) (k.name, q, t) rest ∧ t.json = v.value := by
    rintro ⟨hdr, h1, h2, _, h4⟩
    obtain ⟨t, h5, h6⟩ := h4 ls rest hp hr
    exact ⟨_, t, .array h1 h2 h5, h6⟩
  match v, h, hw, hp, arr with
  | .prim w, h, hw, hp, _ =>
    simp only [Script.Right] at h
    rw [Script.rowsBelow] at hp
    rw [Proj.nil_iff.mp hp, Script.text]
    obtain ⟨q, hq⟩ := hk.keyLine w.word.written
    refine ⟨q, .prim w.prim, .prim (Or.inl (hk.noHeader ?_)) hq h.1.written_notBlank ?_, by simp only [ETree.json, Script.value]⟩
    · rw [Padded.mem_written (by decide), Padded.mem_written (by decide)]
      exact hw w rfl
    · rw [h.1.trim_written]
      exact h.2
  | .inline d len cells, h, _, _, arr => exact arr (array_script (some k) hk' base (.inline d len cells) h trivial)
  | .table d len cols rows, h, _, _, arr => exact arr (array_script (some k) hk' base (.table d len cols rows) h trivial)
  | .list d len items, h, _, _, arr => exact arr (array_script (some k) hk' base (.list d len items) h trivial)
  | .object es, h, _, hp, _ =>
    simp only [Script.Right] at h
    rw [Script.rowsBelow] at hp
    rw [Script.text]
    have hno : NoKeyedHeader (k.text ++ [':']) := Or.inl (hk.noHeader (Or.inr (Or.inl (by simp))))
    obtain ⟨q, hkey⟩ := hk.keyLine []
    have hblank : BlankLine [] := by intro c hc; simp at hc
    have key := entries_script (strict := strict) false (base + 1) es h ls rest hp (fun l hl => Nat.lt_succ_of_le (hr l hl))
    cases es with
    | nil =>
      rw [Script.entriesRows] at hp
      rw [Proj.nil_iff.mp hp]
      refine ⟨q, .obj [], .empty hno hkey hblank ?_, by simp [ETree.json, ETree.jsonEntries, Script.value, Script.valueEntries]⟩
      intro line more hl
      exact hr line (by rw [show rest = line :: more from hl]; rfl)
    | cons e es =>
      obtain ⟨ts, h1, h2⟩ := key
      obtain ⟨k', v⟩ := e
      rw [Script.entriesRows] at hp
      obtain ⟨l, ls, rfl, hdep, _⟩ := Proj.cons hp
      simp only at hdep
      exact ⟨q, .obj ts, .object hno hkey hblank (by omega) (by rw [hdep]; exact h1), by simp only [ETree.json, Script.value, h2]⟩
termination_by (sizeOf v, 2)

theorem entries_script {strict : Bool} (inList : Bool) (base : Nat) (es : List (Key × Script F))
    (h : Script.RightEntries es) (ls rest : List Line) (hp : Proj ls (outs (Script.entriesRows base es)))
    (hr : ∀ l, rest.head? = some l → l.depth < base) :
    ∃ ts : List (Str × Bool × ETree F), BlockMeans strict [] inList base (ls ++ rest) ts rest ∧
      ETree.jsonEntries ts = Script.valueEntries es := by
  match es, h with
  | [], _ =>
    rw [Script.entriesRows] at hp
    rw [Proj.nil_iff.mp hp]
    exact ⟨[], .stop (notNext_shallow hr _), by simp [ETree.jsonEntries, Script.valueEntries]⟩
  | (k, v) :: es, h =>
    simp only [Script.RightEntries] at h
    rw [Script.entriesRows, List.cons_append] at hp
    obtain ⟨l, ls, rfl, hdep, hcont, hp⟩ := Proj.cons hp
    rw [← outs, outs_append] at hp
    obtain ⟨l1, l2, rfl, hp1, hp2⟩ := hp.split
    simp only at hdep hcont
    have hr2 : RestLe base (l2 ++ rest) := script_entries_head base es hp2 (fun l hl => Nat.le_of_lt (hr l hl))
    obtain ⟨q, t, h1, h2⟩ := entry_script (strict := strict) k h.1 base v h.2.2.1 h.2.1 l1 (l2 ++ rest) hp1 hr2
    have hdash : inList = true → ¬ HyphenSpace l.content := by
      rintro _ ⟨t, he⟩
      obtain ⟨c, t', hc, _, hne, _⟩ := h.1.first
      rw [hcont, hc] at he
      simp at he
      exact hne he.1
    obtain ⟨ts, h4, h5⟩ := entries_script (strict := strict) inList base es h.2.2.2 l2 rest hp2 hr
    rw [List.cons_append, List.append_assoc]
    exact ⟨(k.name, q, t) :: ts, .entry hdep hdash (by rw [hcont]; exact h1) h4, by simp [ETree.jsonEntries, Script.valueEntries, h2, h5]⟩
termination_by (sizeOf es, 0)

theorem item_script {strict : Bool} (depth : Nat) (v : Script F) (h : v.Right)
    (hw : ∀ w, v = .prim w → w.word.text.head? = some '"' ∨ ':' ∉ w.word.text) :
    ∃ (c : Str) (tl : List Row), v.itemRows depth = (depth, c) :: tl ∧ ∀ ls rest : List Line, Proj ls (outs tl) → RestLe depth rest →
      ∃ t : ETree F, ItemMeans' strict [] depth c (ls ++ rest) t rest ∧ t.json = v.value := by
  have arr : v.isArray → v.itemRows depth = (depth, '-' :: ' ' :: v.text) :: v.rowsBelow (depth + 1) →
      (∃ hdr : Header, HeaderMeans (keyBefore none ++ v.text) hdr ∧ hdr.key = none ∧ HasColon (keyBefore none ++ v.text) ∧
      ∀ ls rest : List Line, Proj ls (outs (v.rowsBelow (depth + 1))) → RestLe depth rest →
        ∃ t : ETree F, ArrayMeans strict [] depth hdr (ls ++ rest) t rest ∧ t.json = v.value) →
      ∃ (c : Str) (tl : List Row), v.itemRows depth = (depth, c) :: tl ∧ ∀ ls rest : List Line, Proj ls (outs tl) → RestLe depth rest →
        ∃ t : ETree F, ItemMeans' strict [] depth c (ls ++ rest) t rest ∧ t.json = v.value := by
    rintro ha he ⟨hdr, h1, h2, h3, h4⟩
    refine ⟨_, _, he, fun ls rest hp hr => ?_⟩
    obtain ⟨t, h5, h6⟩ := h4 ls rest hp hr
    have hv : VisibleFirst '[' v.text := by
      refine ⟨[], v.text.tail, by intro c hc; simp at hc, ?_⟩
      cases v <;> first | exact absurd ha id | simp [Script.text]
    exact ⟨t, .array hv h3 h1 h5, h6⟩
  match v, h, hw, arr with
  | .prim w, h, hw, _ =>
    simp only [Script.Right] at h
    refine ⟨_, _, by rw [Script.itemRows], fun ls rest hp hr => ?_⟩
    rw [Proj.nil_iff.mp hp]
    obtain ⟨h1, h2⟩ := script_prim_item h (hw w rfl)
    exact ⟨.prim w.prim, .prim h.1.written_notBlank h1 (Or.inl h2) (by rw [h.1.trim_written]; exact h.2),
      by simp only [ETree.json, Script.value]⟩
  | .inline d len cells, h, _, arr =>
    exact arr trivial (by rw [Script.itemRows, Script.rowsBelow]) (array_script none (by simp) depth (.inline d len cells) h trivial)
  | .table d len cols rows, h, _, arr =>
    exact arr trivial (by rw [Script.itemRows, Script.rowsBelow]) (array_script none (by simp) depth (.table d len cols rows) h trivial)
  | .list d len items, h, _, arr =>
    exact arr trivial (by rw [Script.itemRows, Script.rowsBelow]) (array_script none (by simp) depth (.list d len items) h trivial)
  | .object [], _, _, _ =>
    refine ⟨_, _, by rw [Script.itemRows], fun ls rest hp hr => ?_⟩
    rw [Proj.nil_iff.mp hp]
    exact ⟨.obj [], .hyphen, by simp [ETree.json, ETree.jsonEntries, Script.value, Script.valueEntries]⟩
  | .object ((k, v) :: es), h, _, _ =>
    simp only [Script.Right, Script.RightEntries] at h
    refine ⟨_, _, by rw [Script.itemRows, List.cons_append], fun ls rest hp hr => ?_⟩
    rw [outs_append] at hp
    obtain ⟨l1, l2, rfl, hp1, hp2⟩ := hp.split
    rw [List.append_assoc]
    have hr2 : RestLe (depth + 1) (l2 ++ rest) := script_entries_head (depth + 1) es hp2 (fun l hl => Nat.le_succ_of_le (hr l hl))
    obtain ⟨q, t, h1, h2⟩ := entry_script (strict := strict) k h.1 (depth + 1) v h.2.2.1 h.2.1 l1 (l2 ++ rest) hp1 hr2
    obtain ⟨c, t', hc, hws, _, hbr⟩ := h.1.first
    have hnot : ¬ (VisibleFirst '[' (k.text ++ v.text) ∧ ∃ h, HeaderMeans (k.text ++ v.text) h) := by
      rintro ⟨hv, _⟩
      rw [hc, List.cons_append] at hv
      exact hbr (visibleFirst_cons hws hv).symm
    have hk' : ∀ k', some k = some k' → k'.Right := by intro k' he; cases he; exact h.1
    have hcolon : HasColon (k.text ++ v.text) := by
      cases hv : v with
      | prim w => exact ⟨k.text, w.word.written, by rw [Script.text], h.1.state⟩
      | object es => exact ⟨k.text, [], by rw [Script.text], h.1.state⟩
      | inline d len cells =>
        rw [hv] at h
        simp only [Script.Right] at h
        simpa [Script.text] using array_line h.2.2.1.1 h.1.state (rowWords d cells)
      | table d len cols rows =>
        rw [hv] at h
        simp only [Script.Right] at h
        simpa [Script.text] using table_line h.2.2.1.1 h.1.state h.2.2.1.2.2.2.1
      | list d len items =>
        rw [hv] at h
        simp only [Script.Right] at h
        simpa [Script.text] using array_line h.2.2.1.1 h.1.state []
    obtain ⟨ts, h4, h5⟩ := entries_script (strict := strict) true (depth + 1) es h.2.2.2 l2 rest hp2
      (fun l hl => Nat.lt_succ_of_le (hr l hl))
    exact ⟨.obj ((k.name, q, t) :: ts), .object hnot (Or.inl hcolon) h1 h4,
      by simp [ETree.json, ETree.jsonEntries, Script.value, Script.valueEntries, h2, h5]⟩
termination_by (sizeOf v, 3)

theorem items_script {strict : Bool} (base : Nat) (vs : List (Script F)) (h : Script.RightItems vs) (ls rest : List Line)
    (hp : Proj ls (outs (Script.itemsRows (base + 1) vs))) (hr : RestLe base rest) :
    ∃ ts : List (ETree F), ItemsMean strict [] vs.length (base + 1) (ls ++ rest) ts rest ∧ ETree.jsonItems ts = Script.values vs ∧
      ts.length = vs.length := by
  match vs, h with
  | [], _ =>
    rw [Script.itemsRows] at hp
    rw [Proj.nil_iff.mp hp]
    exact ⟨[], .stop (Or.inl rfl), by simp [ETree.jsonItems, Script.values], rfl⟩
  | v :: vs, h =>
    simp only [Script.RightItems] at h
    obtain ⟨c, tl, hc, hrun⟩ := item_script (strict := strict) (base + 1) v h.2.1 h.1
    rw [Script.itemsRows, hc, List.cons_append] at hp
    obtain ⟨l, ls, rfl, hdep, hcont, hp⟩ := Proj.cons hp
    rw [← outs, outs_append] at hp
    obtain ⟨l1, l2, rfl, hp1, hp2⟩ := hp.split
    simp only at hdep hcont
    have hr2 : RestLe (base + 1) (l2 ++ rest) := script_items_head (base + 1) vs hp2 (fun l hl => Nat.le_succ_of_le (hr l hl))
    obtain ⟨t, h1, h2⟩ := hrun l1 (l2 ++ rest) hp1 hr2
    rw [← hcont] at h1
    obtain ⟨ts, h4, h5, h6⟩ := items_script (strict := strict) base vs h.2.2 l2 rest hp2 hr
    rw [List.cons_append, List.append_assoc]
    exact ⟨t :: ts, .item hdep h1 h4, by simp [ETree.jsonItems, Script.values, h2, h5], by simp [h6]⟩
termination_by (sizeOf vs, 0)
end

/-! ## The lines of the text -/

/-- A line that begins with a visible character. -/
def RowFine (r : Row) : Prop := (∃ x t, r.2 = x :: t ∧ isWs x = false) ∧ '\n' ∉ r.2

theorem word_lf {w : Word F} (h : w.Right) : '\n' ∉ w.word.written := by
  rw [Padded.mem_written (by decide)]
  exact h.1.2.1

theorem rowWords_lf {d : Char} (hd : GoodDelim d) {row : List (Word F)} (h : RightCells d row) : '\n' ∉ rowWords d row := by
  rw [rowWords_eq]
  intro hm
  rcases separated_mem _ (by decide) hm with he | ⟨w, hw, hm⟩
  · rcases hd with h' | h' | h' <;> rw [h'] at he <;> exact absurd he (by decide)
  · exact (words_fit h w hw).1.2.1 hm

theorem row_fine {d : Char} (hd : GoodDelim d) {row : List (Word F)} (hne : row ≠ []) (h0 : ∀ w, row.head? = some w → w.word.before = 0)
    (h : RightCells d row) (depth : Nat) : RowFine (depth, rowWords d row) := by
  refine ⟨?_, rowWords_lf hd h⟩
  cases row with
  | nil => exact absurd rfl hne
  | cons w row =>
    have hv := (h w (by simp)).1.1
    have hh := head_separated (d := d) (ws := (w :: row).map Word.word) (w := w.word) rfl (h0 w rfl) hv.1
    rw [← rowWords_eq] at hh
    simp only
    cases hr : rowWords d (w :: row) with
    | nil =>
      rw [hr] at hh
      cases ht : w.word.text with
      | nil => exact absurd ht hv.1
      | cons x t => rw [ht] at hh; simp at hh
    | cons x t =>
      rw [hr] at hh
      exact ⟨x, t, rfl, hv.2.2.1 x hh.symm⟩

theorem lengthMeans_lf {len : Str} {n : Nat} {d : Char} (h : LengthMeans len n d) : '\n' ∉ len := lengthMeans_not h (by decide)

theorem text_lf {v : Script F} (h : v.Right) : '\n' ∉ v.text := by
  cases v with
  | prim w => simp only [Script.Right] at h; simp [Script.text, word_lf h]
  | inline d len cells =>
    simp only [Script.Right] at h
    simp [Script.text, lengthMeans_lf h.1, rowWords_lf (lengthMeans_delim h.1) h.2.2]
  | table d len cols rows =>
    simp only [Script.Right] at h
    have hc : '\n' ∉ separated d (cols.map fun c => c.word.written) := by
      rw [show (cols.map fun c => c.word.written) = (cols.map Column.word).map Padded.written by rw [List.map_map]; rfl]
      intro hm
      rcases separated_mem _ (by decide) hm with he | ⟨w, hw, hm⟩
      · rcases lengthMeans_delim h.1 with h' | h' | h' <;> rw [h'] at he <;> exact absurd he (by decide)
      · obtain ⟨c, hcm, rfl⟩ := List.mem_map.mp hw
        exact (h.2.2.2.1 c hcm).1.2.1 hm
    simp [Script.text, lengthMeans_lf h.1, hc]
  | list d len items =>
    simp only [Script.Right] at h
    simp [Script.text, lengthMeans_lf h.1]
  | object es => simp [Script.text]

theorem entry_fine {k : Key} (hk : k.Right) {v : Script F} (h : v.Right) (depth : Nat) : RowFine (depth, k.text ++ v.text) := by
  obtain ⟨c, t, hc, hws, _⟩ := hk.first
  exact ⟨⟨c, t ++ v.text, by simp [hc], hws⟩, by simp [hk.lf, text_lf h]⟩

theorem hyphen_fine {c : Str} (h : '\n' ∉ c) (depth : Nat) : RowFine (depth, '-' :: ' ' :: c) :=
  ⟨⟨'-', ' ' :: c, rfl, by decide⟩, by simp [h]⟩

mutual
theorem below_fine (depth : Nat) (v : Script F) (h : v.Right) : ∀ r ∈ v.rowsBelow depth, RowFine r := by
  match v, h with
  | .prim _, _ => simp [Script.rowsBelow]
  | .inline _ _ _, _ => simp [Script.rowsBelow]
  | .table d len cols rows, h =>
    simp only [Script.Right] at h
    intro r hr
    rw [Script.rowsBelow] at hr
    obtain ⟨row, hrow, rfl⟩ := List.mem_map.mp hr
    obtain ⟨h1, h2, h3⟩ := h.2.2.2.2 row hrow
    refine row_fine (lengthMeans_delim h.1) ?_ h2 h3 depth
    intro he
    subst he
    exact h.2.2.1 (List.length_eq_zero_iff.mp h1.symm)
  | .list _ _ items, h =>
    simp only [Script.Right] at h
    rw [Script.rowsBelow]
    exact items_fine depth items h.2.2
  | .object es, h =>
    simp only [Script.Right] at h
    rw [Script.rowsBelow]
    exact entries_fine depth es h
termination_by (sizeOf v, 1)

theorem entries_fine (depth : Nat) (es : List (Key × Script F)) (h : Script.RightEntries es) : ∀ r ∈ Script.entriesRows depth es, RowFine r := by
  match es, h with
  | [], _ => simp [Script.entriesRows]
  | (k, v) :: es, h =>
    simp only [Script.RightEntries] at h
    intro r hr
    rw [Script.entriesRows, List.cons_append, List.mem_cons, List.mem_append] at hr
    rcases hr with rfl | hr | hr
    · exact entry_fine h.1 h.2.2.1 depth
    · exact below_fine (depth + 1) v h.2.2.1 r hr
    · exact entries_fine depth es h.2.2.2 r hr
termination_by (sizeOf es, 0)

theorem item_fine (depth : Nat) (v : Script F) (h : v.Right) : ∀ r ∈ v.itemRows depth, RowFine r := by
  match v, h with
  | .prim w, h =>
    intro r hr
    rw [Script.itemRows, List.mem_singleton] at hr
    subst hr
    exact hyphen_fine (word_lf (by simpa only [Script.Right] using h)) depth
  | .inline d len cells, h =>
    intro r hr
    rw [Script.itemRows, List.mem_singleton] at hr
    subst hr
    exact hyphen_fine (text_lf h) depth
  | .table d len cols rows, h =>
    intro r hr
    rw [Script.itemRows, List.mem_cons] at hr
    rcases hr with rfl | hr
    · exact hyphen_fine (text_lf h) depth
    · exact below_fine (depth + 1) (.table d len cols rows) h r (by rw [Script.rowsBelow]; exact hr)
  | .list d len items, h =>
    intro r hr
    rw [Script.itemRows, List.mem_cons] at hr
    rcases hr with rfl | hr
    · exact hyphen_fine (text_lf h) depth
    · exact below_fine (depth + 1) (.list d len items) h r (by rw [Script.rowsBelow]; exact hr)
  | .object [], _ =>
    intro r hr
    rw [Script.itemRows, List.mem_singleton] at hr
    subst hr
    exact ⟨⟨'-', [], rfl, by decide⟩, by simp⟩
  | .object ((k, v) :: es), h =>
    simp only [Script.Right, Script.RightEntries] at h
    intro r hr
    rw [Script.itemRows, List.cons_append, List.mem_cons, List.mem_append] at hr
    rcases hr with rfl | hr | hr
    · exact hyphen_fine (entry_fine h.1 h.2.2.1 depth).2 depth
    · exact below_fine (depth + 2) v h.2.2.1 r hr
    · exact entries_fine (depth + 1) es h.2.2.2 r hr
termination_by (sizeOf v, 2)

theorem items_fine (depth : Nat) (vs : List (Script F)) (h : Script.RightItems vs) : ∀ r ∈ Script.itemsRows depth vs, RowFine r := by
  match vs, h with
  | [], _ => simp [Script.itemsRows]
  | v :: vs, h =>
    simp only [Script.RightItems] at h
    intro r hr
    rw [Script.itemsRows, List.mem_append] at hr
    rcases hr with hr | hr
    · exact item_fine depth v h.2.1 r hr
    · exact items_fine depth vs h.2.2 r hr
termination_by (sizeOf vs, 0)
end

omit [F64 F] in
theorem document_array {v : Script F} (ha : v.isArray) : v.documentRows = (0, v.text) :: v.rowsBelow 1 := by
  cases v <;> first | exact absurd ha id | rfl

theorem text_bracket {v : Script F} (ha : v.isArray) : ∃ t, v.text = '[' :: t := by
  cases v <;> first | exact absurd ha id | exact ⟨_, rfl⟩

theorem document_fine {v : Script F} (h : v.RightDocument) : ∀ r ∈ v.documentRows, RowFine r := by
  have arr : v.isArray → ∀ r ∈ v.documentRows, RowFine r := by
    intro ha r hr
    rw [document_array ha, List.mem_cons] at hr
    rcases hr with rfl | hr
    · obtain ⟨t, ht⟩ := text_bracket ha
      exact ⟨⟨'[', t, ht, by decide⟩, text_lf h.1⟩
    · exact below_fine 1 v h.1 r hr
  cases v with
  | prim w =>
    obtain ⟨h0, _⟩ := h.2 w rfl
    have hw : w.Right := by simpa only [Script.Right] using h.1
    intro r hr
    rw [Script.documentRows, List.mem_singleton] at hr
    subst hr
    refine ⟨?_, word_lf hw⟩
    cases ht : w.word.text with
    | nil => exact absurd ht hw.1.1
    | cons x t => exact ⟨x, t ++ List.replicate w.word.after ' ', by simp [Padded.written, h0, ht], hw.1.2.2.1 x (by rw [ht]; rfl)⟩
  | object es =>
    rw [Script.documentRows]
    exact entries_fine 0 es (by simpa only [Script.Right] using h.1)
  | inline d len cells => exact arr trivial
  | table d len cols rows => exact arr trivial
  | list d len items => exact arr trivial

theorem scans_fineRows {indent : Nat} (hi : 0 < indent) (strict : Bool) : ∀ (rows : List Row), (∀ r ∈ rows, RowFine r) → ∀ n,
    ∃ lines, ScansTo indent strict n (rows.map (rowText indent)) lines [] ∧ Proj lines (outs rows)
  | [], _, n => ⟨[], .nil n, rfl⟩
  | r :: rows, h, n => by
    obtain ⟨lines, h1, h2⟩ := scans_fineRows hi strict rows (fun x hx => h x (List.mem_cons_of_mem _ hx)) (n + 1)
    obtain ⟨⟨x, t, hx, hws⟩, _⟩ := h r (by simp)
    have hne : ∀ c, isWs c = true → r.2.head? ≠ some c := by
      intro c hc he
      rw [hx] at he
      simp at he
      subst he
      rw [hws] at hc
      exact absurd hc (by simp)
    refine ⟨⟨indent * r.1 / indent, r.2, n + 1⟩ :: lines, .line ?_ (hne ' ' (by decide)) ?_ h1, ?_⟩
    · intro hb
      have := hb x (by rw [hx]; simp)
      rw [hws] at this
      exact absurd this (by simp)
    · intro _
      exact ⟨hne '\t' (by decide), Nat.mul_mod_right _ _⟩
    · rw [show outs (r :: rows) = ⟨r.1, r.2⟩ :: outs rows from rfl, Proj.cons_iff]
      exact ⟨⟨Nat.mul_div_cancel_left _ hi, rfl⟩, h2⟩

/-! ## The whole text -/

theorem document_script {strict : Bool} (v : Script F) (h : v.RightDocument) {lines : List Line} (hp : Proj lines (outs v.documentRows)) :
    ∃ t : ETree F, DocumentMeans strict [] lines t [] ∧ t.json = v.value := by
  have nil : ∀ b, RestLe b [] := by intro b l hl; simp at hl
  have arr : v.isArray → ∃ t : ETree F, DocumentMeans strict [] lines t [] ∧ t.json = v.value := by
    intro ha
    rw [document_array ha] at hp
    obtain ⟨hdr, h1, h2, h3, h4⟩ := array_script (strict := strict) none (by simp) 0 v h.1 ha
    obtain ⟨l, ls, rfl, hdep, hcont, hp⟩ := Proj.cons hp
    obtain ⟨t, h5, h6⟩ := h4 ls [] hp (nil 0)
    rw [List.append_nil] at h5
    simp only at hcont
    simp only [keyBefore, List.nil_append] at h1 h3
    obtain ⟨x, hx⟩ := text_bracket ha
    refine ⟨t, .array ?_ (by rw [hcont]; exact h3) (by rw [hcont]; exact h1) h5, h6⟩
    rw [hcont]
    exact ⟨[], x, by intro c hc; simp at hc, by simpa using hx⟩
  cases v with
  | prim w =>
    obtain ⟨h0, hc⟩ := h.2 w rfl
    have hw : w.Right := by simpa only [Script.Right] using h.1
    rw [Script.documentRows] at hp
    obtain ⟨l, ls, rfl, hdep, hcont, hp⟩ := Proj.cons hp
    rw [Proj.nil_iff.mp hp]
    simp only at hcont
    refine ⟨.prim w.prim, .prim ?_ (by rw [hcont, hw.1.trim_written]; exact hw.2), by simp only [ETree.json, Script.value]⟩
    rw [hcont, Padded.mem_written (by decide)]
    rcases hc with hc | hc
    · left
      cases ht : w.word.text with
      | nil => exact absurd ht hw.1.1
      | cons x t =>
        rw [ht] at hc
        simp [Padded.written, h0, ht] at hc ⊢
        exact hc
    · exact Or.inr hc
  | inline d len cells => exact arr trivial
  | table d len cols rows => exact arr trivial
  | list d len items => exact arr trivial
  | object es =>
    have hes : Script.RightEntries es := by simpa only [Script.Right] using h.1
    rw [Script.documentRows] at hp
    obtain ⟨ts, h1, h2⟩ := entries_script (strict := strict) false 0 es hes lines [] hp (by intro l hl; simp at hl)
    rw [List.append_nil] at h1
    cases es with
    | nil =>
      rw [Script.entriesRows] at hp
      rw [Proj.nil_iff.mp hp]
      exact ⟨.obj [], .empty, by simp [ETree.json, ETree.jsonEntries, Script.value, Script.valueEntries]⟩
    | cons e es =>
      obtain ⟨k, v⟩ := e
      rw [Script.entriesRows] at hp
      obtain ⟨l, ls, rfl, hdep, hcont, hp⟩ := Proj.cons hp
      simp only at hcont
      cases h1 with
      | entry h4 h5 h6 h7 =>
        refine ⟨_, .object ?_ h6 h7, by simp only [ETree.json, Script.value, h2]⟩
        intro hv
        simp only [Script.RightEntries] at hes
        obtain ⟨c, t', hc, hws, _, hbr⟩ := hes.1.first
        rw [hcont, hc, List.cons_append] at hv
        exact absurd (visibleFirst_cons hws hv).symm hbr

theorem text_script {indent : Nat} (hi : 0 < indent) (strict : Bool) (v : Script F) (h : v.RightDocument) :
    ∃ t : ETree F, TextMeans indent strict (splitOn '\n' (v.written indent)) t ∧ t.json = v.value := by
  obtain ⟨lines, h1, h2⟩ := scans_fineRows hi strict v.documentRows (document_fine h) 0
  obtain ⟨t, h3, h4⟩ := document_script (strict := strict) v h h2
  rw [Script.written, separated_eq]
  cases hr : v.documentRows.map (rowText indent) with
  | nil =>
    rw [hr] at h1
    cases h1
    refine ⟨t, ⟨[], [1], [], ?_, ?_⟩, h4⟩
    · exact .blank (by intro c hc; simp at hc) (.nil _)
    · cases h3; exact .empty
  | cons l ls =>
    rw [splitOn_joinWith (by simp), ← hr]
    · exact ⟨t, ⟨lines, [], [], h1, h3⟩, h4⟩
    · intro x hx
      rw [← hr] at hx
      obtain ⟨r, hm, rfl⟩ := List.mem_map.mp hx
      have := (document_fine h r hm).2
      rw [rowText, List.mem_append]
      rintro (hm | hm)
      · exact absurd (List.eq_of_mem_replicate hm) (by decide)
      · exact this hm

end

end Toon
