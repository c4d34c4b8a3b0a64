import Verif.Lemmas.ShallowText
import Verif.Props.Layout
import Verif.Lemmas.RoundTrip

/-! The written lines of values without nesting, and how they are scanned with another indentation unit. -/

namespace Toon

/-! ## Scanning rows -/

/-- Line content that does not begin with white space. -/
def RowOk (c : Str) : Prop := ∃ x t, c = x :: t ∧ isWs x = false

theorem lineOk_rowOk {c : Str} (h : LineOk c) : RowOk c := by
  cases c with
  | nil => exact absurd rfl h.ne
  | cons x t => exact ⟨x, t, rfl, h.edge.1 x rfl⟩

theorem RowOk.visible {c : Str} (h : RowOk c) : ¬ BlankLine c := by
  obtain ⟨x, t, rfl, hx⟩ := h
  intro hb
  have := hb x (by simp)
  rw [hx] at this
  simp at this

theorem RowOk.head {c : Str} (h : RowOk c) {x : Char} (hx : isWs x = true) : c.head? ≠ some x := by
  obtain ⟨y, t, rfl, hy⟩ := h
  intro e
  simp only [List.head?_cons, Option.some.injEq] at e
  rw [e, hx] at hy
  simp at hy

theorem scans_rows {i j : Nat} {strict : Bool} {n : Nat} {rows : List Row} {ls : List Line} {bs : List Nat}
    (hr : ∀ r ∈ rows, RowOk r.2) (h : ScansTo j strict n (rows.map (rowText i)) ls bs) :
    Pointwise (fun r l => l.content = r.2 ∧ l.depth = i * r.1 / j ∧ (strict = true → i * r.1 % j = 0)) rows ls := by
  induction rows generalizing n ls bs with
  | nil => cases h; exact .nil
  | cons r rows ih =>
    have hok := hr r (by simp)
    rw [List.map_cons] at h
    generalize hR : rowText i r = raw at h
    cases h with
    | blank hb _ => rw [← hR] at hb; exact absurd (blank_replicate.mp hb) hok.visible
    | @line _ k content _ ls' _ hb hh hs h1 =>
      have e1 := takeWhile_replicate_append (k := k) hh
      have e2 := takeWhile_replicate_append (k := i * r.1) (hok.head (x := ' ') (by decide))
      rw [← hR, rowText, e2] at e1
      have hk : i * r.1 = k := by simpa using congrArg List.length e1
      subst hk
      have hc := List.append_cancel_left hR
      exact .cons ⟨hc.symm, rfl, fun h => (hs h).2⟩ (ih (fun r hr' => hr r (by simp [hr'])) h1)

/-- Rows without indentation are scanned in the same way whatever the unit and the strictness. -/
theorem scans_flat {i : Nat} (rows : List Row) (hr : ∀ r ∈ rows, RowOk r.2) (h0 : ∀ r ∈ rows, i * r.1 = 0) (n : Nat) :
    ∃ ls, ∀ j strict, ScansTo j strict n (rows.map (rowText i)) ls [] := by
  induction rows generalizing n with
  | nil => exact ⟨[], fun j strict => .nil n⟩
  | cons r rows ih =>
    obtain ⟨ls, h⟩ := ih (fun r hr' => hr r (by simp [hr'])) (fun r hr' => h0 r (by simp [hr'])) (n + 1)
    have hok := hr r (by simp)
    refine ⟨⟨0, r.2, n + 1⟩ :: ls, fun j strict => ?_⟩
    rw [List.map_cons, rowText, h0 r (by simp)]
    have := ScansTo.line (indent := j) (strict := strict) (n := n) (spaces := 0) hok.visible (hok.head (by decide))
      (fun _ => ⟨hok.head (by decide), by simp⟩) (h j strict)
    simpa using this

theorem pointwise_all {α β : Type} {R : α → β → Prop} {P : α → Prop} {Q : β → Prop} {as : List α} {bs : List β}
    (h : Pointwise R as bs) (hs : ∀ a b, a ∈ as → R a b → P a → Q b) (hp : ∀ a ∈ as, P a) : ∀ b ∈ bs, Q b := by
  induction h with
  | nil => simp
  | @cons a b as bs hab _ ih =>
    intro x hx
    rcases List.mem_cons.mp hx with rfl | hx
    · exact hs a x (by simp) hab (hp a (by simp))
    · exact ih (fun a b ha => hs a b (by simp [ha])) (fun a ha => hp a (by simp [ha])) x hx

theorem pointwise_left {α β : Type} {R : α → β → Prop} {P : α → Prop} {as : List α} {bs : List β}
    (h : Pointwise R as bs) (hs : ∀ a b, R a b → P a) : ∀ a ∈ as, P a := by
  induction h with
  | nil => simp
  | @cons a b as bs hab _ ih =>
    intro x hx
    rcases List.mem_cons.mp hx with rfl | hx
    · exact hs x b hab
    · exact ih x hx

/-! ## The rows of a layout -/

section
variable {F : Type} [F64 F]

theorem entryRows_oneLine {fold : Bool} {n : Nat} {taken path : List Str} {fd : Nat} {v : Json F} {l : Layout F}
    (h : ValueLayout fold n taken path fd v l) (hv : OneLine v) (d : Char) (head : Str) (depth inner : Nat) :
    ∀ r ∈ l.entryRows d head depth inner, r.1 = depth := by
  cases h with
  | prim p => simp [Layout.entryRows]
  | inline hp => simp [Layout.entryRows]
  | table ht _ => exact absurd ((oneLine_arr _).mp hv) (table_not_prims ht)
  | list hn _ _ => exact absurd ((oneLine_arr _).mp hv) hn
  | @object _ _ _ es ls he =>
    have : es = [] := by simpa [OneLine] using hv
    subst this
    cases he
    simp [Layout.entryRows, Layout.entriesRows]

omit [F64 F] in
theorem nested_oneLine {ks : List Str} {leaf : Json F} (hk : ks ≠ []) : ¬ OneLine (nested ks leaf) := by
  cases ks with
  | nil => exact absurd rfl hk
  | cons k ks => simp [nested, OneLine]

theorem entriesRows_shallow {fold : Bool} {n : Nat} {siblings taken path : List Str} {fd : Nat} {es : List (Str × Json F)}
    {ls : List (Str × Layout F)} (h : EntriesLayout fold n siblings taken path fd es ls) (hv : ∀ e ∈ es, OneLine e.2) (d : Char)
    (depth : Nat) : ∀ r ∈ Layout.entriesRows d depth ls, r.1 = depth := by
  induction es generalizing ls with
  | nil => cases h; simp [Layout.entriesRows]
  | cons e es ih =>
    cases h with
    | folded _ hf _ _ =>
      obtain ⟨⟨rfl, _⟩, hk, _⟩ := hf
      exact absurd (hv _ List.mem_cons_self) (nested_oneLine hk)
    | plain _ h1 h2 =>
      rw [Layout.entriesRows]
      intro r hr
      rcases List.mem_append.mp hr with hr | hr
      · exact entryRows_oneLine h1 (hv _ List.mem_cons_self) _ _ _ _ r hr
      · exact ih h2 (fun e he => hv e (by simp [he])) r hr

/-- A value without nesting is written without indentation. -/
theorem rows_shallow {fold : Bool} {n : Nat} {v : Json F} {l : Layout F} (h : DocumentLayout fold n v l) (hv : Shallow v) (d : Char) :
    ∀ r ∈ l.documentRows d, r.1 = 0 := by
  unfold DocumentLayout at h
  cases h with
  | prim p => simp [Layout.documentRows]
  | inline hp => simp [Layout.documentRows, Layout.entryRows]
  | table ht _ => exact absurd hv (table_not_prims ht)
  | list hn _ _ => exact absurd hv hn
  | object he => exact entriesRows_shallow he hv d 0

theorem itemRows_depth {fold : Bool} {n : Nat} {v : Json F} {l : Layout F} (h : ItemLayout fold n v l) (d : Char) (depth : Nat) :
    ∃ r ∈ l.itemRows d depth, r.1 = depth := by
  cases h with
  | prim p => exact ⟨_, by rw [Layout.itemRows]; exact List.mem_cons_self, rfl⟩
  | inline hp => exact ⟨_, by rw [Layout.itemRows]; exact List.mem_cons_self, rfl⟩
  | list => exact ⟨_, by rw [Layout.itemRows]; exact List.mem_cons_self, rfl⟩
  | empty => exact ⟨_, by rw [Layout.itemRows]; exact List.mem_cons_self, rfl⟩
  | object h1 _ =>
    cases h1 <;> exact ⟨_, by rw [Layout.itemRows, Layout.entryRows]; exact List.mem_append_left _ List.mem_cons_self, rfl⟩

theorem entryRows_depth (d : Char) (head : Str) (depth inner : Nat) (l : Layout F) : ∃ r ∈ l.entryRows d head depth inner, r.1 = depth := by
  cases l <;> exact ⟨_, by rw [Layout.entryRows]; exact List.mem_cons_self, rfl⟩

/-- Under a key: a value that takes more than a line has a line one level deeper. -/
theorem entryRows_inner {n : Nat} {taken path : List Str} {fd : Nat} {v : Json F} {l : Layout F}
    (h : ValueLayout false n taken path fd v l) (hv : ¬ OneLine v) (d : Char) (head : Str) (depth inner : Nat) :
    ∃ r ∈ l.entryRows d head depth inner, r.1 = inner := by
  cases h with
  | prim p => exact absurd (Or.inl ⟨p, rfl⟩) hv
  | inline hp => exact absurd ((oneLine_arr _).mpr ⟨_, hp⟩) hv
  | @table _ _ _ items cols rows ht hc =>
    obtain ⟨_, ⟨es, rest, rfl, _⟩, _⟩ := ht
    cases hc with
    | cons _ _ => exact ⟨_, by rw [Layout.entryRows]; exact List.mem_cons_of_mem _ List.mem_cons_self, rfl⟩
  | @list _ _ _ items ls hn _ hi =>
    cases hi with
    | nil => exact absurd ⟨[], rfl⟩ hn
    | cons h1 _ =>
      obtain ⟨r, hr, h2⟩ := itemRows_depth h1 d inner
      exact ⟨r, by rw [Layout.entryRows, Layout.itemsRows]; exact List.mem_cons_of_mem _ (List.mem_append_left _ hr), h2⟩
  | @object _ _ _ es ls he =>
    cases he with
    | nil => exact absurd (Or.inr (Or.inr rfl)) hv
    | folded hf => simp at hf
    | @plain _ _ _ _ k v l _ _ _ _ _ =>
      obtain ⟨r, hr, h2⟩ := entryRows_depth d (keyTextOf k) inner (inner + 1) l
      exact ⟨r, by rw [Layout.entryRows, Layout.entriesRows]; exact List.mem_cons_of_mem _ (List.mem_append_left _ hr), h2⟩

theorem entriesRows_inner {n : Nat} {siblings taken path : List Str} {fd : Nat} {es : List (Str × Json F)} {ls : List (Str × Layout F)}
    (h : EntriesLayout false n siblings taken path fd es ls) (hv : ¬ ∀ e ∈ es, OneLine e.2) (d : Char) (depth : Nat) :
    ∃ r ∈ Layout.entriesRows d depth ls, r.1 = depth + 1 := by
  induction es generalizing ls with
  | nil => simp at hv
  | cons e es ih =>
    cases h with
    | folded hf => simp at hf
    | @plain _ _ _ _ k v l _ ls _ h1 h2 =>
      rw [Layout.entriesRows]
      by_cases h3 : OneLine v
      · have : ¬ ∀ e ∈ es, OneLine e.2 := by
          intro h4
          apply hv
          intro e he
          rcases List.mem_cons.mp he with rfl | he
          · exact h3
          · exact h4 e he
        obtain ⟨r, hr, h5⟩ := ih h2 this
        exact ⟨r, List.mem_append_right _ hr, h5⟩
      · obtain ⟨r, hr, h5⟩ := entryRows_inner h1 h3 d (keyTextOf k) depth (depth + 1)
        exact ⟨r, List.mem_append_left _ hr, h5⟩

/-- A value with nesting is written with a line that is indented by one level. -/
theorem rows_nested {n : Nat} {v : Json F} {l : Layout F} (h : DocumentLayout false n v l) (hv : ¬ Shallow v) (d : Char) :
    ∃ r ∈ l.documentRows d, r.1 = 1 := by
  unfold DocumentLayout at h
  match v, l, h with
  | .obj es, _, .object he => exact entriesRows_inner he hv d 0
  | .prim p, _, _ => simp [Shallow] at hv
  | .arr items, l, h =>
    have h1 : ¬ OneLine (.arr items) := fun h => hv ((oneLine_arr _).mp h)
    obtain ⟨r, hr, h2⟩ := entryRows_inner h h1 d [] 0 1
    refine ⟨r, ?_, h2⟩
    cases h <;> exact hr

/-! ## No hyphens -/

omit [F64 F] in
theorem keyTextOf_head (k rest : Str) : (keyTextOf k ++ rest).head? ≠ some '-' := by
  unfold keyTextOf
  split
  · rename_i h
    unfold bareKey at h
    cases k with
    | nil => simp at h
    | cons c t =>
      simp only [List.cons_append, List.head?_cons, ne_eq, Option.some.injEq]
      rintro rfl
      simp only [Bool.and_eq_true] at h
      exact absurd h.1 (by decide)
  · simp [quotedText]

mutual
theorem entryRows_hyphen {n : Nat} {taken path : List Str} {fd : Nat} (v : Json F) {l : Layout F}
    (h : ValueLayout false n taken path fd v l) (hv : PrimArrays v) (d : Char) (k : Str) (depth inner : Nat) :
    ∀ r ∈ l.entryRows d (keyTextOf k) depth inner, r.2.head? ≠ some '-' := by
  match v, l, h with
  | .prim p, _, .prim _ => simp only [Layout.entryRows, List.mem_singleton]; rintro r rfl; exact keyTextOf_head _ _
  | .arr items, _, .inline _ => simp only [Layout.entryRows, List.mem_singleton]; rintro r rfl; exact keyTextOf_head _ _
  | .arr items, _, .table ht _ => rw [PrimArrays] at hv; exact absurd hv (table_not_prims ht)
  | .arr items, _, .list hn _ _ => rw [PrimArrays] at hv; exact absurd hv hn
  | .obj es, _, .object he =>
    rw [Layout.entryRows]
    rw [PrimArrays] at hv
    intro r hr
    rcases List.mem_cons.mp hr with rfl | hr
    · exact keyTextOf_head _ _
    · exact entriesRows_hyphen es he hv d inner r hr
theorem entriesRows_hyphen {n : Nat} {siblings taken path : List Str} {fd : Nat} (es : List (Str × Json F)) {ls : List (Str × Layout F)}
    (h : EntriesLayout false n siblings taken path fd es ls) (hv : PrimArraysEntries es) (d : Char) (depth : Nat) :
    ∀ r ∈ Layout.entriesRows d depth ls, r.2.head? ≠ some '-' := by
  match es, ls, h with
  | [], _, .nil => simp [Layout.entriesRows]
  | (k, v) :: es, (_, l) :: ls, .plain _ h1 h2 =>
    rw [PrimArraysEntries] at hv
    rw [Layout.entriesRows]
    intro r hr
    rcases List.mem_append.mp hr with hr | hr
    · exact entryRows_hyphen v h1 hv.1 d k depth (depth + 1) r hr
    · exact entriesRows_hyphen es h2 hv.2 d depth r hr
end

/-! ## Written texts -/

section
variable [LawfulF64 F]

theorem written_rows {opts : EncOpts} (hd : GoodDelim opts.delim) (v : Json F) :
    ∃ l, DocumentLayout opts.fold opts.flattenDepth (normalize v) l ∧
      encodeLines opts v = (l.documentRows opts.delim).map (rowText opts.indent) ∧ ∀ r ∈ l.documentRows opts.delim, RowOk r.2 := by
  obtain ⟨l, h1, h2⟩ := document_layout opts (normalize v)
  refine ⟨l, h1, ?_, ?_⟩
  · rw [← h2, encodeLines, encodeJsonValue, rowsIn, List.map_map]; rfl
  · intro r hr
    rw [← h2] at hr
    obtain ⟨o, ho, rfl⟩ := List.mem_map.mp hr
    exact lineOk_rowOk (linesIn_value hd _ o ho).1

/-- The text and the lines. -/
theorem textMeans_encode {opts : EncOpts} (hd : GoodDelim opts.delim) (v : Json F) (j : Nat) (strict : Bool) (t : ETree F) :
    TextMeans j strict (splitOn '\n' (encode opts v)) t ↔ TextMeans j strict (encodeLines opts v) t := by
  rw [splitOn_encode hd]
  split
  · rename_i h
    rw [h]
    constructor
    · rintro ⟨ls, bs, r, h1, h2⟩
      generalize hR : ([] : Str) = raw at h1
      cases h1 with
      | blank _ h1 => cases h1; cases h2; exact ⟨[], [], [], .nil _, .empty⟩
      | line hb =>
        have hnil : BlankLine [] := by decide
        rw [hR] at hnil
        exact absurd (blank_replicate.mp hnil) hb
    · rintro ⟨ls, bs, r, h1, h2⟩
      cases h1
      cases h2
      exact ⟨[], [1], [], .blank (by decide) (.nil _), .empty⟩
  · rfl

end

end

end Toon
