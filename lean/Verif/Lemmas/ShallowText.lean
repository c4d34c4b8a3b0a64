import Verif.Lemmas.Shallow
import Verif.Lemmas.Reindent

/-! Documents whose lines are not indented, or indented by more than one level at a time. -/

namespace Toon

section
variable {F : Type} [F64 F]

omit [F64 F] in
theorem json_prims (ps : List (Prim F)) : ETree.jsonItems (ps.map .prim) = ps.map .prim := by
  induction ps with
  | nil => rfl
  | cons p ps ih => simp [ETree.jsonItems, ETree.json, ih]

/-- An array whose next line is not one level deeper has only primitives and takes no line. -/
theorem array_flat {strict : Bool} {blanks : List Nat} {depth : Nat} {h : Header} {rest rest' : List Line} {t : ETree F}
    (ha : ArrayMeans strict blanks depth h rest t rest')
    (hn : ∀ line more, rest = line :: more → line.depth ≠ depth + 1) :
    (∃ ps : List (Prim F), t.json = .arr (ps.map .prim)) ∧ rest' = rest := by
  cases ha with
  | @inline _ _ _ text cells prims => exact ⟨⟨prims, by rw [ETree.json, json_prims]⟩, rfl⟩
  | @table _ _ body _ fields ts _ _ _ hd hp _ _ hs =>
    cases body with
    | nil => cases hp; exact ⟨⟨[], rfl⟩, rfl⟩
    | cons line body => exact absurd (hd line (by simp)) (hn _ _ rfl)
  | @list _ _ body _ ts _ _ him hs =>
    generalize hR : body ++ rest' = R at him
    generalize hL : h.length = n at him
    cases him with
    | stop _ => exact ⟨⟨[], rfl⟩, rfl⟩
    | item hd _ _ => exact absurd hd (hn _ _ hR)

/-! ## No indentation at all -/

theorem entry_flat {strict : Bool} {blanks : List Nat} {c : Str} {rest r : List Line} {e : Str × Bool × ETree F}
    (hf : ∀ l ∈ rest, l.depth = 0) (h : EntryMeans strict blanks 0 c rest e r) : OneLine e.2.2.json ∧ r = rest := by
  cases h with
  | array _ _ ha =>
    obtain ⟨⟨ps, h1⟩, h2⟩ := array_flat ha (by rintro line more rfl; rw [hf line (by simp)]; simp)
    exact ⟨Or.inr (Or.inl ⟨ps, h1⟩), h2⟩
  | @prim _ _ _ _ _ _ p => exact ⟨Or.inl ⟨p, rfl⟩, rfl⟩
  | empty => exact ⟨Or.inr (Or.inr rfl), rfl⟩
  | object _ _ _ hlt _ => exact absurd hlt (by rw [hf _ (by simp)]; simp)

theorem block_flat {strict : Bool} {blanks : List Nat} {inList : Bool} {depth : Nat} {rest r : List Line} {es : List (Str × Bool × ETree F)}
    (hf : ∀ l ∈ rest, l.depth = 0) (h : BlockMeans strict blanks inList depth rest es r) : ∀ e ∈ es, OneLine e.2.2.json := by
  induction rest generalizing es with
  | nil => cases h; simp
  | cons l rest ih =>
    cases h with
    | stop _ => simp
    | entry hd _ he hb =>
      rw [hf l (by simp)] at hd
      subst hd
      obtain ⟨h1, rfl⟩ := entry_flat (fun l hl => hf l (by simp [hl])) he
      intro e' he'
      rcases List.mem_cons.mp he' with rfl | he'
      · exact h1
      · exact ih (fun l hl => hf l (by simp [hl])) hb e' he'

omit [F64 F] in
theorem jsonEntries_all {P : Json F → Prop} {es : List (Str × Bool × ETree F)} (h : ∀ e ∈ es, P e.2.2.json) :
    ∀ e ∈ ETree.jsonEntries es, P e.2 := by
  induction es with
  | nil => simp [ETree.jsonEntries]
  | cons e es ih =>
    obtain ⟨k, q, t⟩ := e
    intro e' he'
    rcases List.mem_cons.mp he' with rfl | he'
    · exact h (k, q, t) (by simp)
    · exact ih (fun e he => h e (by simp [he])) e' he'

omit [F64 F] in
theorem jsonEntries_all' {P : Json F → Prop} {es : List (Str × Bool × ETree F)} (h : ∀ e ∈ ETree.jsonEntries es, P e.2) :
    ∀ e ∈ es, P e.2.2.json := by
  induction es with
  | nil => simp
  | cons e es ih =>
    obtain ⟨k, q, t⟩ := e
    intro e' he'
    rcases List.mem_cons.mp he' with rfl | he'
    · exact h (k, t.json) (by simp [ETree.jsonEntries])
    · exact ih (fun e he => h e (by simp [ETree.jsonEntries, he])) e' he'

/-- A document without indented lines has no nesting. -/
theorem document_flat {strict : Bool} {blanks : List Nat} {lines r : List Line} {t : ETree F} (hf : ∀ l ∈ lines, l.depth = 0)
    (h : DocumentMeans strict blanks lines t r) : Shallow t.json := by
  cases h with
  | empty => simp [ETree.json, ETree.jsonEntries, Shallow]
  | @array line rest _ _ _ _ _ _ ha =>
    obtain ⟨⟨ps, h1⟩, _⟩ := array_flat ha (by rintro l more rfl; rw [hf l (by simp)]; simp)
    rw [h1]; exact ⟨ps, rfl⟩
  | prim => simp [ETree.json, Shallow]
  | @object line rest rest₁ _ e es _ he hb =>
    have hf' : ∀ l ∈ rest, l.depth = 0 := fun l hl => hf l (by simp [hl])
    obtain ⟨h1, rfl⟩ := entry_flat hf' he
    have h2 := block_flat hf' hb
    rw [ETree.json]
    refine jsonEntries_all ?_
    intro e' he'
    rcases List.mem_cons.mp he' with rfl | he'
    · exact h1
    · exact h2 e' he'

/-! ## Steps of more than one level -/

section
variable {blanks : List Nat} {m : Nat} (hm : 2 ≤ m)

include hm in
theorem entry_sparse {n : Nat}
    (ihB : ∀ {d : Nat} {rest r : List Line} {es : List (Str × Bool × ETree F)}, rest.length ≤ n →
      (∀ l ∈ rest, ∃ d, l.depth = m * d) → BlockMeans true blanks false (m * d) rest es r →
      (∀ e ∈ es, PrimArrays e.2.2.json) ∧ r.length ≤ rest.length ∧ ∀ l ∈ r, l ∈ rest)
    {d : Nat} {c : Str} {rest r : List Line} {e : Str × Bool × ETree F} (hn : rest.length ≤ n)
    (hd : ∀ l ∈ rest, ∃ d, l.depth = m * d) (h : EntryMeans true blanks (m * d) c rest e r) :
    PrimArrays e.2.2.json ∧ r.length ≤ rest.length ∧ ∀ l ∈ r, l ∈ rest := by
  cases h with
  | array _ _ ha =>
    obtain ⟨⟨ps, h1⟩, rfl⟩ := array_flat ha (by
      rintro line more rfl
      obtain ⟨d', h⟩ := hd line (by simp)
      rw [h]; exact mul_succ_ne hm)
    refine ⟨?_, Nat.le_refl _, fun _ h => h⟩
    simp only [h1]
    rw [PrimArrays]; exact ⟨ps, rfl⟩
  | prim => exact ⟨by simp [ETree.json, PrimArrays], Nat.le_refl _, fun _ h => h⟩
  | empty => exact ⟨by simp [ETree.json, ETree.jsonEntries, PrimArrays, PrimArraysEntries], Nat.le_refl _, fun _ h => h⟩
  | @object _ _ _ _ _ line rest _ es _ _ _ _ hbl =>
    obtain ⟨d', h⟩ := hd line (by simp)
    rw [h] at hbl
    obtain ⟨h1, h2, h3⟩ := ihB hn hd hbl
    refine ⟨?_, h2, h3⟩
    simp only [ETree.json]
    rw [primArrays_obj]
    exact jsonEntries_all h1

theorem block_sparse {n : Nat}
    (ihE : ∀ {d : Nat} {c : Str} {rest r : List Line} {e : Str × Bool × ETree F}, rest.length + 1 ≤ n →
      (∀ l ∈ rest, ∃ d, l.depth = m * d) → EntryMeans true blanks (m * d) c rest e r →
      PrimArrays e.2.2.json ∧ r.length ≤ rest.length ∧ ∀ l ∈ r, l ∈ rest)
    (ihB : ∀ {d : Nat} {rest r : List Line} {es : List (Str × Bool × ETree F)}, rest.length + 1 ≤ n →
      (∀ l ∈ rest, ∃ d, l.depth = m * d) → BlockMeans true blanks false (m * d) rest es r →
      (∀ e ∈ es, PrimArrays e.2.2.json) ∧ r.length ≤ rest.length ∧ ∀ l ∈ r, l ∈ rest)
    {d : Nat} {rest r : List Line} {es : List (Str × Bool × ETree F)} (hn : rest.length ≤ n)
    (hd : ∀ l ∈ rest, ∃ d, l.depth = m * d) (h : BlockMeans true blanks false (m * d) rest es r) :
    (∀ e ∈ es, PrimArrays e.2.2.json) ∧ r.length ≤ rest.length ∧ ∀ l ∈ r, l ∈ rest := by
  cases h with
  | stop _ => exact ⟨by simp, Nat.le_refl _, fun _ h => h⟩
  | @entry _ _ line rest rest₁ _ e es hdl _ he hb =>
    simp only [List.length_cons] at hn ⊢
    obtain ⟨h1, h2, h3⟩ := ihE hn (fun l hl => hd l (by simp [hl])) he
    obtain ⟨h4, h5, h6⟩ := ihB (by omega) (fun l hl => hd l (by simp [h3 l hl])) hb
    refine ⟨?_, by omega, fun l hl => by simp [h3 l (h6 l hl)]⟩
    intro e' he'
    rcases List.mem_cons.mp he' with rfl | he'
    · exact h1
    · exact h4 e' he'

include hm

theorem sparse_claims : ∀ n,
    (∀ {d : Nat} {rest r : List Line} {es : List (Str × Bool × ETree F)}, rest.length ≤ n →
      (∀ l ∈ rest, ∃ d, l.depth = m * d) → BlockMeans true blanks false (m * d) rest es r →
      (∀ e ∈ es, PrimArrays e.2.2.json) ∧ r.length ≤ rest.length ∧ ∀ l ∈ r, l ∈ rest) ∧
    (∀ {d : Nat} {c : Str} {rest r : List Line} {e : Str × Bool × ETree F}, rest.length ≤ n →
      (∀ l ∈ rest, ∃ d, l.depth = m * d) → EntryMeans true blanks (m * d) c rest e r →
      PrimArrays e.2.2.json ∧ r.length ≤ rest.length ∧ ∀ l ∈ r, l ∈ rest) := by
  intro n
  induction n with
  | zero =>
    have hB := @block_sparse F _ blanks m 0 (fun h => absurd h (by omega)) (fun h => absurd h (by omega))
    exact ⟨hB, entry_sparse hm hB⟩
  | succ n ih =>
    have hB := @block_sparse F _ blanks m (n + 1) (fun h => ih.2 (by omega)) (fun h => ih.1 (by omega))
    exact ⟨hB, entry_sparse hm hB⟩

/-- Strict: a document whose lines are all at multiples of two or more levels has only arrays of primitives. -/
theorem document_sparse {lines r : List Line} {t : ETree F} (hd : ∀ l ∈ lines, ∃ d, l.depth = m * d)
    (h : DocumentMeans true blanks lines t r) : PrimArrays t.json := by
  cases h with
  | empty => simp [ETree.json, ETree.jsonEntries, PrimArrays, PrimArraysEntries]
  | @array line rest _ _ _ _ _ _ ha =>
    obtain ⟨⟨ps, h1⟩, _⟩ := array_flat ha (by
      rintro l more rfl
      obtain ⟨d', h⟩ := hd l (by simp)
      rw [h]; exact mul_succ_ne (b := 0) hm)
    rw [h1, PrimArrays]; exact ⟨ps, rfl⟩
  | prim => simp [ETree.json, PrimArrays]
  | @object line rest rest₁ _ e es _ he hb =>
    have hd' : ∀ l ∈ rest, ∃ d, l.depth = m * d := fun l hl => hd l (by simp [hl])
    obtain ⟨h1, h2, h3⟩ := (sparse_claims hm rest.length).2 (d := 0) (Nat.le_refl _) hd' he
    obtain ⟨h4, _⟩ := (sparse_claims hm rest.length).1 (d := 0) h2 (fun l hl => hd' l (h3 l hl)) hb
    rw [ETree.json, primArrays_obj]
    refine jsonEntries_all ?_
    intro e' he'
    rcases List.mem_cons.mp he' with rfl | he'
    · exact h1
    · exact h4 e' he'

end

/-! ## Scaling a document -/

/-- All depths multiplied. -/
def scaled (m : Nat) (ls : List Line) : List Line := ls.map fun l => { l with depth := m * l.depth }

omit [F64 F] in
theorem scaled_next {m d : Nat} (hm : 2 ≤ m) {p : Str → Prop} {rest : List Line} : ¬ NextIs (m * d + 1) p (scaled m rest) := by
  rintro ⟨line, more, h1, h2, _⟩
  cases rest with
  | nil => simp [scaled] at h1
  | cons l rest =>
    simp only [scaled, List.map_cons, List.cons.injEq] at h1
    rw [← h1.1] at h2
    exact mul_succ_ne hm h2

theorem items_hyphen {strict : Bool} {blanks : List Nat} {n depth : Nat} {rest r : List Line} {ts : List (ETree F)}
    (h : ItemsMean strict blanks n depth rest ts r) (hn : ∀ l ∈ rest, l.content.head? ≠ some '-') : ts = [] ∧ r = rest := by
  cases h with
  | stop _ => exact ⟨rfl, rfl⟩
  | @item _ _ line _ _ _ _ _ _ hi _ =>
    exfalso
    refine hn line (List.mem_cons_self) ?_
    generalize line.content = c at hi
    cases hi <;> rfl

/-- An array of primitives, not written as a list. -/
theorem array_scaled {blanks : List Nat} {m : Nat} (hm : 2 ≤ m) {d : Nat} {h : Header} {rest r : List Line} {t : ETree F}
    (hy : ∀ l ∈ rest, l.content.head? ≠ some '-') (hp : PrimArrays t.json) (ha : ArrayMeans true blanks d h rest t r) :
    ArrayMeans true blanks (m * d) h (scaled m rest) t (scaled m r) ∧ r = rest := by
  cases ha with
  | inline h1 h2 h3 h4 => exact ⟨.inline h1 h2 h3 h4, rfl⟩
  | @table _ _ body _ fields ts h1 h2 h3 hd hpw hle hlt hs =>
    have hb : body = [] := by
      cases hpw with
      | nil => rfl
      | cons hr _ =>
        exfalso
        obtain ⟨_, _, _, _, _, rfl⟩ := hr
        simp only [ETree.json, ETree.jsonItems, PrimArrays] at hp
        rw [arePrims_all] at hp
        obtain ⟨p, hp⟩ := hp _ (List.mem_cons_self)
        simp at hp
    subst hb
    cases hpw
    refine ⟨.table (body := []) h1 h2 h3 (by simp) .nil (by simp) (fun _ => scaled_next hm) (fun _ => ⟨(hs rfl).1, ?_, scaled_next hm⟩), rfl⟩
    intro f l hf; simp at hf
  | @list _ _ body _ ts h1 h2 him hs =>
    obtain ⟨h3, h4, h5⟩ := hs rfl
    generalize hR : body ++ r = R at him
    obtain ⟨rfl, h6⟩ := items_hyphen him (by rw [← hR]; exact hy)
    have hb : body = [] := by
      have := congrArg List.length (h6.trans hR.symm)
      simp only [List.length_append] at this
      exact List.length_eq_zero_iff.mp (by omega)
    subst hb
    have hR' : r = R := by simpa using hR
    subst hR'
    refine ⟨.list (body := []) h1 h2 (.stop (Or.inr (scaled_next hm))) (fun _ => ⟨h3, ?_, scaled_next hm⟩), rfl⟩
    intro f l hf; simp at hf

section
variable {blanks : List Nat} {m : Nat} (hm : 2 ≤ m)

include hm in
theorem entry_scaled {n : Nat}
    (ihB : ∀ {d : Nat} {rest r : List Line} {es : List (Str × Bool × ETree F)}, rest.length ≤ n →
      (∀ l ∈ rest, l.content.head? ≠ some '-') → (∀ e ∈ es, PrimArrays e.2.2.json) → BlockMeans true blanks false d rest es r →
      BlockMeans true blanks false (m * d) (scaled m rest) es (scaled m r) ∧ r.length ≤ rest.length ∧ ∀ l ∈ r, l ∈ rest)
    {d : Nat} {c : Str} {rest r : List Line} {e : Str × Bool × ETree F} (hn : rest.length ≤ n)
    (hy : ∀ l ∈ rest, l.content.head? ≠ some '-') (hp : PrimArrays e.2.2.json) (h : EntryMeans true blanks d c rest e r) :
    EntryMeans true blanks (m * d) c (scaled m rest) e (scaled m r) ∧ r.length ≤ rest.length ∧ ∀ l ∈ r, l ∈ rest := by
  cases h with
  | array h1 h2 ha =>
    obtain ⟨h3, rfl⟩ := array_scaled hm hy hp ha
    exact ⟨.array h1 h2 h3, Nat.le_refl _, fun _ h => h⟩
  | prim h1 h2 h3 h4 => exact ⟨.prim h1 h2 h3 h4, Nat.le_refl _, fun _ h => h⟩
  | empty h1 h2 h3 h4 =>
    refine ⟨.empty h1 h2 h3 ?_, Nat.le_refl _, fun _ h => h⟩
    intro line more hl
    cases rest with
    | nil => simp [scaled] at hl
    | cons l rest =>
      simp only [scaled, List.map_cons, List.cons.injEq] at hl
      rw [← hl.1]
      exact Nat.mul_le_mul_left _ (h4 l rest rfl)
  | @object _ _ _ _ _ line rest _ es h1 h2 h3 hlt hbl =>
    simp only [ETree.json] at hp
    rw [primArrays_obj] at hp
    obtain ⟨h4, h5, h6⟩ := ihB hn hy (jsonEntries_all' hp) hbl
    exact ⟨.object (line := { line with depth := m * line.depth }) h1 h2 h3 (Nat.mul_lt_mul_of_pos_left hlt (by omega)) h4, h5, h6⟩

include hm in
theorem block_scaled {n : Nat}
    (ihE : ∀ {d : Nat} {c : Str} {rest r : List Line} {e : Str × Bool × ETree F}, rest.length + 1 ≤ n →
      (∀ l ∈ rest, l.content.head? ≠ some '-') → PrimArrays e.2.2.json → EntryMeans true blanks d c rest e r →
      EntryMeans true blanks (m * d) c (scaled m rest) e (scaled m r) ∧ r.length ≤ rest.length ∧ ∀ l ∈ r, l ∈ rest)
    (ihB : ∀ {d : Nat} {rest r : List Line} {es : List (Str × Bool × ETree F)}, rest.length + 1 ≤ n →
      (∀ l ∈ rest, l.content.head? ≠ some '-') → (∀ e ∈ es, PrimArrays e.2.2.json) → BlockMeans true blanks false d rest es r →
      BlockMeans true blanks false (m * d) (scaled m rest) es (scaled m r) ∧ r.length ≤ rest.length ∧ ∀ l ∈ r, l ∈ rest)
    {d : Nat} {rest r : List Line} {es : List (Str × Bool × ETree F)} (hn : rest.length ≤ n)
    (hy : ∀ l ∈ rest, l.content.head? ≠ some '-') (hp : ∀ e ∈ es, PrimArrays e.2.2.json)
    (h : BlockMeans true blanks false d rest es r) :
    BlockMeans true blanks false (m * d) (scaled m rest) es (scaled m r) ∧ r.length ≤ rest.length ∧ ∀ l ∈ r, l ∈ rest := by
  cases h with
  | stop hs =>
    refine ⟨.stop ?_, Nat.le_refl _, fun _ h => h⟩
    rintro ⟨line, more, h1, h2, h3⟩
    cases rest with
    | nil => simp [scaled] at h1
    | cons l rest =>
      simp only [scaled, List.map_cons, List.cons.injEq] at h1
      rw [← h1.1] at h2
      exact hs ⟨l, rest, rfl, Nat.eq_of_mul_eq_mul_left (by omega) h2, by simp⟩
  | @entry _ _ line rest rest₁ _ e es hdl hh he hb =>
    simp only [List.length_cons] at hn ⊢
    obtain ⟨h1, h2, h3⟩ := ihE hn (fun l hl => hy l (by simp [hl])) (hp e (by simp)) he
    obtain ⟨h4, h5, h6⟩ := ihB (by omega) (fun l hl => hy l (by simp [h3 l hl])) (fun e he => hp e (by simp [he])) hb
    refine ⟨.entry (line := { line with depth := m * line.depth }) (by simp [hdl]) hh h1 h4, by omega, fun l hl => by simp [h3 l (h6 l hl)]⟩

include hm

theorem scaled_claims : ∀ n,
    (∀ {d : Nat} {rest r : List Line} {es : List (Str × Bool × ETree F)}, rest.length ≤ n →
      (∀ l ∈ rest, l.content.head? ≠ some '-') → (∀ e ∈ es, PrimArrays e.2.2.json) → BlockMeans true blanks false d rest es r →
      BlockMeans true blanks false (m * d) (scaled m rest) es (scaled m r) ∧ r.length ≤ rest.length ∧ ∀ l ∈ r, l ∈ rest) ∧
    (∀ {d : Nat} {c : Str} {rest r : List Line} {e : Str × Bool × ETree F}, rest.length ≤ n →
      (∀ l ∈ rest, l.content.head? ≠ some '-') → PrimArrays e.2.2.json → EntryMeans true blanks d c rest e r →
      EntryMeans true blanks (m * d) c (scaled m rest) e (scaled m r) ∧ r.length ≤ rest.length ∧ ∀ l ∈ r, l ∈ rest) := by
  intro n
  induction n with
  | zero =>
    have hB := @block_scaled F _ blanks m hm 0 (fun h => absurd h (by omega)) (fun h => absurd h (by omega))
    exact ⟨hB, entry_scaled hm hB⟩
  | succ n ih =>
    have hB := @block_scaled F _ blanks m hm (n + 1) (fun h => ih.2 (by omega)) (fun h => ih.1 (by omega))
    exact ⟨hB, entry_scaled hm hB⟩

/-- Strict: a document with arrays of primitives only, none written as a list, means the same with all depths multiplied. -/
theorem document_scaled {lines r : List Line} {t : ETree F} (hy : ∀ l ∈ lines, l.content.head? ≠ some '-')
    (hp : PrimArrays t.json) (h : DocumentMeans true blanks lines t r) : ∃ r', DocumentMeans true blanks (scaled m lines) t r' := by
  cases h with
  | empty => exact ⟨[], .empty⟩
  | @array line rest _ _ _ h1 h2 h3 ha =>
    obtain ⟨h4, rfl⟩ := array_scaled hm (fun l hl => hy l (by simp [hl])) hp ha
    exact ⟨_, .array (line := { line with depth := m * line.depth }) h1 h2 h3 h4⟩
  | @prim line p h1 h2 => exact ⟨_, .prim (line := { line with depth := m * line.depth }) h1 h2⟩
  | @object line rest rest₁ _ e es h1 he hb =>
    have hy' : ∀ l ∈ rest, l.content.head? ≠ some '-' := fun l hl => hy l (by simp [hl])
    rw [ETree.json, primArrays_obj] at hp
    have hp' := jsonEntries_all' hp
    obtain ⟨h2, h3, h4⟩ := (scaled_claims hm rest.length).2 (Nat.le_refl _) hy' (hp' e (by simp)) he
    obtain ⟨h5, _⟩ := (scaled_claims hm rest.length).1 h3 (fun l hl => hy' l (h4 l hl)) (fun e he => hp' e (by simp [he])) hb
    exact ⟨_, .object (line := { line with depth := m * line.depth }) h1 h2 h5⟩

omit [F64 F] in
/-- Reading with a unit that is a part of the other one. -/
theorem scans_scaled {j : Nat} (hj : 0 < j) {n : Nat} {source : List Str} {ls : List Line} {bs : List Nat}
    (h : ScansTo (j * m) true n source ls bs) : ScansTo j true n source (scaled m ls) bs := by
  induction h with
  | nil => exact .nil _
  | blank hb _ ih => exact .blank hb ih
  | @line n k content rest ls bs hb hh hs _ ih =>
    obtain ⟨h1, h2⟩ := hs rfl
    obtain ⟨d, rfl⟩ := Nat.dvd_of_mod_eq_zero h2
    have e1 : j * m * d / (j * m) = d := Nat.mul_div_cancel_left _ (Nat.mul_pos hj (by omega))
    have e2 : j * m * d / j = m * d := by rw [Nat.mul_assoc, Nat.mul_div_cancel_left _ hj]
    have := ScansTo.line (indent := j) (strict := true) (n := n) (spaces := j * m * d) hb hh (fun _ => ⟨h1, by rw [Nat.mul_assoc, Nat.mul_mod_right]⟩) ih
    rw [e2] at this
    simpa [scaled, e1] using this

end

end

end Toon
