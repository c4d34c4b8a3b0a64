import Verif.Lemmas.Reindent
import Verif.Spec.Cut

/-! Strict reading of a text and of its first lines: the tree of the first lines is the tree of the text, cut. -/

namespace Toon

section
variable {F : Type} [F64 F]

/-- The outcome of reading some lines (`x`, with `r` left) and of reading the same lines followed by `more` (`x'`, with
`r'` left): the same, or all the lines are used up and `x` is a cut of `x'`. -/
def Continues {α : Type} (C : α → α → Prop) (more : List Line) (len : Nat) (x : α) (r : List Line) (x' : α) (r' : List Line) : Prop :=
  (x' = x ∧ r' = r ++ more ∧ r.length ≤ len) ∨ (r = [] ∧ C x' x)

def CutEntry (e' e : Str × Bool × ETree F) : Prop := e'.1 = e.1 ∧ e'.2.1 = e.2.1 ∧ Cut e'.2.2 e.2.2

def CutEntries (es' es : List (Str × Bool × ETree F)) : Prop := Cut (.obj es') (.obj es)

def CutItems (ts' ts : List (ETree F)) : Prop := ∃ xs t' t, ts' = xs ++ [t'] ∧ ts = xs ++ [t] ∧ Cut t' t

section
variable (bs bs' : List Nat) (more : List Line) (n : Nat)

def EntryClaim : Prop := ∀ {d : Nat} {c : Str} {rest r r' : List Line} {e e' : Str × Bool × ETree F}, rest.length ≤ n →
  EntryMeans true bs d c rest e r → EntryMeans true bs' d c (rest ++ more) e' r' →
  Continues CutEntry more rest.length e r e' r'

def BlockClaim : Prop := ∀ {i : Bool} {d : Nat} {rest r r' : List Line} {es es' : List (Str × Bool × ETree F)}, rest.length ≤ n →
  BlockMeans true bs i d rest es r → BlockMeans true bs' i d (rest ++ more) es' r' →
  Continues CutEntries more rest.length es r es' r'

def ArrayClaim : Prop := ∀ {d : Nat} {h : Header} {rest r r' : List Line} {t t' : ETree F}, h.delim ≠ '"' → rest.length ≤ n →
  ArrayMeans true bs d h rest t r → ArrayMeans true bs' d h (rest ++ more) t' r' →
  Continues Cut more rest.length t r t' r'

def ItemsClaim : Prop := ∀ {m d : Nat} {rest r r' : List Line} {ts ts' : List (ETree F)}, rest.length ≤ n →
  ItemsMean true bs m d rest ts r → ts.length = m → ItemsMean true bs' m d (rest ++ more) ts' r' → ts'.length = m →
  Continues CutItems more rest.length ts r ts' r'

def ItemClaim : Prop := ∀ {d : Nat} {c : Str} {rest r r' : List Line} {t t' : ETree F}, rest.length ≤ n →
  ItemMeans' true bs d c rest t r → ItemMeans' true bs' d c (rest ++ more) t' r' →
  Continues Cut more rest.length t r t' r'

end

section
variable {bs bs' : List Nat} {more : List Line} {n : Nat}

theorem cutEntry_refl (e : Str × Bool × ETree F) : CutEntry e e := ⟨rfl, rfl, .whole _⟩

/-- A line of an object and the lines after it. -/
theorem continues_cons {e e' : Str × Bool × ETree F} {es es' : List (Str × Bool × ETree F)} {i : Bool} {d len : Nat}
    {r₁ r₁' r₂ r₂' : List Line} (h1 : Continues CutEntry more len e r₁ e' r₁') (hn : r₁.length ≤ len → r₁.length ≤ n)
    (ihB : BlockClaim (F := F) bs bs' more n)
    (hb : BlockMeans true bs i d r₁ es r₂) (hb' : BlockMeans true bs' i d r₁' es' r₂') :
    Continues CutEntries more len (e :: es) r₂ (e' :: es') r₂' := by
  rcases h1 with ⟨rfl, rfl, h2⟩ | ⟨rfl, h2⟩
  · rcases ihB (hn h2) hb hb' with ⟨rfl, rfl, h3⟩ | ⟨rfl, h3⟩
    · exact .inl ⟨rfl, rfl, by omega⟩
    · refine .inr ⟨rfl, ?_⟩
      unfold CutEntries at h3 ⊢
      generalize hx : ETree.obj es' = x at h3
      generalize hy : ETree.obj es = y at h3
      cases h3 with
      | whole t =>
        rw [← hy] at hx
        simp only [ETree.obj.injEq] at hx
        rw [hx]; exact .whole _
      | entries es₁ more₁ =>
        simp only [ETree.obj.injEq] at hx hy
        subst hx hy
        exact .entries (e' :: es) more₁
      | entry es₁ more₁ k q hc =>
        simp only [ETree.obj.injEq] at hx hy
        subst hx hy
        exact .entry (e' :: es₁) more₁ k q hc
      | element => simp at hx
  · cases hb with
    | stop _ =>
      refine .inr ⟨rfl, ?_⟩
      obtain ⟨k', q', t'⟩ := e'
      obtain ⟨k, q, t⟩ := e
      obtain ⟨h3, h4, h5⟩ := h2
      simp only at h3 h4 h5
      subst h3 h4
      exact .entry [] es' k' q' h5

theorem block_claim (ihE : ∀ m, m < n → EntryClaim (F := F) bs bs' more m) (ihB : ∀ m, m < n → BlockClaim (F := F) bs bs' more m) :
    BlockClaim (F := F) bs bs' more n := by
  intro i d rest r r' es es' hn hb hb'
  cases rest with
  | nil =>
    cases hb with
    | stop _ => exact .inr ⟨rfl, Cut.entries [] es'⟩
  | cons l ls =>
    rw [List.cons_append] at hb'
    simp only [List.length_cons] at hn
    cases hb with
    | stop hs =>
      cases hb' with
      | stop _ => exact .inl ⟨rfl, rfl, Nat.le_refl _⟩
      | entry hd hh => exact absurd ⟨l, ls, rfl, hd, hh⟩ hs
    | entry hd hh he hb =>
      cases hb' with
      | stop hs => exact absurd ⟨l, ls ++ more, rfl, hd, hh⟩ hs
      | entry _ _ he' hb' =>
        have h1 := ihE ls.length (by omega) (Nat.le_refl _) he he'
        have h2 := continues_cons h1 id (ihB ls.length (by omega)) hb hb'
        rcases h2 with ⟨h3, h4, h5⟩ | h2
        · exact .inl ⟨h3, h4, by simp only [List.length_cons]; omega⟩
        · exact .inr h2

theorem items_claim (ihI : ∀ m, m < n → ItemClaim (F := F) bs bs' more m) (ihIs : ∀ m, m < n → ItemsClaim (F := F) bs bs' more m) :
    ItemsClaim (F := F) bs bs' more n := by
  intro m d rest r r' ts ts' hn hi hl hi' hl'
  cases hi with
  | stop _ =>
    simp only [List.length_nil] at hl
    subst hl
    have : ts' = [] := List.length_eq_zero_iff.mp hl'
    subst this
    cases hi' with
    | stop _ => exact .inl ⟨rfl, rfl, Nat.le_refl _⟩
  | @item m _ line rest rest₁ _ t ts hd hit hi =>
    rw [List.cons_append] at hi'
    simp only [List.length_cons] at hn hl
    cases hi' with
    | stop _ => simp at hl'
    | @item _ _ _ _ rest₁' _ t' ts' _ hit' hi' =>
      simp only [List.length_cons] at hl'
      rcases ihI rest.length (by omega) (Nat.le_refl _) hit hit' with ⟨rfl, rfl, h2⟩ | ⟨rfl, h2⟩
      · rcases ihIs rest.length (by omega) h2 hi (by omega) hi' (by omega) with ⟨rfl, rfl, h3⟩ | ⟨rfl, xs, u', u, rfl, rfl, h3⟩
        · exact .inl ⟨rfl, rfl, by simp only [List.length_cons]; omega⟩
        · exact .inr ⟨rfl, t' :: xs, u', u, rfl, rfl, h3⟩
      · cases hi with
        | stop _ =>
          simp only [List.length_nil] at hl
          have : ts' = [] := List.length_eq_zero_iff.mp (by omega)
          subst this
          exact .inr ⟨rfl, [], t', t, rfl, rfl, h2⟩

theorem rows_unique {fields : List FieldName} {dl : Char} (hg : dl ≠ '"') {body : List Line} {ts ts' : List (ETree F)}
    (h : Pointwise (TableRow true fields dl) body ts) (h' : Pointwise (TableRow true fields dl) body ts') : ts = ts' := by
  induction h generalizing ts' with
  | nil => cases h'; rfl
  | cons hr _ ih =>
    cases h' with
    | cons hr' ht' =>
      rw [ih ht']
      obtain ⟨cells, prims, h1, h2, _, rfl⟩ := hr
      obtain ⟨cells', prims', h1', h2', _, rfl⟩ := hr'
      rw [cells_prims_unique hg h1 h2 h1' h2']

theorem array_claim (ihIs : ItemsClaim (F := F) bs bs' more n) : ArrayClaim (F := F) bs bs' more n := by
  intro d h rest r r' t t' hg hn ha ha'
  cases ha with
  | inline h1 h2 h3 =>
    generalize hR : rest ++ more = R at ha'
    cases ha' with
    | table h1' => rw [h1] at h1'; simp at h1'
    | list h1' => rw [h1] at h1'; simp at h1'
    | inline h1' h2' h3' =>
      rw [h1] at h1'
      simp only [Option.some.injEq] at h1'
      subst h1'
      rw [cells_prims_unique hg h2 h3 h2' h3']
      exact .inl ⟨rfl, hR.symm, Nat.le_refl _⟩
  | @table _ _ body _ fields ts h1 h2 hf hd hp hle _ hs =>
    generalize hR : (body ++ r) ++ more = R at ha'
    cases ha' with
    | inline h1' => rw [h1] at h1'; simp at h1'
    | list h1' h2' => rw [h2] at h2'; simp at h2'; exact absurd h2' hf
    | @table _ _ body' _ fields' ts' h1' h2' _ _ hp' _ _ hs' =>
      rw [h2] at h2'
      simp only [Option.some.injEq] at h2'
      subst h2'
      have hb : body.length = body'.length := by rw [(hs rfl).1, (hs' rfl).1]
      rw [List.append_assoc] at hR
      obtain ⟨rfl, hr⟩ := List.append_inj hR hb
      rw [rows_unique hg hp hp']
      exact .inl ⟨rfl, hr.symm, by simp⟩
  | @list _ _ body _ ts h1 h2 hi hs =>
    generalize hR : (body ++ r) ++ more = R at ha'
    cases ha' with
    | inline h1' => rw [h1] at h1'; simp at h1'
    | @table _ _ _ _ _ _ _ h2' hf' =>
      rw [h2'] at h2
      simp at h2
      exact absurd h2 hf'
    | @list _ _ body' _ ts' _ _ hi' hs' =>
      rw [← hR] at hi'
      rcases ihIs hn hi (hs rfl).1 hi' (hs' rfl).1 with ⟨rfl, rfl, h3⟩ | ⟨rfl, xs, u', u, rfl, rfl, h3⟩
      · exact .inl ⟨rfl, rfl, h3⟩
      · exact .inr ⟨rfl, .element _ _ h3⟩

theorem entry_claim (hA : ArrayClaim (F := F) bs bs' more n) (hB : BlockClaim (F := F) bs bs' more n) :
    EntryClaim (F := F) bs bs' more n := by
  intro d c rest r r' e e' hn he he'
  cases he with
  | array hm hk ha =>
    generalize hR : rest ++ more = R at he'
    cases he' with
    | array hm' hk' ha' =>
      cases headerMeans_unique hm hm'
      rw [hk] at hk'
      simp only [Option.some.injEq] at hk'
      subst hk' hR
      rcases hA (delim_ne_quote (headerMeans_good hm).delim) hn ha ha' with ⟨rfl, rfl, h1⟩ | ⟨rfl, h1⟩
      · exact .inl ⟨rfl, rfl, h1⟩
      · exact .inr ⟨rfl, rfl, rfl, h1⟩
    | prim hno => exact (header_notKeyless hm hk hno).elim
    | empty hno => exact (header_notKeyless hm hk hno).elim
    | object hno => exact (header_notKeyless hm hk hno).elim
  | prim hno hkl hb ht =>
    generalize hR : rest ++ more = R at he'
    cases he' with
    | array hm' hk' ha' => exact (header_notKeyless hm' hk' hno).elim
    | prim _ hkl' _ ht' =>
      obtain ⟨rfl, rfl, rfl⟩ := keyLine_unique hkl hkl'
      rw [tokenMeans_unique ht ht']
      exact .inl ⟨rfl, hR.symm, Nat.le_refl _⟩
    | empty _ hkl' hb' => obtain ⟨rfl, rfl, rfl⟩ := keyLine_unique hkl hkl'; exact absurd hb' hb
    | object _ hkl' hb' => obtain ⟨rfl, rfl, rfl⟩ := keyLine_unique hkl hkl'; exact absurd hb' hb
  | empty hno hkl hb hle =>
    generalize hR : rest ++ more = R at he'
    cases he' with
    | array hm' hk' ha' => exact (header_notKeyless hm' hk' hno).elim
    | prim _ hkl' hb' => obtain ⟨rfl, rfl, rfl⟩ := keyLine_unique hkl hkl'; exact absurd hb hb'
    | empty _ hkl' => obtain ⟨rfl, rfl, rfl⟩ := keyLine_unique hkl hkl'; exact .inl ⟨rfl, hR.symm, Nat.le_refl _⟩
    | @object _ _ _ _ _ _ _ _ es' _ hkl' _ hlt =>
      obtain ⟨rfl, rfl, rfl⟩ := keyLine_unique hkl hkl'
      cases rest with
      | nil => exact .inr ⟨rfl, rfl, rfl, by simpa using Cut.entries [] es'⟩
      | cons l ls =>
        rw [List.cons_append] at hR
        simp only [List.cons.injEq] at hR
        have := hle l ls rfl
        rw [hR.1] at this
        omega
  | @object _ _ _ _ _ line ls _ es hno hkl hb hlt hbl =>
    generalize hR : (line :: ls) ++ more = R at he'
    rw [List.cons_append] at hR
    cases he' with
    | array hm' hk' ha' => exact (header_notKeyless hm' hk' hno).elim
    | prim _ hkl' hb' => obtain ⟨rfl, rfl, rfl⟩ := keyLine_unique hkl hkl'; exact absurd hb hb'
    | empty _ _ _ hle => exact absurd (hle _ _ hR.symm) (by omega)
    | object _ hkl' _ _ hbl' =>
      obtain ⟨rfl, rfl, rfl⟩ := keyLine_unique hkl hkl'
      simp only [List.cons.injEq] at hR
      obtain ⟨rfl, rfl⟩ := hR
      rcases hB hn hbl hbl' with ⟨rfl, rfl, h1⟩ | ⟨rfl, h1⟩
      · exact .inl ⟨rfl, rfl, h1⟩
      · exact .inr ⟨rfl, rfl, rfl, h1⟩

omit [F64 F] in
theorem visible_notBlank {c : Char} (hc : isWs c = false) {after : Str} (hv : VisibleFirst c after) (hb : BlankLine after) : False := by
  obtain ⟨ws, r, _, rfl⟩ := hv
  have := hb c (by simp)
  simp_all

omit [F64 F] in
theorem colon_notBlank {after : Str} (hv : HasColon after) (hb : BlankLine after) : False := by
  obtain ⟨a, b, rfl, _⟩ := hv
  exact absurd (hb ':' (by simp)) (by decide)

omit [F64 F] in
theorem header_notBlank {after : Str} {h : Header} (hm : HeaderMeans after h) (hb : BlankLine after) : False := by
  obtain ⟨pre, seg, cols, aft, ⟨rest, hbb, _⟩, _⟩ := hm
  cases hbb with
  | quoted _ _ => exact absurd (hb '[' (by simp)) (by decide)
  | bare _ _ => exact absurd (hb '[' (by simp)) (by decide)

omit [F64 F] in
theorem object_notPrim {after : Str} (hnc : ¬ HasColon after)
    (h1 : HasColon after ∨ ∃ h, HeaderMeans after h ∧ h.key ≠ none ∧ h.fields ≠ none)
    (h2 : NoHeader after ∨ ∃ h, HeaderMeans after h ∧ (h.key = none ∨ h.fields = none)) : False := by
  rcases h1 with h1 | ⟨h, h3, h4, h5⟩
  · exact hnc h1
  · rcases h2 with h2 | ⟨h', h6, h7⟩
    · exact header_not_none h3 h2
    · cases headerMeans_unique h3 h6
      rcases h7 with h7 | h7
      · exact h4 h7
      · exact h5 h7

theorem item_claim (hA : ArrayClaim (F := F) bs bs' more n) (hE : EntryClaim (F := F) bs bs' more n)
    (hB : BlockClaim (F := F) bs bs' more n) : ItemClaim (F := F) bs bs' more n := by
  intro d c rest r r' t t' hn hi hi'
  generalize hR : rest ++ more = R at hi'
  cases hi with
  | hyphen =>
    cases hi' with
    | hyphen => exact .inl ⟨rfl, hR.symm, Nat.le_refl _⟩
  | blank hb =>
    cases hi' with
    | blank _ => exact .inl ⟨rfl, hR.symm, Nat.le_refl _⟩
    | array hv _ _ _ => exact (visible_notBlank (by decide) hv hb).elim
    | object _ h2 _ _ =>
      rcases h2 with h2 | ⟨h, h2, _⟩
      · exact (colon_notBlank h2 hb).elim
      · exact (header_notBlank h2 hb).elim
    | prim h1 _ _ _ => exact absurd hb h1
  | array hv hcol hm ha =>
    cases hi' with
    | blank hb => exact (visible_notBlank (by decide) hv hb).elim
    | array _ _ hm' ha' =>
      cases headerMeans_unique hm hm'
      rw [← hR] at ha'
      exact hA (delim_ne_quote (headerMeans_good hm).delim) hn ha ha'
    | object h1 _ _ _ => exact absurd ⟨hv, _, hm⟩ h1
    | prim _ h2 _ _ => exact absurd hcol h2
  | object h1 h2 he hb =>
    cases hi' with
    | blank hbl =>
      rcases h2 with h2 | ⟨h, h2, _⟩
      · exact (colon_notBlank h2 hbl).elim
      · exact (header_notBlank h2 hbl).elim
    | array hv' _ hm' _ => exact absurd ⟨hv', _, hm'⟩ h1
    | object _ _ he' hb' =>
      rw [← hR] at he'
      have h3 := hE hn he he'
      rcases continues_cons h3 (fun h => by omega) hB hb hb' with ⟨h4, rfl, h5⟩ | ⟨rfl, h4⟩
      · rw [h4]; exact .inl ⟨rfl, rfl, h5⟩
      · exact .inr ⟨rfl, h4⟩
    | prim _ hnc hh _ => exact (object_notPrim hnc h2 hh).elim
  | prim h1 h2 h3 h4 =>
    cases hi' with
    | blank hb => exact absurd hb h1
    | array _ hc _ _ => exact absurd hc h2
    | object _ hh _ _ => exact (object_notPrim h2 hh h3).elim
    | prim _ _ _ h4' =>
      rw [tokenMeans_unique h4 h4']
      exact .inl ⟨rfl, hR.symm, Nat.le_refl _⟩

theorem all_claims (bs bs' : List Nat) (more : List Line) (n : Nat) :
    EntryClaim (F := F) bs bs' more n ∧ BlockClaim (F := F) bs bs' more n ∧ ArrayClaim (F := F) bs bs' more n ∧
    ItemsClaim (F := F) bs bs' more n ∧ ItemClaim (F := F) bs bs' more n := by
  induction n using Nat.strongRecOn with
  | ind n ih =>
    have hB : BlockClaim (F := F) bs bs' more n := block_claim (fun m h => (ih m h).1) (fun m h => (ih m h).2.1)
    have hIs : ItemsClaim (F := F) bs bs' more n := items_claim (fun m h => (ih m h).2.2.2.2) (fun m h => (ih m h).2.2.2.1)
    have hA : ArrayClaim (F := F) bs bs' more n := array_claim hIs
    have hE : EntryClaim (F := F) bs bs' more n := entry_claim hA hB
    exact ⟨hE, hB, hA, hIs, item_claim hA hE hB⟩

/-- The first lines of a document, at least one, and the document. -/
theorem document_cut {bs bs' : List Nat} {lines more r r' : List Line} {t t' : ETree F} (hne : lines ≠ [])
    (hd : DocumentMeans true bs lines t r) (hd' : DocumentMeans true bs' (lines ++ more) t' r') : Cut t' t := by
  cases lines with
  | nil => exact absurd rfl hne
  | cons l ls =>
    obtain ⟨cE, cB, cA, _⟩ := all_claims (F := F) bs bs' more ls.length
    generalize hR : (l :: ls) ++ more = R at hd'
    rw [List.cons_append] at hR
    cases hd with
    | array hv hcol hm ha =>
      cases hd' with
      | empty => simp at hR
      | array hv' hcol' hm' ha' =>
        simp only [List.cons.injEq] at hR
        obtain ⟨rfl, rfl⟩ := hR
        cases headerMeans_unique hm hm'
        rcases cA (delim_ne_quote (headerMeans_good hm).delim) (Nat.le_refl _) ha ha' with ⟨rfl, _⟩ | ⟨_, h⟩
        · exact .whole _
        · exact h
      | prim hq _ =>
        simp only [List.cons.injEq] at hR
        obtain ⟨rfl, _⟩ := hR
        exact (prim_noRoot hq hv hcol).elim
      | object hno _ _ =>
        simp only [List.cons.injEq] at hR
        obtain ⟨rfl, _⟩ := hR
        exact (header_not_none hm (hno hv hcol)).elim
    | prim hq ht1 =>
      cases hd' with
      | empty => simp at hR
      | array hv' hcol' _ _ =>
        simp only [List.cons.injEq] at hR
        obtain ⟨rfl, _⟩ := hR
        exact (prim_noRoot hq hv' hcol').elim
      | prim _ ht2 =>
        simp only [List.cons.injEq] at hR
        obtain ⟨rfl, _⟩ := hR
        rw [tokenMeans_unique ht1 ht2]
        exact .whole _
      | object _ he' _ =>
        simp only [List.cons.injEq] at hR
        obtain ⟨rfl, _⟩ := hR
        exact (prim_noEntry hq ht1 he').elim
    | object hno he hb =>
      cases hd' with
      | empty => simp at hR
      | array hv' hcol' hm' _ =>
        simp only [List.cons.injEq] at hR
        obtain ⟨rfl, _⟩ := hR
        exact (header_not_none hm' (hno hv' hcol')).elim
      | prim hq ht2 =>
        simp only [List.cons.injEq] at hR
        obtain ⟨rfl, _⟩ := hR
        exact (prim_noEntry hq ht2 he).elim
      | object _ he' hb' =>
        simp only [List.cons.injEq] at hR
        obtain ⟨rfl, rfl⟩ := hR
        have h1 := cE (Nat.le_refl _) he he'
        rcases continues_cons h1 id cB hb hb' with ⟨h4, _⟩ | ⟨_, h4⟩
        · rw [h4]; exact .whole _
        · exact h4

omit [F64 F] in
/-- The lines of the first source lines come first. -/
theorem scans_append {i n : Nat} {strict : Bool} {s₁ s₂ : List Str} {ls : List Line} {bs : List Nat}
    (h : ScansTo i strict n (s₁ ++ s₂) ls bs) :
    ∃ ls₁ bs₁ ls₂ bs₂, ls = ls₁ ++ ls₂ ∧ bs = bs₁ ++ bs₂ ∧ ScansTo i strict n s₁ ls₁ bs₁ ∧
      ScansTo i strict (n + s₁.length) s₂ ls₂ bs₂ := by
  induction s₁ generalizing n ls bs with
  | nil => exact ⟨[], [], ls, bs, rfl, rfl, .nil _, h⟩
  | cons raw s₁ ih =>
    rw [List.cons_append] at h
    cases h with
    | blank hb h1 =>
      obtain ⟨ls₁, bs₁, ls₂, bs₂, rfl, rfl, h2, h3⟩ := ih h1
      exact ⟨ls₁, _ :: bs₁, ls₂, bs₂, rfl, rfl, .blank hb h2, by rw [List.length_cons]; rwa [show n + (s₁.length + 1) = n + 1 + s₁.length by omega]⟩
    | line hb hh hs h1 =>
      obtain ⟨ls₁, bs₁, ls₂, bs₂, rfl, rfl, h2, h3⟩ := ih h1
      exact ⟨_ :: ls₁, bs₁, ls₂, bs₂, rfl, rfl, .line hb hh hs h2, by rw [List.length_cons]; rwa [show n + (s₁.length + 1) = n + 1 + s₁.length by omega]⟩

omit [F64 F] in
theorem scans_unique {i n : Nat} {strict : Bool} {s : List Str} {ls ls' : List Line} {bs bs' : List Nat}
    (h : ScansTo i strict n s ls bs) (h' : ScansTo i strict n s ls' bs') : ls = ls' ∧ bs = bs' := by
  induction h generalizing ls' bs' with
  | nil => cases h'; exact ⟨rfl, rfl⟩
  | @blank n raw rest ls bs hb _ ih =>
    cases h' with
    | blank _ h1 => obtain ⟨rfl, rfl⟩ := ih h1; exact ⟨rfl, rfl⟩
    | line hb' => exact absurd (blank_replicate.mp hb) hb'
  | @line n k content rest ls bs hb hh hs _ ih =>
    generalize hR : List.replicate k ' ' ++ content = raw at h'
    cases h' with
    | blank hb' h1 => rw [← hR] at hb'; exact absurd (blank_replicate.mp hb') hb
    | @line _ k' content' _ _ _ hb' hh' hs' h1 =>
      obtain ⟨rfl, rfl⟩ := ih h1
      have e1 := takeWhile_replicate_append (k := k) hh
      have e2 := takeWhile_replicate_append (k := k') hh'
      rw [hR] at e1
      rw [e1] at e2
      have hk : k = k' := by simpa using congrArg List.length e2
      subst hk
      have hc := List.append_cancel_left hR
      subst hc
      exact ⟨rfl, rfl⟩

omit [F64 F] in
theorem scans_nonempty {i n : Nat} {strict : Bool} {s : List Str} {ls : List Line} {bs : List Nat}
    (h : ScansTo i strict n s ls bs) (hb : ∃ raw ∈ s, ¬ BlankLine raw) : ls ≠ [] := by
  induction h with
  | nil => simp at hb
  | blank h1 _ ih =>
    apply ih
    obtain ⟨raw, h2, h3⟩ := hb
    rcases List.mem_cons.mp h2 with rfl | h2
    · exact absurd h1 h3
    · exact ⟨raw, h2, h3⟩
  | line => simp

/-- The first lines of a text, not all blank, and the text: the one tree is a cut of the other. -/
theorem textMeans_cut {i : Nat} {s₁ s₂ : List Str} {t t' : ETree F} (hb : ∃ raw ∈ s₁, ¬ BlankLine raw)
    (h : TextMeans i true s₁ t) (h' : TextMeans i true (s₁ ++ s₂) t') : Cut t' t := by
  obtain ⟨ls, bs, r, hs, hd⟩ := h
  obtain ⟨ls', bs', r', hs', hd'⟩ := h'
  obtain ⟨ls₁, bs₁, ls₂, bs₂, rfl, rfl, h1, _⟩ := scans_append hs'
  obtain ⟨rfl, rfl⟩ := scans_unique hs h1
  exact document_cut (scans_nonempty hs hb) hd hd'

end
end
end Toon
