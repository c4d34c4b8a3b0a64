import Verif.Props.Grammar
import Verif.Props.ExpandExact

/-! Strict reading of the same lines with two indentation units: the depths are proportional, and so the trees are the
same. -/

namespace Toon

section
variable {F : Type} [F64 F]

/-- The parts of a line have one meaning. -/
theorem headerMeans_unique {c : Str} {h h' : Header} (h1 : HeaderMeans c h) (h2 : HeaderMeans c h') : h = h' := by
  have a := (headerMeans_iff _ _).mpr h1
  rw [(headerMeans_iff _ _).mpr h2] at a
  simpa using a.symm

theorem header_notKeyless {c k : Str} {h : Header} (h1 : HeaderMeans c h) (hk : h.key = some k) (h2 : NoKeyedHeader c) : False := by
  obtain ⟨hdr, h3, h4⟩ := (noKeyedHeader_iff _).mp h2
  rw [(headerMeans_iff _ _).mpr h1] at h3
  simp only [Except.ok.injEq] at h3
  subst h3
  simp [keyedHeader, hk] at h4

theorem keyLine_unique {c k k' a a' : Str} {q q' : Bool} (h1 : KeyLineMeans c k q a) (h2 : KeyLineMeans c k' q' a') :
    k = k' ∧ q = q' ∧ a = a' := by
  obtain ⟨e, h3, h4⟩ := keyLine_parse h1
  obtain ⟨e', h5, h6⟩ := keyLine_parse h2
  rw [h3] at h5
  simp only [Except.ok.injEq, Prod.mk.injEq] at h5
  obtain ⟨rfl, rfl, rfl⟩ := h5
  exact ⟨rfl, rfl, h4.symm.trans h6⟩

theorem tokenMeans_unique {s : Str} {p p' : Prim F} (h1 : TokenMeans (trim s) p) (h2 : TokenMeans (trim s) p') : p = p' := by
  have a := (parsePrimitiveToken_iff _ _).mpr h1
  rw [(parsePrimitiveToken_iff _ _).mpr h2] at a
  simpa using a.symm

theorem cells_prims_unique {d : Char} (hd : d ≠ '"') {text : Str} {cells cells' : List Str} {ps ps' : List (Prim F)}
    (h1 : Cells d text cells) (h2 : Pointwise TokenMeans cells ps) (h1' : Cells d text cells')
    (h2' : Pointwise TokenMeans cells' ps') : ps = ps' := by
  have a := (parseDelimited_cells hd _ _).mpr h1
  have b := (parseDelimited_cells hd _ _).mpr h1'
  have hc : cells = cells' := a.symm.trans b
  subst hc
  have ht := cells_trimmed h1
  have e1 := (mapRow_cells ht ps).mpr h2
  rw [(mapRow_cells ht ps').mpr h2'] at e1
  simpa using e1.symm

/-- The same lines, with depths in proportion `m₁ : m₂`. -/
def Proportional (m₁ m₂ : Nat) : List Line → List Line → Prop :=
  Pointwise fun l l' => l.content = l'.content ∧ ∃ d, l.depth = m₁ * d ∧ l'.depth = m₂ * d

omit [F64 F] in
theorem mul_succ_ne {m a b : Nat} (hm : 2 ≤ m) : m * a ≠ m * b + 1 := by
  intro h
  have h1 : (m * a) % m = (m * b + 1) % m := by rw [h]
  rw [Nat.mul_mod_right, Nat.mul_add_mod, Nat.mod_eq_of_lt (by omega)] at h1
  omega

/-- Strict: an array without inline text whose next line is not one level deeper is empty. -/
theorem array_noBody {blanks : List Nat} {depth : Nat} {h : Header} {rest rest' : List Line} {t : ETree F}
    (ha : ArrayMeans true blanks depth h rest t rest') (hi : h.inline = none)
    (hn : ∀ line more, rest = line :: more → line.depth ≠ depth + 1) : h.length = 0 ∧ t = .arr 0 [] ∧ rest' = rest := by
  cases ha with
  | inline h1 => rw [hi] at h1; simp at h1
  | @table _ _ body _ fields ts _ _ _ hd hp _ _ hs =>
    cases body with
    | nil =>
      cases hp
      have := (hs rfl).1
      simp only [List.length_nil] at this
      rw [← this]
      exact ⟨rfl, rfl, rfl⟩
    | cons line body => exact absurd (hd line (by simp)) (hn _ _ rfl)
  | @list _ _ body _ ts _ _ him hs =>
    have hlen := (hs rfl).1
    generalize hR : body ++ rest' = R at him
    generalize hL : h.length = n at him
    cases him with
    | stop _ =>
      simp only [List.length_nil] at hlen
      rw [hL] at hlen
      subst hlen
      exact ⟨rfl, rfl, rfl⟩
    | item hd _ _ => exact absurd hd (hn _ _ hR)

/-- Strict: an array without inline text and of length 0 takes no line. -/
theorem array_zero {blanks : List Nat} {depth : Nat} {h : Header} {rest rest' : List Line} {t : ETree F}
    (ha : ArrayMeans true blanks depth h rest t rest') (hi : h.inline = none) (hz : h.length = 0) :
    t = .arr 0 [] ∧ rest' = rest := by
  cases ha with
  | inline h1 => rw [hi] at h1; simp at h1
  | @table _ _ body _ fields ts _ _ _ hd hp hle _ _ =>
    cases body with
    | nil => cases hp; rw [hz]; exact ⟨rfl, rfl⟩
    | cons line body => rw [hz] at hle; simp at hle
  | @list _ _ body _ ts _ _ him hs =>
    generalize hR : body ++ rest' = R at him
    rw [hz] at him ⊢
    cases him with
    | stop _ => exact ⟨rfl, rfl⟩

section
variable {blanks : List Nat} {m₁ m₂ : Nat} (h₁ : 1 ≤ m₁) (h₂ : 2 ≤ m₂)
include h₂

theorem proportional_next {d : Nat} {rest rest' : List Line} (hp : Proportional m₁ m₂ rest rest') :
    ∀ line more, rest' = line :: more → line.depth ≠ m₂ * d + 1 := by
  rintro line more rfl
  cases hp with
  | cons hl _ =>
    obtain ⟨_, d', _, h⟩ := hl
    rw [h]
    exact mul_succ_ne h₂

theorem array_proportional {d : Nat} {h : Header} (hg : h.delim ≠ '"') {rest rest' r r' : List Line} {t t' : ETree F}
    (hp : Proportional m₁ m₂ rest rest') (ha : ArrayMeans true blanks (m₁ * d) h rest t r)
    (ha' : ArrayMeans true blanks (m₂ * d) h rest' t' r') : t = t' ∧ r = rest ∧ r' = rest' := by
  cases hi : h.inline with
  | none =>
    obtain ⟨hz, rfl, rfl⟩ := array_noBody ha' hi (proportional_next h₂ hp)
    obtain ⟨rfl, rfl⟩ := array_zero ha hi hz
    exact ⟨rfl, rfl, rfl⟩
  | some text =>
    cases ha with
    | table h1 => rw [hi] at h1; simp at h1
    | list h1 => rw [hi] at h1; simp at h1
    | inline h1 h2 h3 =>
      cases ha' with
      | table h1 => rw [hi] at h1; simp at h1
      | list h1 => rw [hi] at h1; simp at h1
      | inline h1' h2' h3' =>
        rw [h1] at h1'
        simp only [Option.some.injEq] at h1'
        subst h1'
        rw [cells_prims_unique hg h2 h3 h2' h3']
        exact ⟨rfl, rfl, rfl⟩

include h₁

theorem proportional_block {n : Nat}
    (ihE : ∀ {d : Nat} {c : Str} {rest rest' r r' : List Line} {e e' : Str × Bool × ETree F}, rest.length + 1 ≤ n →
      Proportional m₁ m₂ rest rest' → EntryMeans true blanks (m₁ * d) c rest e r →
      EntryMeans true blanks (m₂ * d) c rest' e' r' → e = e' ∧ Proportional m₁ m₂ r r' ∧ r.length ≤ rest.length)
    (ihB : ∀ {d : Nat} {rest rest' r r' : List Line} {es es' : List (Str × Bool × ETree F)}, rest.length + 1 ≤ n →
      Proportional m₁ m₂ rest rest' → BlockMeans true blanks false (m₁ * d) rest es r →
      BlockMeans true blanks false (m₂ * d) rest' es' r' → es = es' ∧ Proportional m₁ m₂ r r' ∧ r.length ≤ rest.length)
    {d : Nat} {rest rest' r r' : List Line} {es es' : List (Str × Bool × ETree F)} (hn : rest.length ≤ n)
    (hp : Proportional m₁ m₂ rest rest') (hb : BlockMeans true blanks false (m₁ * d) rest es r)
    (hb' : BlockMeans true blanks false (m₂ * d) rest' es' r') : es = es' ∧ Proportional m₁ m₂ r r' ∧ r.length ≤ rest.length := by
  cases hp with
  | nil =>
    cases hb; cases hb'
    exact ⟨rfl, .nil, Nat.le_refl _⟩
  | @cons l l' ls ls' hl ht =>
    obtain ⟨hc, d', hd1, hd2⟩ := hl
    have iff : l.depth = m₁ * d ↔ l'.depth = m₂ * d := by
      rw [hd1, hd2]
      rw [Nat.mul_left_cancel_iff (by omega), Nat.mul_left_cancel_iff (by omega)]
    cases hb with
    | stop hs =>
      cases hb' with
      | stop _ => exact ⟨rfl, .cons ⟨hc, d', hd1, hd2⟩ ht, Nat.le_refl _⟩
      | entry hd' => exact absurd ⟨l, ls, rfl, iff.mpr hd', by simp⟩ hs
    | entry hd _ he hb =>
      cases hb' with
      | stop hs => exact absurd ⟨l', ls', rfl, iff.mp hd, by simp⟩ hs
      | entry hd' _ he' hb' =>
        simp only [List.length_cons] at hn ⊢
        rw [← hc] at he'
        obtain ⟨rfl, h4, h5⟩ := ihE hn ht he he'
        obtain ⟨rfl, h6, h7⟩ := ihB (by omega) h4 hb hb'
        exact ⟨rfl, h6, by omega⟩

theorem proportional_entry {n : Nat}
    (ihB : ∀ {d : Nat} {rest rest' r r' : List Line} {es es' : List (Str × Bool × ETree F)}, rest.length ≤ n →
      Proportional m₁ m₂ rest rest' → BlockMeans true blanks false (m₁ * d) rest es r →
      BlockMeans true blanks false (m₂ * d) rest' es' r' → es = es' ∧ Proportional m₁ m₂ r r' ∧ r.length ≤ rest.length)
    {d : Nat} {c : Str} {rest rest' r r' : List Line} {e e' : Str × Bool × ETree F} (hn : rest.length ≤ n)
    (hp : Proportional m₁ m₂ rest rest') (he : EntryMeans true blanks (m₁ * d) c rest e r)
    (he' : EntryMeans true blanks (m₂ * d) c rest' e' r') : e = e' ∧ Proportional m₁ m₂ r r' ∧ r.length ≤ rest.length := by
  cases he with
  | array hm hk ha =>
    cases he' with
    | array hm' hk' ha' =>
      cases headerMeans_unique hm hm'
      rw [hk] at hk'
      simp only [Option.some.injEq] at hk'
      subst hk'
      obtain ⟨rfl, rfl, rfl⟩ := array_proportional h₂ (delim_ne_quote (headerMeans_good hm).delim) hp ha ha'
      exact ⟨rfl, hp, Nat.le_refl _⟩
    | prim hno => exact (header_notKeyless hm hk hno).elim
    | empty hno => exact (header_notKeyless hm hk hno).elim
    | object hno => exact (header_notKeyless hm hk hno).elim
  | prim hno hkl hb ht =>
    cases he' with
    | array hm' hk' ha' => exact (header_notKeyless hm' hk' hno).elim
    | prim _ hkl' _ ht' =>
      obtain ⟨rfl, rfl, rfl⟩ := keyLine_unique hkl hkl'
      rw [tokenMeans_unique ht ht']
      exact ⟨rfl, hp, Nat.le_refl _⟩
    | empty _ hkl' hb' => obtain ⟨rfl, rfl, rfl⟩ := keyLine_unique hkl hkl'; exact absurd hb' hb
    | object _ hkl' hb' => obtain ⟨rfl, rfl, rfl⟩ := keyLine_unique hkl hkl'; exact absurd hb' hb
  | empty hno hkl hb hle =>
    cases he' with
    | array hm' hk' ha' => exact (header_notKeyless hm' hk' hno).elim
    | prim _ hkl' hb' => obtain ⟨rfl, rfl, rfl⟩ := keyLine_unique hkl hkl'; exact absurd hb hb'
    | empty _ hkl' => obtain ⟨rfl, rfl, rfl⟩ := keyLine_unique hkl hkl'; exact ⟨rfl, hp, Nat.le_refl _⟩
    | object _ _ _ hlt =>
      cases hp with
      | cons hl _ =>
        obtain ⟨_, d', hd1, hd2⟩ := hl
        have := hle _ _ rfl
        rw [hd1] at this
        rw [hd2] at hlt
        have h3 := Nat.lt_of_mul_lt_mul_left hlt
        have h4 := Nat.le_of_mul_le_mul_left this (by omega)
        omega
  | object hno hkl hb hlt hbl =>
    cases he' with
    | array hm' hk' ha' => exact (header_notKeyless hm' hk' hno).elim
    | prim _ hkl' hb' => obtain ⟨rfl, rfl, rfl⟩ := keyLine_unique hkl hkl'; exact absurd hb hb'
    | empty _ _ _ hle =>
      cases hp with
      | cons hl _ =>
        obtain ⟨_, d', hd1, hd2⟩ := hl
        have := hle _ _ rfl
        rw [hd2] at this
        rw [hd1] at hlt
        have h3 := Nat.lt_of_mul_lt_mul_left hlt
        have h4 := Nat.le_of_mul_le_mul_left this (by omega)
        omega
    | object _ hkl' _ _ hbl' =>
      obtain ⟨rfl, rfl, rfl⟩ := keyLine_unique hkl hkl'
      have hp' := hp
      cases hp with
      | cons hl _ =>
        obtain ⟨_, d', hd1, hd2⟩ := hl
        rw [hd1] at hbl
        rw [hd2] at hbl'
        obtain ⟨rfl, h3, h4⟩ := ihB hn hp' hbl hbl'
        exact ⟨rfl, h3, h4⟩

theorem block_entry_proportional : ∀ n,
    (∀ {d : Nat} {rest rest' r r' : List Line} {es es' : List (Str × Bool × ETree F)}, rest.length ≤ n →
      Proportional m₁ m₂ rest rest' → BlockMeans true blanks false (m₁ * d) rest es r →
      BlockMeans true blanks false (m₂ * d) rest' es' r' → es = es' ∧ Proportional m₁ m₂ r r' ∧ r.length ≤ rest.length) ∧
    (∀ {d : Nat} {c : Str} {rest rest' r r' : List Line} {e e' : Str × Bool × ETree F}, rest.length ≤ n →
      Proportional m₁ m₂ rest rest' → EntryMeans true blanks (m₁ * d) c rest e r →
      EntryMeans true blanks (m₂ * d) c rest' e' r' → e = e' ∧ Proportional m₁ m₂ r r' ∧ r.length ≤ rest.length) := by
  intro n
  induction n with
  | zero =>
    have hB := @proportional_block F _ blanks m₁ m₂ h₁ h₂ 0 (fun h => absurd h (by omega)) (fun h => absurd h (by omega))
    exact ⟨hB, proportional_entry h₁ h₂ hB⟩
  | succ n ih =>
    have hB := @proportional_block F _ blanks m₁ m₂ h₁ h₂ (n + 1) (fun h => ih.2 (by omega)) (fun h => ih.1 (by omega))
    exact ⟨hB, proportional_entry h₁ h₂ hB⟩

omit h₁ h₂ in
theorem prim_noRoot {c : Str} (hc : c.head? = some '"' ∨ ':' ∉ c) (hv : VisibleFirst '[' c) (hcol : HasColon c) : False := by
  rcases hc with hc | hc
  · obtain ⟨ws, r, hb, rfl⟩ := hv
    cases ws with
    | nil => simp at hc
    | cons c ws => simp at hc; subst hc; exact absurd (hb '"' (by simp)) (by decide)
  · obtain ⟨a, b, rfl, _⟩ := hcol
    exact hc (by simp)

omit h₁ h₂ in
theorem prim_noEntry {blanks : List Nat} {c : Str} {p : Prim F} (hc : c.head? = some '"' ∨ ':' ∉ c) (ht : TokenMeans (trim c) p)
    {depth : Nat} {rest r : List Line} {e : Str × Bool × ETree F} (he : EntryMeans true blanks depth c rest e r) : False := by
  have h1 := (token_line _ p ht).mpr hc
  rw [entry_keyValueLine he] at h1
  simp at h1

omit h₁ h₂ in
theorem header_not_none {c : Str} {h : Header} (hm : HeaderMeans c h) (hn : NoHeader c) : False := by
  have h1 := (headerMeans_iff _ _).mpr hm
  rw [(noHeader_iff _).mpr hn] at h1
  simp at h1

theorem document_proportional {lines lines' r r' : List Line} {t t' : ETree F} (hp : Proportional m₁ m₂ lines lines')
    (hd : DocumentMeans true blanks lines t r) (hd' : DocumentMeans true blanks lines' t' r') : t = t' := by
  cases hp with
  | nil => cases hd; cases hd'; rfl
  | @cons l l' ls ls' hl ht =>
    obtain ⟨hc, _⟩ := hl
    cases hd with
    | array hv hcol hm ha =>
      cases hd' with
      | array hv' hcol' hm' ha' =>
        rw [← hc] at hm'
        cases headerMeans_unique hm hm'
        exact (array_proportional h₂ (d := 0) (delim_ne_quote (headerMeans_good hm).delim) ht (by simpa using ha) (by simpa using ha')).1
      | prim hq _ => rw [← hc] at hq; exact (prim_noRoot hq hv hcol).elim
      | object hno _ _ => rw [← hc] at hno; exact (header_not_none hm (hno hv hcol)).elim
    | prim hq ht1 =>
      cases ht
      cases hd' with
      | array hv' hcol' _ _ => rw [← hc] at hv' hcol'; exact (prim_noRoot hq hv' hcol').elim
      | prim _ ht2 => rw [← hc] at ht2; rw [tokenMeans_unique ht1 ht2]
      | object _ he' _ => rw [← hc] at he'; exact (prim_noEntry hq ht1 he').elim
    | object hno he hb =>
      cases hd' with
      | array hv' hcol' hm' _ => rw [← hc] at hv' hcol' hm'; exact (header_not_none hm' (hno hv' hcol')).elim
      | prim hq ht2 => rw [← hc] at hq ht2; exact (prim_noEntry hq ht2 he).elim
      | object _ he' hb' =>
        rw [← hc] at he'
        obtain ⟨rfl, h3, _⟩ := (block_entry_proportional h₁ h₂ ls.length).2 (d := 0) (Nat.le_refl _) ht (by simpa using he) (by simpa using he')
        obtain ⟨rfl, _⟩ := (block_entry_proportional h₁ h₂ _).1 (d := 0) (Nat.le_refl _) h3 (by simpa using hb) (by simpa using hb')
        rfl

end

/-! ## Two readings of the same source -/

omit [F64 F] in
/-- Lines read with one indentation unit strictly, and with another. -/
theorem scans_proportional {i j m₁ m₂ : Nat} (hm : ∀ s, s % i = 0 → s % j = 0 → ∃ d, s / i = m₁ * d ∧ s / j = m₂ * d)
    {n : Nat} {source : List Str} {ls ls' : List Line} {bs bs' : List Nat}
    (h : ScansTo i true n source ls bs) (h' : ScansTo j true n source ls' bs') : Proportional m₁ m₂ ls ls' ∧ bs = bs' := by
  induction h generalizing ls' bs' with
  | nil => cases h'; exact ⟨.nil, rfl⟩
  | @blank n raw rest ls bs hb _ ih =>
    cases h' with
    | blank _ h1 => obtain ⟨h2, rfl⟩ := ih h1; exact ⟨h2, rfl⟩
    | line hb' => exact absurd (blank_replicate.mp hb) hb'
  | @line n k content rest ls bs hb hh hs _ ih =>
    generalize hR : List.replicate k ' ' ++ content = raw at h'
    cases h' with
    | blank hb' h1 => rw [← hR] at hb'; exact absurd (blank_replicate.mp hb') hb
    | @line _ k' content' _ _ _ hb' hh' hs' h1 =>
      obtain ⟨h2, rfl⟩ := ih h1
      have e1 := takeWhile_replicate_append (k := k) hh
      have e2 := takeWhile_replicate_append (k := k') hh'
      rw [hR] at e1
      rw [e1] at e2
      have hk : k = k' := by simpa using congrArg List.length e2
      subst hk
      have hc := List.append_cancel_left hR
      subst hc
      exact ⟨.cons ⟨rfl, hm k (hs rfl).2 (hs' rfl).2⟩ h2, rfl⟩

omit [F64 F] in
/-- Two different units: the depths of lines that are a whole number of both are in proportion, and not equal. -/
theorem units_proportional {i j : Nat} (hij : i ≠ j) : ∃ m₁ m₂, 1 ≤ m₁ ∧ 1 ≤ m₂ ∧ (2 ≤ m₁ ∨ 2 ≤ m₂) ∧
    ∀ s, s % i = 0 → s % j = 0 → ∃ d, s / i = m₁ * d ∧ s / j = m₂ * d := by
  by_cases h0 : i = 0 ∨ j = 0
  · refine ⟨1, 2, by omega, by omega, Or.inr (by omega), ?_⟩
    intro s h1 h2
    have : s = 0 := by
      rcases h0 with rfl | rfl
      · simpa using h1
      · simpa using h2
    subst this
    exact ⟨0, by simp, by simp⟩
  · have hi : 0 < i := by omega
    have hj : 0 < j := by omega
    obtain ⟨a, ha⟩ := Nat.dvd_lcm_left i j
    obtain ⟨b, hb⟩ := Nat.dvd_lcm_right i j
    have hl : 0 < Nat.lcm i j := Nat.lcm_pos hi hj
    have ha0 : a ≠ 0 := by rintro rfl; omega
    have hb0 : b ≠ 0 := by rintro rfl; omega
    refine ⟨a, b, by omega, by omega, ?_, ?_⟩
    · by_cases h : 2 ≤ a
      · exact Or.inl h
      · right
        have : a = 1 := by omega
        subst this
        have hb1 : b ≠ 1 := by rintro rfl; omega
        omega
    · intro s h1 h2
      obtain ⟨d, hd⟩ := Nat.lcm_dvd (Nat.dvd_of_mod_eq_zero h1) (Nat.dvd_of_mod_eq_zero h2)
      refine ⟨d, ?_, ?_⟩
      · rw [hd, ha, Nat.mul_assoc, Nat.mul_div_cancel_left _ hi]
      · rw [hd, hb, Nat.mul_assoc, Nat.mul_div_cancel_left _ hj]

omit [F64 F] in
theorem Proportional.symm {m₁ m₂ : Nat} {ls ls' : List Line} (h : Proportional m₁ m₂ ls ls') : Proportional m₂ m₁ ls' ls := by
  induction h with
  | nil => exact .nil
  | cons hl _ ih => obtain ⟨h1, d, h2, h3⟩ := hl; exact .cons ⟨h1.symm, d, h3, h2⟩ ih

/-- A text stands for the same tree whatever the indentation unit. -/
theorem textMeans_reindent [LawfulF64 F] {i j : Nat} {source : List Str} {t t' : ETree F} (h : TextMeans i true source t)
    (h' : TextMeans j true source t') : t = t' := by
  by_cases hij : i = j
  · subst hij; exact C58_unique _ _ _ _ _ h h'
  · obtain ⟨m₁, m₂, h1, h2, h3, h4⟩ := units_proportional hij
    obtain ⟨ls, bs, r, hs, hd⟩ := h
    obtain ⟨ls', bs', r', hs', hd'⟩ := h'
    obtain ⟨hp, rfl⟩ := scans_proportional h4 hs hs'
    rcases h3 with h3 | h3
    · exact (document_proportional h2 h3 hp.symm hd' hd).symm
    · exact document_proportional h1 h3 hp hd hd'

end

end Toon
