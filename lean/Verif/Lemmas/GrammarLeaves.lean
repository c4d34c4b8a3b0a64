import Verif.Lemmas.GrammarHeader

/-! The tests and leaves of the decoder against the grammar. -/

namespace Toon

/-! ## Characters outside quotes -/

/-- The search with an explicit state. -/
def unquotedFrom (t : Char) : Str → Nat → QState → Option Nat
  | [], _, _ => none
  | c :: rest, i, st => if st = .out ∧ c = t then some i else unquotedFrom t rest (i + 1) (st.step c)

theorem unquotedCharAux_from {t : Char} (ht : t ≠ '"') : ∀ n (s : Str), s.length ≤ n → ∀ i (inQ : Bool),
    unquotedCharAux t s i inQ = unquotedFrom t s i (if inQ then .inside else .out) := by
  intro n
  induction n with
  | zero =>
    intro s hs i inQ
    have : s = [] := by simpa using hs
    subst this
    simp [unquotedCharAux, unquotedFrom]
  | succ n ih =>
    intro s hs i inQ
    cases s with
    | nil => simp [unquotedCharAux, unquotedFrom]
    | cons c rest =>
      have hr : rest.length ≤ n := by simpa using hs
      rw [unquotedCharAux.eq_def]
      simp only [unquotedFrom]
      cases inQ with
      | true =>
        simp only [Bool.true_and, decide_eq_true_eq, if_true]
        by_cases hc : c = '\\'
        · subst hc
          simp only [if_true, QState.step]
          cases rest with
          | nil => simp [unquotedFrom]
          | cons x rest' =>
            have hr' : rest'.length ≤ n := by simp at hr; omega
            simp only [ih rest' hr' (i + 2) true]
            simp [unquotedFrom, QState.step]
        · rw [if_neg hc]
          by_cases hq : c = '"'
          · subst hq
            simp only [if_true, ih rest hr (i + 1)]
            simp [QState.step]
          · rw [if_neg hq, ih rest hr]
            simp [QState.step, hc, hq]
      | false =>
        simp only [Bool.false_and, Bool.not_false, Bool.and_true, decide_eq_true_eq]
        rw [if_neg (by simp)]
        by_cases hq : c = '"'
        · subst hq
          have hne : ¬ '"' = t := fun h => ht h.symm
          rw [if_pos rfl, ih rest hr]
          simp [QState.step, hne]
        · rw [if_neg hq]
          by_cases hct : c = t
          · simp [hct]
          · rw [if_neg hct, ih rest hr]
            simp [QState.step, hct, hq]

theorem unquotedFrom_iff (t : Char) (s : Str) (i j : Nat) (st : QState) : unquotedFrom t s i st = some j ↔
    ∃ a b, s = a ++ t :: b ∧ j = i + a.length ∧ a.foldl QState.step st = .out ∧
      ∀ a' b', a = a' ++ t :: b' → a'.foldl QState.step st ≠ .out := by
  induction s generalizing i st with
  | nil => simp [unquotedFrom]
  | cons c rest ih =>
    rw [unquotedFrom]
    by_cases hc : st = .out ∧ c = t
    · obtain ⟨rfl, rfl⟩ := hc
      rw [if_pos ⟨rfl, rfl⟩]
      constructor
      · intro h
        simp at h
        subst h
        exact ⟨[], rest, rfl, by simp, rfl, by simp⟩
      · rintro ⟨a, b, h1, rfl, h3, h4⟩
        cases a with
        | nil => simp
        | cons x a =>
          simp at h1
          exact absurd rfl (h4 [] a (by simp [h1.1]))
    · rw [if_neg hc, ih]
      constructor
      · rintro ⟨a, b, rfl, rfl, h3, h4⟩
        refine ⟨c :: a, b, rfl, by simp; omega, h3, ?_⟩
        intro a' b' hab
        cases a' with
        | nil => intro hh; simp at hab hh; exact hc ⟨hh, hab.1⟩
        | cons x a' => simp at hab; obtain ⟨rfl, rfl⟩ := hab; exact h4 a' b' rfl
      · rintro ⟨a, b, h1, rfl, h3, h4⟩
        cases a with
        | nil => simp at h1 h3; exact absurd ⟨h3, h1.1⟩ hc
        | cons x a =>
          simp at h1
          obtain ⟨rfl, rfl⟩ := h1
          exact ⟨a, b, rfl, by simp; omega, h3, fun a' b' hab => h4 (c :: a') b' (by simp [hab])⟩

theorem findUnquotedChar_iff {t : Char} (ht : t ≠ '"') (ha : t.toNat < 128) (s : Str) (i : Nat) :
    findUnquotedChar s t = some i ↔ ∃ a b, s = a ++ t :: b ∧ i = a.length ∧ quoteState a = .out ∧ NoCut t a := by
  unfold findUnquotedChar
  rw [if_pos ha, unquotedCharAux_from ht s.length s (Nat.le_refl _), unquotedFrom_iff]
  simp only [Nat.zero_add, Bool.false_eq_true, if_false]
  rfl

/-- The first occurrence outside quotes. -/
theorem first_unquoted {t : Char} {s : Str} (h : ¬ NoCut t s) : ∃ a b, s = a ++ t :: b ∧ quoteState a = .out ∧ NoCut t a := by
  have key : ∀ n (a b : Str), a.length ≤ n → s = a ++ t :: b → quoteState a = .out →
      ∃ a b, s = a ++ t :: b ∧ quoteState a = .out ∧ NoCut t a := by
    intro n
    induction n with
    | zero =>
      intro a b hn hs hq
      have : a = [] := by simpa using hn
      subst this
      exact ⟨[], b, hs, hq, noCut_nil t⟩
    | succ n ih =>
      intro a b hn hs hq
      by_cases hc : NoCut t a
      · exact ⟨a, b, hs, hq, hc⟩
      · unfold NoCut at hc
        simp only [Classical.not_forall, Classical.not_not] at hc
        obtain ⟨a', b', rfl, hq'⟩ := hc
        exact ih a' (b' ++ t :: b) (by simp at hn; omega) (by rw [hs]; simp) hq'
  unfold NoCut at h
  simp only [Classical.not_forall, Classical.not_not] at h
  obtain ⟨a, b, hs, hq⟩ := h
  exact key a.length a b (Nat.le_refl _) hs hq

theorem hasColon_noCut (s : Str) : HasColon s ↔ ¬ NoCut ':' s := by
  unfold HasColon NoCut
  simp only [Classical.not_forall, Classical.not_not]
  constructor
  · rintro ⟨a, b, h1, h2⟩; exact ⟨a, b, h1, h2⟩
  · rintro ⟨a, b, h1, h2⟩; exact ⟨a, b, h1, h2⟩

theorem findUnquoted_isSome {t : Char} (ht : t ≠ '"') (ha : t.toNat < 128) (s : Str) :
    (findUnquotedChar s t).isSome = true ↔ ¬ NoCut t s := by
  constructor
  · intro h
    obtain ⟨i, hi⟩ := Option.isSome_iff_exists.mp h
    obtain ⟨a, b, rfl, _, hq, _⟩ := (findUnquotedChar_iff ht ha s i).mp hi
    intro hn
    exact hn a b rfl hq
  · intro h
    obtain ⟨a, b, h1, h2, h3⟩ := first_unquoted h
    rw [(findUnquotedChar_iff ht ha s a.length).mpr ⟨a, b, h1, rfl, h2, h3⟩]
    rfl

theorem isKeyValueContent_iff (s : Str) : isKeyValueContent s = true ↔ HasColon s := by
  rw [hasColon_noCut]
  exact findUnquoted_isSome (by decide) (by decide) s

theorem isArrayHeaderContent_iff (s : Str) : isArrayHeaderContent s = true ↔ VisibleFirst '[' s ∧ HasColon s := by
  unfold isArrayHeaderContent
  rw [Bool.and_eq_true, visibleFirst_iff (by decide), hasColon_noCut, findUnquoted_isSome (by decide) (by decide)]
  simp

theorem noCut_prefix {t : Char} {a b : Str} (h : NoCut t (a ++ b)) : NoCut t a := by
  intro x y hxy
  exact h x (y ++ b) (by rw [hxy]; simp)

theorem isDataRow_iff {d : Char} (hd : d = ',' ∨ d = '|' ∨ d = '\t') (s : Str) : isDataRow s d = true ↔ LooksLikeRow d s := by
  have hq := delim_ne_quote hd
  have ha : d.toNat < 128 := by rcases hd with rfl | rfl | rfl <;> decide
  have hcol : d ≠ ':' := by rcases hd with rfl | rfl | rfl <;> decide
  unfold isDataRow LooksLikeRow
  cases hc : findUnquotedChar s ':' with
  | none =>
    have : NoCut ':' s := by
      apply Classical.byContradiction
      intro hn
      have := (findUnquoted_isSome (by decide) (by decide) s).mpr hn
      rw [hc] at this; simp at this
    simp only [true_iff]
    exact Or.inl (by rw [hasColon_noCut]; exact fun h => h this)
  | some c =>
    obtain ⟨x, y, hs, rfl, hx1, hx2⟩ := (findUnquotedChar_iff (by decide) (by decide) s c).mp hc
    have hhas : HasColon s := ⟨x, y, hs, hx1⟩
    cases hdl : findUnquotedChar s d with
    | none =>
      have hnc : NoCut d s := by
        apply Classical.byContradiction
        intro hn
        have := (findUnquoted_isSome hq ha s).mpr hn
        rw [hdl] at this; simp at this
      simp only [Bool.false_eq_true, false_iff]
      rintro (h | ⟨a, b, h1, h2, _⟩)
      · exact h hhas
      · exact hnc a b h1 h2
    | some e =>
      obtain ⟨u, v, hs', rfl, hu1, hu2⟩ := (findUnquotedChar_iff hq ha s e).mp hdl
      simp only [decide_eq_true_eq]
      constructor
      · intro hlt
        refine Or.inr ⟨u, v, hs', hu1, ?_⟩
        rintro ⟨p, q, rfl, hp⟩
        -- a colon in `u` would be before the first one
        rw [hs] at hs'
        have hpl : p.length < x.length := by simp at hlt; omega
        have : ∃ r, x = p ++ ':' :: r := by
          have h1 : x ++ ':' :: y = p ++ (':' :: q ++ d :: v) := by rw [hs']; simp
          obtain ⟨r, hr, hr2⟩ | ⟨r, hr, hr2⟩ := List.append_eq_append_iff.mp h1
          · rw [hr] at hpl; simp at hpl; omega
          · cases r with
            | nil => simp at hr; rw [hr] at hpl; omega
            | cons z r => simp at hr2; exact ⟨r, by rw [hr, hr2.1]⟩
        obtain ⟨r, hr⟩ := this
        exact hx2 p r hr hp
      · rintro (h | ⟨a, b, h1, h2, h3⟩)
        · exact absurd hhas h
        · -- `a` comes before the first colon, and `u` is not longer than `a`
          have hax : a.length < x.length := by
            apply Classical.byContradiction
            intro hn
            rw [hs] at h1
            obtain ⟨r, hr, hr2⟩ | ⟨r, hr, hr2⟩ := List.append_eq_append_iff.mp h1
            · cases r with
              | nil => simp at hr2; exact hcol hr2.1.symm
              | cons z r => simp at hr2; exact h3 ⟨x, r, by rw [hr, ← hr2.1], hx1⟩
            · rw [hr] at hn; simp at hn; have : r = [] := by simpa using hn
              subst this
              simp at hr2
              exact hcol hr2.1
          have hua : u.length ≤ a.length := by
            apply Classical.byContradiction
            intro hn
            rw [h1] at hs'
            obtain ⟨r, hr, hr2⟩ | ⟨r, hr, hr2⟩ := List.append_eq_append_iff.mp hs'
            · cases r with
              | nil => rw [hr] at hn; simp at hn
              | cons z r => simp at hr2; exact hu2 a r (by rw [hr, ← hr2.1]) h2
            · rw [hr] at hn; simp at hn
          omega

theorem hyphenSpace_iff (s : Str) : startsWithDash s = true ↔ HyphenSpace s := by
  unfold HyphenSpace
  constructor
  · intro h
    unfold startsWithDash at h
    split at h
    · exact ⟨_, rfl⟩
    · simp at h
  · rintro ⟨t, rfl⟩; rfl

theorem isListItem_iff (s : Str) : isListItem s = true ↔ s = ['-'] ∨ HyphenSpace s := by
  unfold isListItem
  rw [Bool.or_eq_true, hyphenSpace_iff]
  simp only [beq_iff_eq]
  exact Or.comm

/-! ## Checks -/

theorem assertCount_iff (a e : Nat) (what : Counted) (strict : Bool) :
    ((strict = true → a = e) → assertCount a e what strict = .ok ()) ∧ (∀ u, assertCount a e what strict = .ok u → strict = true → a = e) := by
  refine ⟨fun h => ?_, fun u h => assertCount_ok h⟩
  unfold assertCount
  rw [if_neg]
  simpa using h

theorem noExtraItems_iff (rest : List Line) (d n : Nat) (strict : Bool) (u : Unit) :
    noExtraItems rest.head? d n strict = .ok u ↔ (strict = true → ¬ NextIs d HyphenSpace rest) := by
  unfold noExtraItems
  cases rest with
  | nil => simp [NextIs]
  | cons line rest =>
    simp only [List.head?_cons]
    have hn : NextIs d HyphenSpace (line :: rest) ↔ line.depth = d ∧ HyphenSpace line.content := by
      constructor
      · rintro ⟨l, m, h1, h2, h3⟩; simp at h1; obtain ⟨rfl, rfl⟩ := h1; exact ⟨h2, h3⟩
      · rintro ⟨h1, h2⟩; exact ⟨line, rest, rfl, h1, h2⟩
    rw [hn, ← hyphenSpace_iff]
    split
    · rename_i h; simp at h; simp [h]
    · rename_i h
      simp only [true_iff]
      rintro hs ⟨h1, h2⟩
      exact h (by simp [hs, h1, h2])

theorem noExtraRows_iff {c : Char} (hc : c = ',' ∨ c = '|' ∨ c = '\t') (rest : List Line) (d n : Nat) (strict : Bool) (u : Unit) :
    noExtraRows rest.head? d n c strict = .ok u ↔
      (strict = true → ¬ NextIs d (fun content => ¬ HyphenSpace content ∧ LooksLikeRow c content) rest) := by
  unfold noExtraRows
  cases rest with
  | nil => simp [NextIs]
  | cons line rest =>
    simp only [List.head?_cons]
    have hn : NextIs d (fun content => ¬ HyphenSpace content ∧ LooksLikeRow c content) (line :: rest) ↔
        line.depth = d ∧ ¬ HyphenSpace line.content ∧ LooksLikeRow c line.content := by
      constructor
      · rintro ⟨l, m, h1, h2, h3⟩; simp at h1; obtain ⟨rfl, rfl⟩ := h1; exact ⟨h2, h3⟩
      · rintro ⟨h1, h2⟩; exact ⟨line, rest, rfl, h1, h2⟩
    rw [hn, ← hyphenSpace_iff, ← isDataRow_iff hc]
    split
    · rename_i h; simp at h; simp [h]
    · rename_i h
      simp only [true_iff]
      rintro hs ⟨h1, h2, h3⟩
      exact h (by simp [hs, h1, h2, h3])

theorem checkBlanks_iff (ctx : Ctx) (table : Bool) (body : List Line) (u : Unit) :
    checkBlanks ctx table (body.head?.map (·.num)) (body.getLast?.map (·.num)) = .ok u ↔
      (ctx.strict = true → NoBlankWithin ctx.blanks body) := by
  unfold checkBlanks NoBlankWithin
  cases body with
  | nil => simp
  | cons line body =>
    simp only [List.head?_cons, Option.map_some]
    cases hl : (line :: body).getLast? with
    | none => simp at hl
    | some l =>
      simp only [Option.map_some, Option.some.injEq]
      unfold noBlankInRange
      cases hs : ctx.strict with
      | false => simp
      | true =>
        simp only [if_true]
        cases hf : ctx.blanks.find? (fun b => decide (line.num < b) && decide (b < l.num)) with
        | some b =>
          have h1 := List.find?_some hf
          simp only [Bool.and_eq_true, decide_eq_true_eq] at h1
          simp only [reduceCtorEq, false_iff]
          intro hh
          exact hh trivial line l rfl rfl b (List.mem_of_find?_eq_some hf) h1
        | none =>
          simp only [true_iff]
          rintro - first last rfl rfl b hb h1
          rw [List.find?_eq_none] at hf
          exact hf b hb (by simpa using h1)

end Toon
