import Verif.Spec.Faults
import Verif.Lemmas.GrammarRoot

/-! The errors of the parts of a line against the faults. -/

namespace Toon

theorem bind_error {α β ε : Type} {x : Except ε α} {f : α → Except ε β} {e : ε} :
    (x >>= f) = .error e ↔ x = .error e ∨ ∃ a, x = .ok a ∧ f a = .error e := by
  cases x <;> simp [bind, Except.bind]

/-! ## Quoted literals -/

theorem literalBody_plain {c : Char} {rest : Str} (hc : c ≠ '\\') : LiteralBody (c :: rest) ↔ c ≠ '"' ∧ LiteralBody rest := by
  unfold LiteralBody
  simp only [List.foldl_cons, QState.step, if_neg hc]
  by_cases hq : c = '"'
  · subst hq
    simp only [if_true, ne_eq, not_true, false_and, iff_false]
    rintro ⟨_, h⟩
    exact h ['"'] rest rfl rfl
  · simp only [if_neg hq, ne_eq, hq, not_false_iff, true_and]
    constructor
    · rintro ⟨h1, h2⟩
      refine ⟨h1, fun a b hab => ?_⟩
      have := h2 (c :: a) b (by rw [hab]; rfl)
      simpa [QState.step, hc, hq] using this
    · rintro ⟨h1, h2⟩
      refine ⟨h1, fun a b hab => ?_⟩
      cases a with
      | nil => simp
      | cons x a =>
        simp only [List.cons_append, List.cons.injEq] at hab
        obtain ⟨rfl, hab⟩ := hab
        simpa [QState.step, hc, hq] using h2 a b hab

theorem literalBody_escape {x : Char} {rest : Str} : LiteralBody ('\\' :: x :: rest) ↔ LiteralBody rest := by
  unfold LiteralBody
  have hs : QState.inside.step '\\' = .escaped := by simp [QState.step]
  simp only [List.foldl_cons, hs, QState.step]
  constructor
  · rintro ⟨h1, h2⟩
    refine ⟨h1, fun a b hab => ?_⟩
    have := h2 ('\\' :: x :: a) b (by rw [hab]; rfl)
    simpa [QState.step] using this
  · rintro ⟨h1, h2⟩
    refine ⟨h1, fun a b hab => ?_⟩
    cases a with
    | nil => simp
    | cons y a =>
      simp only [List.cons_append, List.cons.injEq] at hab
      obtain ⟨rfl, hab⟩ := hab
      cases a with
      | nil => simp [QState.step]
      | cons z a =>
        simp only [List.cons_append, List.cons.injEq] at hab
        obtain ⟨rfl, hab⟩ := hab
        simpa [QState.step] using h2 a b hab

theorem literalBody_backslash : ¬ LiteralBody ['\\'] := by
  rintro ⟨h, _⟩
  simp [QState.step] at h

theorem unescapeChar_none (c : Char) : unescapeChar c = none ↔ ∀ x, (c, x) ∉ legalEscapes := by
  unfold unescapeChar
  constructor
  · intro h x hx
    simp only [legalEscapes, List.mem_cons, Prod.mk.injEq, List.not_mem_nil, or_false] at hx
    rcases hx with ⟨rfl, _⟩ | ⟨rfl, _⟩ | ⟨rfl, _⟩ | ⟨rfl, _⟩ | ⟨rfl, _⟩ <;> simp at h
  · intro h
    have hn : ∀ c' x, (c', x) ∈ legalEscapes → c ≠ c' := by
      intro c' x hx hcc
      subst hcc
      exact h x hx
    rw [if_neg (hn 'n' '\n' (by decide)), if_neg (hn 't' '\t' (by decide)), if_neg (hn 'r' '\r' (by decide)),
      if_neg (hn '\\' '\\' (by decide)), if_neg (hn '"' '"' (by decide))]

theorem unescapeChar_some (c x : Char) : unescapeChar c = some x → (c, x) ∈ legalEscapes := by
  unfold unescapeChar
  intro h
  repeat (split at h; (rename_i hc; subst hc; simp at h; subst h; decide))
  simp at h

theorem unescape_error {body : Str} (hb : LiteralBody body) (e : Err) : unescapeString body = .error e ↔
    ∃ a b c s, body = a ++ '\\' :: c :: b ∧ QuotedDenotes a s ∧ (∀ x, (c, x) ∉ legalEscapes) ∧ e = .badEscape (some c) := by
  fun_induction unescapeString body with
  | case1 => simp
  | case2 => exact absurd hb literalBody_backslash
  | case3 c rest h =>
    simp only [Except.error.injEq]
    have hl := (unescapeChar_none c).mp h
    constructor
    · rintro rfl; exact ⟨[], rest, c, [], rfl, .nil, hl, rfl⟩
    · rintro ⟨a, b, c', s, hab, hq, hl', rfl⟩
      cases hq with
      | nil => simp at hab; rw [hab.1]
      | plain hc _ _ => simp at hab; exact absurd hab.1.symm hc
      | escape hx _ => simp at hab; obtain ⟨rfl, _⟩ := hab; exact absurd hx (hl _)
  | case4 c rest x h e' he ih =>
    have ih := ih (literalBody_escape.mp hb)
    rw [he] at ih
    simp only [Except.error.injEq] at ih ⊢
    rw [ih]
    have hx := unescapeChar_some _ _ h
    constructor
    · rintro ⟨a, b, c', s, rfl, hq, hl, rfl⟩
      exact ⟨'\\' :: c :: a, b, c', x :: s, rfl, .escape hx hq, hl, rfl⟩
    · rintro ⟨a, b, c', s, hab, hq, hl, rfl⟩
      cases hq with
      | nil => simp at hab; obtain ⟨rfl, _⟩ := hab; exact absurd hx (hl _)
      | plain hc _ _ => simp at hab; exact absurd hab.1.symm hc
      | @escape c2 x2 a' s' hx2 hq => simp at hab; obtain ⟨rfl, rfl⟩ := hab; exact ⟨a', b, c', s', rfl, hq, hl, rfl⟩
  | case5 c rest x h out ho ih =>
    have ih := ih (literalBody_escape.mp hb)
    rw [ho] at ih
    simp only [reduceCtorEq, false_iff] at ih ⊢
    have hx := unescapeChar_some _ _ h
    rintro ⟨a, b, c', s, hab, hq, hl, rfl⟩
    cases hq with
    | nil => simp at hab; obtain ⟨rfl, _⟩ := hab; exact absurd hx (hl _)
    | plain hc _ _ => simp at hab; exact absurd hab.1.symm hc
    | @escape c2 x2 a' s' hx2 hq => simp at hab; obtain ⟨rfl, rfl⟩ := hab; exact ih ⟨a', b, c', s', rfl, hq, hl, rfl⟩
  | case6 ch rest hc e' he ih =>
    obtain ⟨hq0, hb'⟩ := (literalBody_plain hc).mp hb
    have ih := ih hb'
    rw [he] at ih
    simp only [Except.error.injEq] at ih ⊢
    rw [ih]
    constructor
    · rintro ⟨a, b, c', s, rfl, hq, hl, rfl⟩
      exact ⟨ch :: a, b, c', ch :: s, rfl, .plain hc hq0 hq, hl, rfl⟩
    · rintro ⟨a, b, c', s, hab, hq, hl, rfl⟩
      cases hq with
      | nil => simp at hab; exact absurd hab.1 hc
      | @plain c2 a' s' _ _ hq => simp at hab; obtain ⟨rfl, rfl⟩ := hab; exact ⟨a', b, c', s', rfl, hq, hl, rfl⟩
      | escape _ _ => simp at hab; exact absurd hab.1 hc
  | case7 ch rest hc out ho ih =>
    obtain ⟨hq0, hb'⟩ := (literalBody_plain hc).mp hb
    have ih := ih hb'
    rw [ho] at ih
    simp only [reduceCtorEq, false_iff] at ih ⊢
    rintro ⟨a, b, c', s, hab, hq, hl, rfl⟩
    cases hq with
    | nil => simp at hab; exact absurd hab.1 hc
    | @plain c2 a' s' _ _ hq => simp at hab; obtain ⟨rfl, rfl⟩ := hab; exact ih ⟨a', b, c', s', rfl, hq, hl, rfl⟩
    | escape _ _ => simp at hab; exact absurd hab.1 hc

theorem first_out : ∀ n (a : Str), a.length ≤ n → a.foldl QState.step .inside = .out →
    ∃ body r, a = body ++ '"' :: r ∧ LiteralBody body := by
  intro n
  induction n with
  | zero =>
    intro a hn h
    have : a = [] := by simpa using hn
    subst this
    simp at h
  | succ n ih =>
    intro a hn h
    rcases List.eq_nil_or_concat a with rfl | ⟨a', c, rfl⟩
    · simp at h
    · by_cases hp : ∃ x y, a' = x ++ y ∧ x.foldl QState.step .inside = .out
      · obtain ⟨x, y, rfl, hx⟩ := hp
        obtain ⟨body, r, rfl, hb⟩ := ih x (by simp at hn; omega) hx
        exact ⟨body, r ++ y ++ [c], by simp, hb⟩
      · have hall : ∀ x y, a' = x ++ y → x.foldl QState.step .inside ≠ .out := fun x y hxy hx => hp ⟨x, y, hxy, hx⟩
        have ha := hall a' [] (by simp)
        simp only [List.concat_eq_append, List.foldl_append, List.foldl_cons, List.foldl_nil] at h
        cases hs : a'.foldl QState.step .inside with
        | out => exact absurd hs ha
        | escaped => rw [hs] at h; simp [QState.step] at h
        | inside =>
          rw [hs] at h
          unfold QState.step at h
          by_cases hc : c = '"'
          · subst hc; exact ⟨a', [], by simp, hs, hall⟩
          · simp only [if_neg hc] at h
            split at h <;> simp at h

theorem neverClosed_iff (s : Str) : NeverClosed s ↔ ¬ ∃ body rest, s = body ++ '"' :: rest ∧ LiteralBody body := by
  unfold NeverClosed
  constructor
  · rintro h ⟨body, rest, rfl, hb⟩
    refine h (body ++ ['"']) rest (by simp) ?_
    rw [List.foldl_append, hb.1]
    simp [QState.step]
  · intro h a b hab hs
    obtain ⟨body, r, rfl, hb⟩ := first_out a.length a (Nat.le_refl _) hs
    exact h ⟨body, r ++ b, by rw [hab]; simp, hb⟩

theorem findClosing_none (s : Str) : findClosingQuote ('"' :: s) 0 = none ↔ NeverClosed s := by
  rw [neverClosed_iff]
  constructor
  · rintro h ⟨body, rest, hs, hb⟩
    rw [(findClosingQuote_iff s (body.length + 1)).mpr ⟨body, rest, hs, rfl, hb⟩] at h
    simp at h
  · intro h
    cases hc : findClosingQuote ('"' :: s) 0 with
    | none => rfl
    | some j =>
      obtain ⟨body, rest, hs, _, hb⟩ := (findClosingQuote_iff s j).mp hc
      exact absurd ⟨body, rest, hs, hb⟩ h

theorem literalFault_quote {t : Str} {e : Err} (h : LiteralFault t e) : t.head? = some '"' := by
  cases h <;> rfl

theorem closing_unique {b1 b2 r1 r2 : Str} (h1 : LiteralBody b1) (h2 : LiteralBody b2) (h : b1 ++ '"' :: r1 = b2 ++ '"' :: r2) :
    b1 = b2 ∧ r1 = r2 := by
  have e1 := (findClosingQuote_iff (b1 ++ '"' :: r1) (b1.length + 1)).mpr ⟨b1, r1, rfl, rfl, h1⟩
  have e2 := (findClosingQuote_iff (b2 ++ '"' :: r2) (b2.length + 1)).mpr ⟨b2, r2, rfl, rfl, h2⟩
  rw [h, e2] at e1
  simp at e1
  have := List.append_inj h e1.symm
  exact ⟨this.1, by simpa using this.2⟩

theorem stringLiteral_error (t : Str) (e : Err) : parseStringLiteral t = .error e ↔ LiteralFault (trim t) e := by
  by_cases ht : (trim t).head? = some '"'
  · unfold parseStringLiteral
    simp only [ht, if_true]
    cases hs : trim t with
    | nil => rw [hs] at ht; simp at ht
    | cons c s =>
      rw [hs] at ht
      simp at ht
      subst ht
      cases hc : findClosingQuote ('"' :: s) 0 with
      | none =>
        have hn := (findClosing_none s).mp hc
        have hno := (neverClosed_iff s).mp hn
        simp only [Except.error.injEq]
        constructor
        · rintro rfl; exact .unclosed hn
        · intro h
          generalize hg : '"' :: s = g at h
          cases h with
          | unclosed _ => rfl
          | followed hb _ => simp at hg; exact absurd ⟨_, _, hg, hb⟩ hno
          | @escape a b _ c hb _ _ => simp only [List.cons_append, List.cons.injEq, true_and] at hg; exact absurd ⟨_, [], hg, hb⟩ hno
      | some j =>
        obtain ⟨body, rest, rfl, rfl, hb⟩ := (findClosingQuote_iff s j).mp hc
        have hb : LiteralBody body := hb
        simp only
        have closed : ¬ NeverClosed (body ++ '"' :: rest) := fun h => (neverClosed_iff _).mp h ⟨_, _, rfl, hb⟩
        by_cases hr : rest = []
        · subst hr
          rw [if_neg (by simp)]
          have : slice ('"' :: (body ++ ['"'])) 1 (body.length + 1) = body := by simp [slice]
          rw [this, unescape_error hb]
          constructor
          · rintro ⟨a, b, c, s, rfl, hq, hl, rfl⟩; exact .escape hb hq hl
          · intro h
            generalize hg : '"' :: (body ++ ['"']) = g at h
            cases h with
            | unclosed h => simp at hg; subst hg; exact absurd h closed
            | @followed b2 r2 h2 hne =>
              simp only [List.cons_append, List.cons.injEq, true_and] at hg
              exact absurd (closing_unique hb h2 hg).2.symm hne
            | @escape a b s c hb2 hq hl =>
              simp only [List.cons_append, List.cons.injEq, true_and] at hg
              exact ⟨a, b, c, s, (closing_unique hb hb2 hg).1, hq, hl, rfl⟩
        · rw [if_pos (by simp; exact hr)]
          simp only [Except.error.injEq]
          constructor
          · rintro rfl; exact .followed hb hr
          · intro h
            generalize hg : '"' :: (body ++ '"' :: rest) = g at h
            cases h with
            | unclosed h => simp at hg; subst hg; exact absurd h closed
            | followed _ _ => rfl
            | @escape a b s c hb2 hq hl =>
              simp only [List.cons_append, List.cons.injEq, true_and] at hg
              exact absurd (closing_unique hb hb2 hg).2 hr
  · unfold parseStringLiteral
    simp only [ht, if_false]
    constructor
    · intro h; simp at h
    · intro h; exact absurd (literalFault_quote h) ht

/-! ## Tokens, rows, columns -/

section
variable {F : Type} [F64 F]

theorem primitive_error (t : Str) (e : Err) : parsePrimitiveToken (F := F) t = .error e ↔ LiteralFault (trim t) e := by
  unfold parsePrimitiveToken
  simp only
  by_cases h0 : trim t = []
  · rw [if_pos (by simp [h0]), h0]
    constructor
    · intro h; simp at h
    · intro h; cases h
  · rw [if_neg (by simpa using h0)]
    by_cases hq : (trim t).head? = some '"'
    · rw [if_pos hq]
      have := stringLiteral_error (trim t) e
      rw [trim_trim] at this
      rw [← this]
      cases parseStringLiteral (trim t) <;> simp
    · rw [if_neg hq]
      constructor
      · intro h
        split at h
        · split at h
          · simp at h
          · split at h <;> simp at h
        · split at h
          · split at h <;> simp at h
          · simp at h
      · intro h; exact absurd (literalFault_quote h) hq

theorem row_error (cells : List Str) (hc : ∀ c ∈ cells, trim c = c) (e : Err) :
    mapRowValues (F := F) cells = .error e ↔ TokenFault F cells e := by
  induction cells with
  | nil =>
    simp only [mapRowValues, reduceCtorEq, false_iff]
    rintro ⟨good, bad, more, prims, h, _⟩
    simp at h
  | cons c cs ih =>
    have ih := ih (fun x hx => hc x (by simp [hx]))
    have hp := primitive_error (F := F) c
    rw [hc c (by simp)] at hp
    have ho := fun p => parsePrimitiveToken_iff (F := F) c p
    rw [hc c (by simp)] at ho
    rw [mapRowValues]
    cases h1 : parsePrimitiveToken (F := F) c with
    | error e1 =>
      simp only [Except.error.injEq]
      constructor
      · rintro rfl; exact ⟨[], c, cs, [], rfl, .nil, (hp _).mp h1⟩
      · rintro ⟨good, bad, more, prims, hab, hg, hf⟩
        cases hg with
        | nil =>
          simp only [List.nil_append, List.cons.injEq] at hab
          rw [← hab.1, ← hp, h1] at hf
          simpa using hf
        | cons hx _ =>
          simp only [List.cons_append, List.cons.injEq] at hab
          rw [← hab.1, ← ho, h1] at hx
          simp at hx
    | ok p =>
      simp only
      refine Iff.trans (b := mapRowValues (F := F) cs = .error e) (by cases mapRowValues (F := F) cs <;> simp) ?_
      rw [ih]
      constructor
      · rintro ⟨good, bad, more, prims, rfl, hg, hf⟩
        exact ⟨c :: good, bad, more, p :: prims, rfl, .cons ((ho _).mp h1) hg, hf⟩
      · rintro ⟨good, bad, more, prims, hab, hg, hf⟩
        cases hg with
        | nil =>
          simp only [List.nil_append, List.cons.injEq] at hab
          rw [← hab.1, ← hp, h1] at hf
          simp at hf
        | cons hx hg =>
          simp only [List.cons_append, List.cons.injEq] at hab
          exact ⟨_, bad, more, _, hab.2, hg, hf⟩

end

theorem fields_error (cells : List Str) (hc : ∀ c ∈ cells, trim c = c) (e : Err) :
    parseFields cells = .error e ↔ ColumnFault cells e := by
  induction cells with
  | nil =>
    simp only [parseFields, reduceCtorEq, false_iff]
    rintro ⟨good, bad, more, names, h, _⟩
    simp at h
  | cons c cs ih =>
    have ih := ih (fun x hx => hc x (by simp [hx]))
    have htc := hc c (by simp)
    have hp := stringLiteral_error (trim c)
    rw [trim_trim, htc] at hp
    have ho := nameMeans_iff c htc
    rw [htc] at ho
    rw [parseFields, htc]
    cases h1 : parseStringLiteral c with
    | error e1 =>
      simp only [Except.error.injEq]
      constructor
      · rintro rfl; exact ⟨[], c, cs, [], rfl, .nil, (hp _).mp h1⟩
      · rintro ⟨good, bad, more, names, hab, hg, hf⟩
        cases hg with
        | nil =>
          simp only [List.nil_append, List.cons.injEq] at hab
          rw [← hab.1, ← hp, h1] at hf
          simpa using hf
        | cons hx _ =>
          simp only [List.cons_append, List.cons.injEq] at hab
          rw [← hab.1, ← ho, h1] at hx
          simp at hx
    | ok name =>
      simp only
      refine Iff.trans (b := parseFields cs = .error e) (by cases parseFields cs <;> simp) ?_
      rw [ih]
      constructor
      · rintro ⟨good, bad, more, names, rfl, hg, hf⟩
        exact ⟨c :: good, bad, more, _ :: names, rfl, .cons ((ho _).mp ⟨name, h1, rfl⟩) hg, hf⟩
      · rintro ⟨good, bad, more, names, hab, hg, hf⟩
        cases hg with
        | nil =>
          simp only [List.nil_append, List.cons.injEq] at hab
          rw [← hab.1, ← hp, h1] at hf
          simp at hf
        | cons hx hg =>
          simp only [List.cons_append, List.cons.injEq] at hab
          exact ⟨_, bad, more, _, hab.2, hg, hf⟩

theorem columns_error {d : Char} (hd : d ≠ '"') (cols : Option Str) (e : Err) :
    columnsResult cols d = .error e ↔ ∃ cs cells, cols = some cs ∧ Cells d cs cells ∧ ColumnFault cells e := by
  unfold columnsResult
  cases cols with
  | none => simp
  | some cs =>
    have hcells := parseDelimited_cells hd cs
    have hc := (hcells _).mp rfl
    simp only
    refine Iff.trans (b := parseFields (parseDelimitedValues cs d) = .error e) (by cases parseFields (parseDelimitedValues cs d) <;> simp) ?_
    rw [fields_error _ (cells_trimmed hc)]
    constructor
    · intro h; exact ⟨cs, _, rfl, hc, h⟩
    · rintro ⟨cs', cells, h1, h2, h3⟩
      simp only [Option.some.injEq] at h1
      subst h1
      rw [(hcells _).mpr h2]
      exact h3

/-! ## Headers -/

theorem quoteClosed_not (content : Str) : ¬ QuoteClosed content ↔ ∃ ws text, BlankLine ws ∧ NeverClosed text ∧ content = ws ++ '"' :: text := by
  unfold QuoteClosed
  constructor
  · intro h
    simp only [Classical.not_imp] at h
    obtain ⟨⟨ws, rest, hb, rfl⟩, hn⟩ := h
    refine ⟨ws, rest, hb, (neverClosed_iff _).mpr ?_, rfl⟩
    rintro ⟨body, r, rfl, hl⟩
    exact hn ⟨ws, body, r, hb, hl, by simp⟩
  · rintro ⟨ws, text, hb, hn, rfl⟩ h
    obtain ⟨ws', body, rest, hb', hl, he⟩ := h ⟨ws, text, hb, rfl⟩
    have h1 := trimStart_quote (r := text) hb
    have h2 := trimStart_quote (r := body ++ '"' :: rest) hb'
    rw [he, show ws' ++ '"' :: body ++ '"' :: rest = ws' ++ '"' :: (body ++ '"' :: rest) by simp, h2] at h1
    simp only [List.cons.injEq, true_and] at h1
    exact (neverClosed_iff _).mp hn ⟨body, rest, h1.symm, hl⟩

theorem header_unclosed {content : Str} (h : ¬ QuoteClosed content) : parseArrayHeaderLine content ',' = .error .unterminatedString := by
  obtain ⟨ws, text, hb, hn, rfl⟩ := (quoteClosed_not content).mp h
  unfold parseArrayHeaderLine findBracketStart
  simp only [trimStart_quote hb, List.head?_cons, if_true, (findClosing_none text).mpr hn]

theorem headerKey_error (pre rest : Str) (e : Err) : parseHeaderKey (pre ++ rest) pre.length = .error e ↔ LiteralFault (trim pre) e := by
  unfold parseHeaderKey
  rw [List.take_left]
  simp only
  by_cases h0 : pre.length > 0
  · rw [if_pos h0]
    have hp := stringLiteral_error (trim pre) e
    rw [trim_trim] at hp
    by_cases hq : (trim pre).head? = some '"'
    · rw [if_pos hq, ← hp]
      cases parseStringLiteral (trim pre) <;> simp
    · rw [if_neg hq]
      constructor
      · intro h; split at h <;> simp at h
      · intro h; exact absurd (literalFault_quote h) hq
  · rw [if_neg h0]
    have : pre = [] := by simpa using h0
    subst this
    constructor
    · intro h; simp at h
    · intro h; exact absurd (literalFault_quote h) (by simp [trim, trimStart, trimEnd])

theorem header_error (content : Str) (e : Err) : parseArrayHeaderLine content ',' = .error e ↔ HeaderFault content e := by
  constructor
  · intro hp
    by_cases hs : ∃ pre seg cols after, HeaderShape content pre seg cols after
    · obtain ⟨pre, seg, cols, after, hs⟩ := hs
      rw [parseHeader_shape hs] at hp
      obtain ⟨r, rfl⟩ := headerShape_pre hs
      split at hp
      · rename_i e' hk
        simp only [Except.error.injEq] at hp
        subst hp
        exact .key hs ((headerKey_error pre r _).mp hk)
      · rename_i key kq hk
        have hk := (headerKey_iff pre r _ _).mp hk
        split at hp
        · simp at hp
        · rename_i length delim hl
          have hl := (lengthMeans_iff _ _ _).mp hl
          split at hp
          · rename_i hcap
            simp only [Except.error.injEq] at hp
            subst hp
            exact .length hs hk hl hcap
          · rename_i hcap
            split at hp
            · rename_i e' hf
              simp only [Except.error.injEq] at hp
              subst hp
              obtain ⟨cs, cells, rfl, hc, hf⟩ := (columns_error (delim_ne_quote (lengthMeans_delim hl)) _ _).mp hf
              exact .columns hs hk hl (by simpa [maxDeclaredLength] using hcap) hc hf
            · simp at hp
    · have hno := parseHeader_noShape (content := content) (fun pre seg cols after hh => hs ⟨pre, seg, cols, after, hh⟩)
      by_cases hq : QuoteClosed content
      · rw [hno.1 hq] at hp; simp at hp
      · rw [header_unclosed hq] at hp
        simp only [Except.error.injEq] at hp
        subst hp
        obtain ⟨ws, text, hb, hn, rfl⟩ := (quoteClosed_not content).mp hq
        exact .unclosed hb hn
  · intro h
    cases h with
    | unclosed hb hn => exact header_unclosed ((quoteClosed_not _).mpr ⟨_, _, hb, hn, rfl⟩)
    | @key _ pre _ _ _ _ hs hf =>
      rw [parseHeader_shape hs]
      obtain ⟨r, rfl⟩ := headerShape_pre hs
      rw [(headerKey_error pre r e).mpr hf]
    | @length _ pre _ _ _ _ _ _ _ hs hk hl hn =>
      rw [parseHeader_shape hs]
      obtain ⟨r, rfl⟩ := headerShape_pre hs
      rw [(headerKey_iff pre r _ _).mpr hk]
      simp only
      rw [(lengthMeans_iff _ _ _).mpr hl]
      simp only
      rw [if_pos (by simpa [maxDeclaredLength] using hn)]
    | @columns _ pre _ _ _ _ _ _ _ _ _ hs hk hl hn hc hf =>
      rw [parseHeader_shape hs]
      obtain ⟨r, rfl⟩ := headerShape_pre hs
      rw [(headerKey_iff pre r _ _).mpr hk]
      simp only
      rw [(lengthMeans_iff _ _ _).mpr hl]
      simp only
      rw [if_neg (by simpa [maxDeclaredLength] using hn),
        (columns_error (delim_ne_quote (lengthMeans_delim hl)) _ e).mpr ⟨_, _, rfl, hc, hf⟩]

/-! ## Keys -/

theorem quoteClosed_head {s : Str} (h : QuoteClosed ('"' :: s)) : ∃ body rest, s = body ++ '"' :: rest ∧ LiteralBody body := by
  apply Classical.byContradiction
  intro hn
  exact absurd h ((quoteClosed_not _).mpr ⟨[], s, by simp [BlankLine], (neverClosed_iff s).mpr hn, rfl⟩)

theorem header_ok_closed {content : Str} {hdr : Option Header} (h : parseArrayHeaderLine content ',' = .ok hdr) : QuoteClosed content := by
  apply Classical.byContradiction
  intro hn
  rw [header_unclosed hn] at h
  simp at h

theorem findChar_none_iff (t : Char) (s : Str) : findChar t s = none ↔ t ∉ s := by
  constructor
  · intro h hm
    obtain ⟨a, b, rfl, ha⟩ := List.append_of_mem hm |>.elim (fun a ⟨b, h⟩ => by
      have := List.eq_append_cons_of_mem hm
      obtain ⟨as, bs, h1, h2⟩ := this
      exact (⟨as, bs, h1, h2⟩ : ∃ a b, s = a ++ t :: b ∧ t ∉ a))
    rw [findChar_at ha] at h
    simp at h
  · intro h
    cases hf : findChar t s with
    | none => rfl
    | some i =>
      obtain ⟨a, b, rfl, _⟩ := findChar_some hf
      simp at h

theorem key_error_of {content : Str} (hc : ∀ s, content = '"' :: s → ∃ body rest, s = body ++ '"' :: rest ∧ LiteralBody body)
    (e : Err) : parseKeyToken content = .error e ↔ KeyFault content e := by
  unfold parseKeyToken
  by_cases hq : content.head? = some '"'
  · rw [if_pos hq]
    obtain ⟨s, rfl⟩ : ∃ s, content = '"' :: s := by
      cases content with
      | nil => simp at hq
      | cons c s => simp at hq; exact ⟨s, by rw [hq]⟩
    obtain ⟨body, rest, rfl, hb⟩ := hc s rfl
    have hcl := (findClosingQuote_iff (body ++ '"' :: rest) (body.length + 1)).mpr ⟨body, rest, rfl, rfl, hb⟩
    have hsl : slice ('"' :: (body ++ '"' :: rest)) 1 (body.length + 1) = body := by simp [slice]
    have hdr : ('"' :: (body ++ '"' :: rest)).drop (body.length + 1 + 1) = rest := by simp
    unfold parseQuotedKey
    rw [hcl]
    simp only [hsl, hdr]
    have lit : ∀ e, LiteralFault ('"' :: body ++ ['"']) e ↔ unescapeString body = .error e := by
      intro e
      rw [unescape_error hb]
      constructor
      · intro h
        generalize hg : '"' :: body ++ ['"'] = g at h
        cases h with
        | unclosed h => simp at hg; subst hg; exact absurd ⟨_, _, rfl, hb⟩ ((neverClosed_iff _).mp h)
        | followed h2 hne =>
          simp only [List.cons_append, List.cons.injEq, true_and] at hg
          exact absurd (closing_unique hb h2 hg).2.symm hne
        | @escape a b s c hb2 hq hl =>
          simp only [List.cons_append, List.cons.injEq, true_and] at hg
          exact ⟨a, b, c, s, (closing_unique hb hb2 hg).1, hq, hl, rfl⟩
      · rintro ⟨a, b, c, s, rfl, h1, h2, rfl⟩; exact .escape hb h1 h2
    have den : ∀ k, QuotedDenotes body k ↔ unescapeString body = .ok k := fun k =>
      ⟨fun h => denotes_unescape ((quotedDenotes_iff body.length body k (Nat.le_refl _)).mp h).1,
       fun h => (quotedDenotes_iff body.length body k (Nat.le_refl _)).mpr ⟨unescape_denotes h, hb⟩⟩
    cases hu : unescapeString body with
    | error e' =>
      simp only [Except.error.injEq]
      constructor
      · rintro rfl; exact .literal hb ((lit _).mpr hu)
      · intro h
        generalize hg : '"' :: (body ++ '"' :: rest) = g at h
        cases h with
        | bare h _ => subst hg; simp at h
        | literal hb2 hf =>
          simp only [List.cons_append, List.cons.injEq, true_and] at hg
          obtain ⟨rfl, _⟩ := closing_unique hb hb2 hg
          rw [lit, hu] at hf
          simpa using hf
        | quoted hd _ =>
          simp only [List.cons_append, List.cons.injEq, true_and] at hg
          obtain ⟨rfl, _⟩ := closing_unique hb (quotedDenotes_literal hd) hg
          rw [den, hu] at hd
          simp at hd
    | ok k =>
      simp only
      by_cases hcol : rest.head? = some ':'
      · rw [if_pos hcol]
        simp only [reduceCtorEq, false_iff]
        intro h
        generalize hg : '"' :: (body ++ '"' :: rest) = g at h
        cases h with
        | bare h _ => subst hg; simp at h
        | literal hb2 hf =>
          simp only [List.cons_append, List.cons.injEq, true_and] at hg
          obtain ⟨rfl, _⟩ := closing_unique hb hb2 hg
          rw [lit, hu] at hf
          simp at hf
        | quoted hd hne =>
          simp only [List.cons_append, List.cons.injEq, true_and] at hg
          obtain ⟨rfl, rfl⟩ := closing_unique hb (quotedDenotes_literal hd) hg
          exact hne hcol
      · rw [if_neg hcol]
        simp only [Except.error.injEq]
        constructor
        · rintro rfl; exact .quoted ((den k).mpr hu) hcol
        · intro h
          generalize hg : '"' :: (body ++ '"' :: rest) = g at h
          cases h with
          | bare h _ => subst hg; simp at h
          | literal hb2 hf =>
            simp only [List.cons_append, List.cons.injEq, true_and] at hg
            obtain ⟨rfl, _⟩ := closing_unique hb hb2 hg
            rw [lit, hu] at hf
            simp at hf
          | quoted hd hne => rfl
  · rw [if_neg hq]
    unfold parseUnquotedKey
    cases hf : findChar ':' content with
    | none =>
      have := (findChar_none_iff _ _).mp hf
      simp only [Except.error.injEq]
      constructor
      · rintro rfl; exact .bare hq this
      · intro h
        cases h with
        | bare _ _ => rfl
        | literal _ _ => simp at hq
        | quoted _ _ => simp at hq
    | some i =>
      simp only [reduceCtorEq, false_iff]
      intro h
      cases h with
      | bare _ h => rw [(findChar_none_iff _ _).mpr h] at hf; simp at hf
      | literal _ _ => simp at hq
      | quoted _ _ => simp at hq

theorem key_error {content : Str} (hc : QuoteClosed content) (e : Err) : parseKeyToken content = .error e ↔ KeyFault content e :=
  key_error_of (fun s hs => quoteClosed_head (hs ▸ hc)) e

end Toon
