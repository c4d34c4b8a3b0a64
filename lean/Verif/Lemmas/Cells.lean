import Verif.Spec.Cells
import Verif.Lemmas.NumGrammar
import Verif.Lemmas.DecodeAll

namespace Toon

/-! ## Splitting -/

theorem quoteState_snoc (s : Str) (c : Char) : quoteState (s ++ [c]) = (quoteState s).step c := by
  simp [quoteState]

theorem noCut_snoc {d : Char} {s : Str} {c : Char} (h : NoCut d s) (hc : c = d → quoteState s ≠ .out) : NoCut d (s ++ [c]) := by
  intro a b hab
  rcases List.eq_nil_or_concat b with rfl | ⟨b', x, rfl⟩
  · have := List.append_inj' hab rfl
    obtain ⟨rfl, h2⟩ := this
    simp at h2
    exact hc h2
  · rw [List.concat_eq_append, ← List.cons_append, ← List.append_assoc] at hab
    have := List.append_inj' hab rfl
    exact h a b' this.1

theorem noCut_nil (d : Char) : NoCut d [] := by intro a b h; simp at h

theorem delimitedAux_splits {d : Char} (hd : d ≠ '"') : ∀ n (text : Str) (values : List Str) (buffer : Str) (inQ : Bool),
    text.length ≤ n → NoCut d buffer → quoteState buffer = (if inQ then .inside else .out) →
    ∃ ps, SplitsInto d (buffer ++ text) ps ∧
      delimitedAux d text values buffer inQ = if buffer ++ text = [] ∧ values = [] then [] else values ++ ps.map trim := by
  intro n
  induction n with
  | zero =>
    intro text values buffer inQ hn hb hq
    have : text = [] := by simpa using hn
    subst this
    refine ⟨[buffer], by rw [List.append_nil]; exact .last hb, ?_⟩
    rw [delimitedAux]
    cases buffer <;> cases values <;> simp
  | succ n ih =>
    intro text values buffer inQ hn hb hq
    cases text with
    | nil =>
      refine ⟨[buffer], by rw [List.append_nil]; exact .last hb, ?_⟩
      rw [delimitedAux]
      cases buffer <;> cases values <;> simp
    | cons ch rest =>
      have hne : ¬ (buffer ++ ch :: rest = [] ∧ values = []) := by simp
      simp only [if_neg hne]
      have hl : rest.length ≤ n := by simpa using hn
      -- a step that adds `ch` to the buffer
      have step : ∀ inQ', NoCut d (buffer ++ [ch]) → quoteState (buffer ++ [ch]) = (if inQ' then .inside else .out) →
          ∃ ps, SplitsInto d (buffer ++ ch :: rest) ps ∧
            delimitedAux d rest values (buffer ++ [ch]) inQ' = values ++ ps.map trim := by
        intro inQ' h1 h2
        obtain ⟨ps, hp, he⟩ := ih rest values (buffer ++ [ch]) inQ' hl h1 h2
        refine ⟨ps, by simpa using hp, ?_⟩
        rw [he, if_neg (by simp)]
      rw [delimitedAux.eq_def]
      simp only
      by_cases h1 : (decide (ch = '\\') && inQ) = true
      · rw [if_pos h1]
        simp only [Bool.and_eq_true, decide_eq_true_eq] at h1
        obtain ⟨rfl, rfl⟩ := h1
        simp only [if_true] at hq
        cases rest with
        | nil =>
          refine ⟨[buffer ++ ['\\']], .last (noCut_snoc hb (by rw [hq]; simp)), ?_⟩
          simp [delimitedAux]
        | cons next rest' =>
          simp only
          have hb1 : NoCut d (buffer ++ ['\\']) := noCut_snoc hb (by rw [hq]; simp)
          have hq1 : quoteState (buffer ++ ['\\']) = .escaped := by rw [quoteState_snoc, hq]; decide
          have hb2 : NoCut d (buffer ++ ['\\', next]) := by
            rw [List.append_cons]; exact noCut_snoc hb1 (by rw [hq1]; simp)
          have hq2 : quoteState (buffer ++ ['\\', next]) = .inside := by
            rw [List.append_cons, quoteState_snoc, hq1]; rfl
          obtain ⟨ps, hp, he⟩ := ih rest' values (buffer ++ ['\\', next]) true
            (by simp only [List.length_cons] at hn; omega) hb2 (by simpa using hq2)
          refine ⟨ps, by simpa using hp, ?_⟩
          rw [he, if_neg (by simp)]
      · rw [if_neg h1]
        by_cases h2 : ch = '"'
        · rw [if_pos h2]
          subst h2
          refine step (!inQ) (noCut_snoc hb (fun h => absurd h.symm hd)) ?_
          rw [quoteState_snoc, hq]
          cases inQ <;> rfl
        · rw [if_neg h2]
          by_cases h3 : (decide (ch = d) && !inQ) = true
          · rw [if_pos h3]
            simp only [Bool.and_eq_true, decide_eq_true_eq, Bool.not_eq_true'] at h3
            obtain ⟨rfl, rfl⟩ := h3
            simp only [Bool.false_eq_true, if_false] at hq
            obtain ⟨ps, hp, he⟩ := ih rest (values ++ [trim buffer]) [] false hl (noCut_nil _) rfl
            refine ⟨buffer :: ps, .cut hb hq (by simpa using hp), ?_⟩
            rw [he, if_neg (by simp)]
            simp
          · rw [if_neg h3]
            simp only [Bool.and_eq_true, decide_eq_true_eq, Bool.not_eq_true', not_and, Bool.not_eq_false] at h3
            refine step inQ (noCut_snoc hb (fun h => by rw [hq, h3 h]; simp)) ?_
            rw [quoteState_snoc, hq]
            cases inQ with
            | false => simp [QState.step, h2]
            | true =>
              simp only [Bool.and_true, decide_eq_true_eq] at h1
              simp [QState.step, h2, h1]

theorem splitsInto_ne_nil {d : Char} {t : Str} {ps : List Str} (h : SplitsInto d t ps) : ps ≠ [] := by
  cases h <;> simp

/-- The cuts are determined. -/
theorem splitsInto_unique {d : Char} {t : Str} {ps qs : List Str} (h : SplitsInto d t ps) (h' : SplitsInto d t qs) :
    ps = qs := by
  induction h generalizing qs with
  | @last p hp =>
    cases h' with
    | last _ => rfl
    | @cut q rest qs' _ hq _ => exact absurd hq (hp q rest rfl)
  | @cut p rest ps hp hq _ ih =>
    generalize ht : p ++ d :: rest = t at h'
    cases h' with
    | last hp' => exact absurd hq (hp' p rest ht.symm)
    | @cut q rest' qs' hp' hq' h'' =>
      have : p = q ∧ rest = rest' := by
        rcases List.append_eq_append_iff.mp ht with ⟨a, rfl, ha⟩ | ⟨a, rfl, ha⟩
        · cases a with
          | nil => simp at ha; simp [ha]
          | cons x a =>
            simp only [List.cons_append, List.cons.injEq] at ha
            obtain ⟨rfl, _⟩ := ha
            exact absurd hq (hp' p a rfl)
        · cases a with
          | nil => simp at ha; simp [ha]
          | cons x a =>
            simp only [List.cons_append, List.cons.injEq] at ha
            obtain ⟨rfl, _⟩ := ha
            exact absurd hq' (hp q a rfl)
      obtain ⟨rfl, rfl⟩ := this
      rw [ih h'']

theorem parseDelimited_cells {d : Char} (hd : d ≠ '"') (text : Str) (cells : List Str) :
    parseDelimitedValues text d = cells ↔ Cells d text cells := by
  obtain ⟨ps, hp, he⟩ := delimitedAux_splits hd text.length text [] [] false (Nat.le_refl _) (noCut_nil d) rfl
  simp only [List.nil_append, and_true] at hp he
  unfold parseDelimitedValues Cells
  rw [he]
  by_cases ht : text = []
  · simp [ht, eq_comm]
  · simp only [ht, if_false, false_and, false_or, ne_eq, not_false_eq_true, true_and]
    constructor
    · rintro rfl; exact ⟨ps, hp, rfl⟩
    · rintro ⟨qs, hq, rfl⟩; rw [splitsInto_unique hp hq]

/-! ## Quoted tokens -/

/-- The quote found is the first bare one. -/
theorem closingQuoteAux_iff : ∀ n (s : Str) (i j : Nat), s.length ≤ n →
    (closingQuoteAux s i = some j ↔ ∃ body rest, s = body ++ '"' :: rest ∧ j = i + body.length ∧
      body.foldl QState.step .inside = .inside ∧ ∀ a b, body = a ++ b → a.foldl QState.step .inside ≠ .out) := by
  intro n
  induction n with
  | zero =>
    intro s i j h
    have : s = [] := by simpa using h
    subst this
    simp [closingQuoteAux]
  | succ n ih =>
    intro s i j h
    cases s with
    | nil => simp [closingQuoteAux]
    | cons c rest =>
      rw [closingQuoteAux.eq_def]
      simp only
      have hl : rest.length ≤ n := by simpa using h
      by_cases h1 : c = '\\'
      · subst h1
        simp only [if_true]
        cases rest with
        | nil =>
          simp only [reduceCtorEq, false_iff]
          rintro ⟨body, rest, h1, -⟩
          cases body <;> simp at h1
        | cons x rest' =>
          simp only
          rw [ih rest' (i + 2) j (by simp only [List.length_cons] at h; omega)]
          constructor
          · rintro ⟨body, r, rfl, rfl, h3, h4⟩
            refine ⟨'\\' :: x :: body, r, rfl, by simp; omega, h3, ?_⟩
            intro a b hab
            cases a with
            | nil => simp
            | cons y a =>
              simp only [List.cons_append, List.cons.injEq] at hab
              obtain ⟨rfl, hab⟩ := hab
              cases a with
              | nil => decide
              | cons z a =>
                simp only [List.cons_append, List.cons.injEq] at hab
                obtain ⟨rfl, hab⟩ := hab
                exact h4 a b hab
          · rintro ⟨body, r, h2, rfl, h3, h4⟩
            cases body with
            | nil => simp at h2
            | cons y body =>
              simp only [List.cons_append, List.cons.injEq] at h2
              obtain ⟨rfl, h2⟩ := h2
              cases body with
              | nil => exact absurd h3 (by decide)
              | cons z body =>
                simp only [List.cons_append, List.cons.injEq] at h2
                obtain ⟨rfl, h2⟩ := h2
                refine ⟨body, r, h2, by simp; omega, h3, ?_⟩
                intro a b hab
                exact h4 ('\\' :: x :: a) b (by rw [hab]; rfl)
      · rw [if_neg h1]
        by_cases h2 : c = '"'
        · subst h2
          simp only [if_true]
          constructor
          · intro h; simp at h; subst h
            refine ⟨[], rest, rfl, rfl, rfl, ?_⟩
            intro a b hab
            have : a = [] := by simpa using (List.append_eq_nil_iff.mp hab.symm).1
            subst this; simp
          · rintro ⟨body, r, hb, rfl, h3, h4⟩
            cases body with
            | nil => rfl
            | cons y body =>
              simp only [List.cons_append, List.cons.injEq] at hb
              obtain ⟨rfl, hb⟩ := hb
              exact absurd rfl (h4 ['"'] body rfl)
        · rw [if_neg h2, ih rest (i + 1) j hl]
          have hs : QState.step .inside c = .inside := by simp [QState.step, h1, h2]
          constructor
          · rintro ⟨body, r, rfl, rfl, h3, h4⟩
            refine ⟨c :: body, r, rfl, by simp; omega, by rw [List.foldl_cons, hs]; exact h3, ?_⟩
            intro a b hab
            cases a with
            | nil => simp
            | cons y a =>
              simp only [List.cons_append, List.cons.injEq] at hab
              obtain ⟨rfl, hab⟩ := hab
              rw [List.foldl_cons, hs]
              exact h4 a b hab
          · rintro ⟨body, r, hb, rfl, h3, h4⟩
            cases body with
            | nil => simp at hb; exact absurd hb.1 h2
            | cons y body =>
              simp only [List.cons_append, List.cons.injEq] at hb
              obtain ⟨rfl, hb⟩ := hb
              rw [List.foldl_cons, hs] at h3
              refine ⟨body, r, hb, by simp; omega, h3, ?_⟩
              intro a b hab
              have := h4 (c :: a) b (by rw [hab]; rfl)
              rwa [List.foldl_cons, hs] at this

/-- Denotation between quotes: a denotation whose quotes are all escaped. -/
theorem quotedDenotes_iff : ∀ n (body s : Str), body.length ≤ n → (QuotedDenotes body s ↔ Denotes body s ∧
    body.foldl QState.step .inside = .inside ∧ ∀ a b, body = a ++ b → a.foldl QState.step .inside ≠ .out) := by
  intro n
  induction n with
  | zero =>
    intro body s h
    have : body = [] := by simpa using h
    subst this
    constructor
    · intro h; cases h
      exact ⟨.nil, rfl, fun a b hab => by simp [(List.append_eq_nil_iff.mp hab.symm).1]⟩
    · rintro ⟨h, _⟩; cases h; exact .nil
  | succ n ih =>
    intro body s h
    constructor
    · intro hq
      cases hq with
      | nil => exact ⟨.nil, rfl, fun a b hab => by simp [(List.append_eq_nil_iff.mp hab.symm).1]⟩
      | @plain c e s h1 h2 hq =>
        obtain ⟨h3, h4, h5⟩ := (ih e s (by simpa using h)).mp hq
        have hs : QState.step .inside c = .inside := by simp [QState.step, h1, h2]
        refine ⟨.plain h1 h3, by rw [List.foldl_cons, hs]; exact h4, ?_⟩
        intro a b hab
        cases a with
        | nil => simp
        | cons y a =>
          simp only [List.cons_append, List.cons.injEq] at hab
          obtain ⟨rfl, hab⟩ := hab
          rw [List.foldl_cons, hs]
          exact h5 a b hab
      | @escape c x e s hx hq =>
        obtain ⟨h3, h4, h5⟩ := (ih e s (by simp only [List.length_cons] at h; omega)).mp hq
        refine ⟨.escape hx h3, h4, ?_⟩
        intro a b hab
        cases a with
        | nil => simp
        | cons y a =>
          simp only [List.cons_append, List.cons.injEq] at hab
          obtain ⟨rfl, hab⟩ := hab
          cases a with
          | nil => decide
          | cons z a =>
            simp only [List.cons_append, List.cons.injEq] at hab
            obtain ⟨rfl, hab⟩ := hab
            exact h5 a b hab
    · rintro ⟨hd, h4, h5⟩
      cases hd with
      | nil => exact .nil
      | @plain c e s h1 hd =>
        have h2 : c ≠ '"' := by
          rintro rfl
          exact h5 ['"'] e rfl rfl
        have hs : QState.step .inside c = .inside := by simp [QState.step, h1, h2]
        rw [List.foldl_cons, hs] at h4
        refine .plain h1 h2 ((ih e s (by simpa using h)).mpr ⟨hd, h4, ?_⟩)
        intro a b hab
        have := h5 (c :: a) b (by rw [hab]; rfl)
        rwa [List.foldl_cons, hs] at this
      | @escape c x e s hx hd =>
        refine .escape hx ((ih e s (by simp only [List.length_cons] at h; omega)).mpr ⟨hd, h4, ?_⟩)
        intro a b hab
        exact h5 ('\\' :: x :: a) b (by rw [hab]; rfl)

theorem findClosingQuote_iff (s : Str) (j : Nat) : findClosingQuote ('"' :: s) 0 = some j ↔
    ∃ body rest, s = body ++ '"' :: rest ∧ j = body.length + 1 ∧
      body.foldl QState.step .inside = .inside ∧ ∀ a b, body = a ++ b → a.foldl QState.step .inside ≠ .out := by
  unfold findClosingQuote
  simp only [List.drop_zero]
  rw [closingQuoteAux_iff s.length s _ j (Nat.le_refl _)]
  constructor
  · rintro ⟨body, rest, h1, rfl, h3⟩; exact ⟨body, rest, h1, by omega, h3⟩
  · rintro ⟨body, rest, h1, rfl, h3⟩; exact ⟨body, rest, h1, by omega, h3⟩

/-- A quoted literal. -/
theorem parseStringLiteral_iff (t v : Str) (ht : (trim t).head? = some '"') :
    parseStringLiteral t = .ok v ↔ ∃ body, trim t = '"' :: body ++ ['"'] ∧ QuotedDenotes body v := by
  unfold parseStringLiteral
  simp only [ht, if_true]
  cases hs : trim t with
  | nil => rw [hs] at ht; simp at ht
  | cons c s =>
    rw [hs] at ht
    simp at ht
    subst ht
    constructor
    · intro h
      split at h
      · simp at h
      · rename_i closing hc
        obtain ⟨body, rest, rfl, rfl, h3, h4⟩ := (findClosingQuote_iff s closing).mp hc
        split at h
        · simp at h
        · rename_i hcl
          have hr : rest = [] := by
            cases rest with
            | nil => rfl
            | cons x r => simp at hcl
          subst hr
          refine ⟨body, rfl, (quotedDenotes_iff body.length body v (Nat.le_refl _)).mpr ⟨?_, h3, h4⟩⟩
          have : slice ('"' :: (body ++ ['"'])) 1 (body.length + 1) = body := by simp [slice]
          rw [this] at h
          exact unescape_denotes h
    · rintro ⟨body, hb, hq⟩
      simp only [List.cons_append, List.cons.injEq, true_and] at hb
      subst hb
      obtain ⟨hd, h3, h4⟩ := (quotedDenotes_iff body.length body v (Nat.le_refl _)).mp hq
      have hc := (findClosingQuote_iff (body ++ ['"']) (body.length + 1)).mpr ⟨body, [], rfl, rfl, h3, h4⟩
      rw [hc]
      have : slice ('"' :: (body ++ ['"'])) 1 (body.length + 1) = body := by simp [slice]
      simp [this, denotes_unescape hd]

/-! ## Tokens -/

section
variable {F : Type} [F64 F]

theorem isBoolOrNull_iff (t : Str) : isBoolOrNull t = true ↔ t = "true".toList ∨ t = "false".toList ∨ t = "null".toList := by
  simp [isBoolOrNull, or_assoc]

theorem isNumericLiteral_iff (t : Str) (ht : trim t = t) : isNumericLiteral F t = true ↔
    NumGrammar t ∧ ∃ y : F, F64.parse t = some y ∧ F64.isFinite y = true := by
  unfold isNumericLiteral
  simp only [ht, Bool.and_eq_true, numericSyntax_grammar]
  cases hp : (F64.parse t : Option F) with
  | none => simp
  | some y => simp

theorem parsePrimitiveToken_iff (t : Str) (p : Prim F) : parsePrimitiveToken t = .ok p ↔ TokenMeans (trim t) p := by
  have htt := trim_trim t
  unfold parsePrimitiveToken
  simp only
  by_cases h0 : trim t = []
  · rw [if_pos (by simp [h0]), h0]
    constructor
    · intro h; cases h; exact .empty
    · intro h
      generalize hx : ([] : Str) = x at h
      cases h with
      | empty => rfl
      | quoted _ => simp at hx
      | number hg _ _ => exact absurd hx.symm (grammar_ne_nil hg)
      | bare hne _ _ _ _ _ => exact absurd hx.symm hne
      | _ => exact absurd hx (by decide)
  · rw [if_neg (by simpa using h0)]
    by_cases h1 : (trim t).head? = some '"'
    · rw [if_pos h1]
      have hl := fun v => parseStringLiteral_iff (trim t) v (by rw [htt]; exact h1)
      rw [htt] at hl
      constructor
      · intro h
        rcases hp : parseStringLiteral (trim t) with e | v
        · simp [hp] at h
        · simp only [hp, Except.ok.injEq] at h
          subst h
          obtain ⟨body, hb, hq⟩ := (hl v).mp hp
          rw [hb]; exact .quoted hq
      · intro h
        generalize hx : trim t = x at h h1 h0
        cases h with
        | empty => exact absurd rfl h0
        | quoted hq => rw [hx] at hl; rw [(hl _).mpr ⟨_, rfl, hq⟩]
        | number hg _ _ => exact absurd rfl (grammar_notWs hg (List.mem_of_mem_head? h1)).2
        | bare _ hne _ _ _ _ => exact absurd h1 hne
        | _ => exact absurd h1 (by decide)
    · rw [if_neg h1]
      by_cases h2 : isBoolOrNull (trim t) = true
      · rw [if_pos h2]
        have notNum : ¬ NumGrammar (trim t) := fun hg => by
          have := grammar_notLit hg; rw [h2] at this; simp at this
        constructor
        · intro h
          rcases (isBoolOrNull_iff _).mp h2 with h3 | h3 | h3
          · rw [if_pos h3] at h; cases h; rw [h3]; exact .true
          · rw [h3] at h; cases h; rw [h3]; exact .false
          · rw [h3] at h; cases h; rw [h3]; exact .null
        · intro h
          generalize hx : trim t = x at h h1 h0 h2 notNum
          cases h with
          | empty => exact absurd rfl h0
          | quoted hq => simp at h1
          | number hg _ _ => exact absurd hg notNum
          | bare _ _ ha hb hc _ => rcases (isBoolOrNull_iff _).mp h2 with h3 | h3 | h3 <;> contradiction
          | _ => rfl
      · rw [if_neg h2]
        rw [isBoolOrNull_iff] at h2
        simp only [not_or] at h2
        by_cases h3 : isNumericLiteral F (trim t) = true
        · rw [if_pos h3]
          obtain ⟨hg, y, hp, hf⟩ := (isNumericLiteral_iff (F := F) (trim t) htt).mp h3
          simp only [hp]
          constructor
          · intro h; cases h; exact .number hg hp hf
          · intro h
            generalize hx : trim t = x at h h1 h0 h2 hg hp
            cases h with
            | empty => exact absurd rfl h0
            | quoted hq => simp at h1
            | number hg' hp' _ => rw [hp] at hp'; cases hp'; rfl
            | bare _ _ _ _ _ hn => have := hn hg y hp; rw [hf] at this; simp at this
            | _ => simp at h2
        · rw [if_neg h3]
          constructor
          · intro h; cases h
            refine .bare h0 h1 h2.1 h2.2.1 h2.2.2 ?_
            intro hg y hp
            cases hf : F64.isFinite y with
            | false => rfl
            | true => exact absurd ((isNumericLiteral_iff (trim t) htt).mpr ⟨hg, y, hp, hf⟩) h3
          · intro h
            generalize hx : trim t = x at h h1 h0 h2 h3
            cases h with
            | empty => exact absurd rfl h0
            | quoted hq => simp at h1
            | number hg hp hf => exact absurd ((isNumericLiteral_iff _ (hx ▸ htt)).mpr ⟨hg, _, hp, hf⟩) h3
            | bare _ _ _ _ _ _ => rfl
            | _ => simp at h2
end

/-! ## Keys -/

theorem parseKeyToken_quoted_iff (s k : Str) (pos : Nat) (q : Bool) :
    parseKeyToken ('"' :: s) = .ok (k, pos, q) ↔
      q = true ∧ ∃ body rest, s = body ++ '"' :: ':' :: rest ∧ QuotedDenotes body k ∧ pos = body.length + 3 := by
  unfold parseKeyToken parseQuotedKey
  simp only [List.head?_cons, if_true]
  constructor
  · intro h
    rcases hc : findClosingQuote ('"' :: s) 0 with _ | closing
    · simp [hc] at h
    · obtain ⟨body, rest, rfl, rfl, h3, h4⟩ := (findClosingQuote_iff s closing).mp hc
      have hsl : slice ('"' :: (body ++ '"' :: rest)) 1 (body.length + 1) = body := by simp [slice]
      simp only [hc, hsl] at h
      rcases hu : unescapeString body with e | u
      · simp [hu] at h
      · simp only [hu] at h
        have hdrop : ('"' :: (body ++ '"' :: rest)).drop (body.length + 1 + 1) = rest := by simp
        rw [hdrop] at h
        split at h
        · simp at h
        · rename_i k' pos' hk
          split at hk
          · rename_i hr
            simp only [Except.ok.injEq, Prod.mk.injEq] at h hk
            obtain ⟨rfl, rfl⟩ := hk
            obtain ⟨rfl, rfl, rfl⟩ := h
            obtain ⟨r, rfl⟩ : ∃ r, rest = ':' :: r := by
              cases rest with
              | nil => simp at hr
              | cons x r => simp at hr; exact ⟨r, by rw [hr]⟩
            exact ⟨rfl, body, r, rfl,
              (quotedDenotes_iff body.length body u (Nat.le_refl _)).mpr ⟨unescape_denotes hu, h3, h4⟩, rfl⟩
          · simp at hk
  · rintro ⟨rfl, body, rest, rfl, hq, rfl⟩
    obtain ⟨hd, h3, h4⟩ := (quotedDenotes_iff body.length body k (Nat.le_refl _)).mp hq
    have hc := (findClosingQuote_iff (body ++ '"' :: ':' :: rest) (body.length + 1)).mpr ⟨body, ':' :: rest, rfl, rfl, h3, h4⟩
    have hsl : slice ('"' :: (body ++ '"' :: ':' :: rest)) 1 (body.length + 1) = body := by simp [slice]
    have hdrop : ('"' :: (body ++ '"' :: ':' :: rest)).drop (body.length + 1 + 1) = ':' :: rest := by simp
    rw [hc]
    simp only [hsl, denotes_unescape hd, hdrop, List.head?_cons, if_true]

theorem parseKeyToken_bare_iff (s k : Str) (pos : Nat) (q : Bool) (hs : s.head? ≠ some '"') :
    parseKeyToken s = .ok (k, pos, q) ↔
      q = false ∧ ∃ a rest, s = a ++ ':' :: rest ∧ ':' ∉ a ∧ k = trim a ∧ pos = a.length + 1 := by
  unfold parseKeyToken parseUnquotedKey
  rw [if_neg hs]
  constructor
  · intro h
    rcases hc : findChar ':' s with _ | i
    · simp [hc] at h
    · obtain ⟨a, b, rfl, ha, rfl⟩ := findChar_some hc
      simp [hc] at h
      obtain ⟨rfl, rfl, rfl⟩ := h
      exact ⟨rfl, a, b, rfl, ha, rfl, rfl⟩
  · rintro ⟨rfl, a, b, rfl, ha, rfl, rfl⟩
    rw [findChar_at ha]
    simp

/-! ## The quoting rule -/

theorem isNumericLike_iff (s : Str) (hs : trim s = s) : isNumericLike s = true ↔ NumberLike s := by
  have hbody : ∀ body : Str, (let ds := (spanDigits body).1
      if ds.isEmpty then false
      else if ds.length > 1 && ds.head? == some '0' then true
      else numTail (spanDigits body).2) = true ↔
        numBody body = true ∨ ∃ c rest, body = '0' :: c :: rest ∧ c.isDigit = true := by
    intro body
    simp only
    constructor
    · intro h
      split at h
      · simp at h
      · rename_i hne
        split at h
        · rename_i hz
          simp only [Bool.and_eq_true, decide_eq_true_eq, beq_iff_eq] at hz
          right
          obtain ⟨hl, hh⟩ := hz
          have happ := spanDigits_append body
          rcases hd : (spanDigits body).1 with _ | ⟨x, _ | ⟨c, ds⟩⟩
          · simp [hd] at hl
          · simp [hd] at hl
          · rw [hd] at hh happ
            simp at hh
            subst hh
            exact ⟨c, ds ++ (spanDigits body).2, happ.symm, spanDigits_fst body c (by rw [hd]; simp)⟩
        · rename_i hz
          left
          rw [numBody_iff]
          refine ⟨(spanDigits body).1, (spanDigits body).2, (spanDigits_append body).symm,
            ⟨by simpa using hne, spanDigits_fst body⟩, ?_, h⟩
          simp only [Bool.and_eq_true, decide_eq_true_eq, beq_iff_eq, not_and] at hz
          by_cases hl : (spanDigits body).1.length > 1
          · exact .inr (hz hl)
          · rcases hd : (spanDigits body).1 with _ | ⟨x, _ | ⟨c, ds⟩⟩
            · simp [hd] at hne
            · by_cases hx : x = '0'
              · exact .inl (by rw [hx])
              · exact .inr (by simpa using hx)
            · simp [hd] at hl
    · rintro (h | ⟨c, rest, rfl, hc⟩)
      · obtain ⟨int, tail, rfl, ⟨hne, hd⟩, hz, ht⟩ := (numBody_iff body).mp h
        rw [spanDigits_digits hd (numTail_head ht)]
        simp only [ht]
        rw [if_neg (by simpa using hne)]
        simp
      · have : (spanDigits ('0' :: c :: rest)).1 = '0' :: c :: (spanDigits rest).1 := by
          simp [spanDigits, hc]
        rw [this]
        simp
  unfold isNumericLike NumberLike
  rw [hs, ← numericSyntax_grammar, isNumericSyntax_eq]
  cases hm : stripMinus s with
  | none =>
    simp only [Bool.false_eq_true, false_or, false_iff]
    rintro ⟨sign, c, rest, rfl, hsg, _⟩
    rcases hsg with rfl | rfl <;> simp [stripMinus] at hm
  | some body =>
    simp only
    rw [hbody]
    refine or_congr Iff.rfl ?_
    cases s with
    | nil => simp [stripMinus] at hm
    | cons x r =>
      by_cases hx : x = '-'
      · subst hx
        cases r with
        | nil => simp [stripMinus] at hm
        | cons y r =>
          rw [stripMinus_minus] at hm
          simp only [Option.some.injEq] at hm
          subst hm
          constructor
          · rintro ⟨c, rest, h, hc⟩; exact ⟨['-'], c, rest, by rw [h]; rfl, .inr rfl, hc⟩
          · rintro ⟨sign, c, rest, h, hsg, hc⟩
            rcases hsg with rfl | rfl
            · simp at h
            · exact ⟨c, rest, by simpa using h, hc⟩
      · rw [stripMinus_cons hx] at hm
        simp only [Option.some.injEq] at hm
        subst hm
        constructor
        · rintro ⟨c, rest, h, hc⟩; exact ⟨[], c, rest, h, .inl rfl, hc⟩
        · rintro ⟨sign, c, rest, h, hsg, hc⟩
          rcases hsg with rfl | rfl
          · exact ⟨c, rest, h, hc⟩
          · simp at h; exact absurd h.1 hx

theorem isSafeUnquoted_plain (s : Str) (d : Char) : isSafeUnquoted s d = true ↔ PlainText s d := by
  rw [isSafeUnquoted_iff]
  constructor
  · intro h
    have hl := h.notLit
    rw [← Bool.not_eq_true, isBoolOrNull_iff] at hl
    simp only [not_or] at hl
    refine ⟨h.ne, h.edge.1, h.edge.2, hl.1, hl.2.1, hl.2.2, ?_, h.dash, ?_⟩
    · rw [← isNumericLike_iff s (trim_eq_self h.edge), h.notNum]; simp
    · intro c hc hm
      simp only [List.mem_cons, List.not_mem_nil, or_false] at hm
      rcases hm with rfl | rfl | rfl | rfl | rfl | rfl | rfl | rfl | rfl | rfl | rfl
      · exact h.colon hc
      · exact h.quote hc
      · exact h.backslash hc
      · exact h.lbracket hc
      · exact h.rbracket hc
      · exact h.lbrace hc
      · exact h.rbrace hc
      · exact h.lf hc
      · exact h.cr hc
      · exact h.tab hc
      · exact h.delim hc
  · rintro ⟨h1, h2, h3, h4, h5, h6, h7, h8, h9⟩
    have hedge : NoEdgeWs s := ⟨h2, h3⟩
    refine ⟨h1, hedge, ?_, ?_, ?_, ?_, ?_, ?_, ?_, ?_, ?_, ?_, ?_, ?_, ?_, h8⟩
    · rw [← Bool.not_eq_true, isBoolOrNull_iff]; exact fun h => h.elim h4 fun h => h.elim h5 h6
    · rw [← Bool.not_eq_true, isNumericLike_iff s (trim_eq_self hedge)]; exact h7
    all_goals intro hc; exact h9 _ hc (by simp)

theorem unquotedCharAux_none {t : Char} {s : Str} (h : t ∉ s) :
    ∀ (i : Nat) (q : Bool), unquotedCharAux t s i q = none := by
  intro i q
  fun_induction unquotedCharAux t s i q <;> simp_all

theorem findUnquotedChar_none {t : Char} {s : Str} (h : t ∉ s) : findUnquotedChar s t = none := by
  unfold findUnquotedChar
  rw [unquotedCharAux_none h]
  split <;> rfl

end Toon
