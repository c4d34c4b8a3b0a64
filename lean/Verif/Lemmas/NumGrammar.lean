import Verif.Lemmas.Tokens
import Verif.Lemmas.Written
import Verif.Spec.Tokens

/-! The numeric scanner accepts exactly the grammar; unescaping accepts exactly the legal escapes. -/

namespace Toon

/-! ## Escapes -/

theorem unescapeChar_iff (x c : Char) : unescapeChar x = some c ↔ (x, c) ∈ legalEscapes := by
  constructor
  · intro h
    unfold unescapeChar at h
    simp only [legalEscapes, List.mem_cons, Prod.mk.injEq, List.not_mem_nil, or_false]
    split at h
    · simp at h; simp_all [eq_comm]
    · split at h
      · simp at h; simp_all [eq_comm]
      · split at h
        · simp at h; simp_all [eq_comm]
        · split at h
          · simp at h; simp_all [eq_comm]
          · split at h
            · simp at h; simp_all [eq_comm]
            · simp at h
  · intro h
    simp only [legalEscapes, List.mem_cons, Prod.mk.injEq, List.not_mem_nil, or_false] at h
    rcases h with ⟨rfl, rfl⟩ | ⟨rfl, rfl⟩ | ⟨rfl, rfl⟩ | ⟨rfl, rfl⟩ | ⟨rfl, rfl⟩ <;> rfl

theorem unescape_denotes {e s : Str} (h : unescapeString e = .ok s) : Denotes e s := by
  fun_induction unescapeString e generalizing s with
  | case1 => simp at h; subst h; exact .nil
  | case2 => simp at h
  | case3 => simp at h
  | case4 => simp at h
  | case5 next rest' c hc out ho ih =>
    simp at h; subst h
    exact .escape ((unescapeChar_iff _ _).mp hc) (ih ho)
  | case6 => simp at h
  | case7 ch rest hc out ho ih =>
    simp at h; subst h
    exact .plain hc (ih ho)

theorem denotes_unescape {e s : Str} (h : Denotes e s) : unescapeString e = .ok s := by
  induction h with
  | nil => rfl
  | plain hc _ ih => rw [unescapeString.eq_def]; simp [hc, ih]
  | escape hx _ ih =>
    rw [unescapeString.eq_def]
    simp [(unescapeChar_iff _ _).mpr hx, ih]

theorem escape_quotedBody (s : Str) : QuotedBody (escapeString s) := by
  induction s with
  | nil => exact .nil
  | cons c s ih =>
    rw [escapeString_cons]
    rcases escapeChar_cases c with ⟨h, h1, h2, h3, h4, h5⟩ | ⟨d, h, hu, _⟩
    · rw [h]; exact .plain (by simp [h1, h2, h3, h4, h5]) ih
    · rw [h]; exact .escape ((unescapeChar_iff _ _).mp hu) ih

/-! ## Numbers -/

theorem isDigit_iff_ne {c : Char} (h : c.isDigit = true) : c ≠ '.' ∧ c ≠ 'e' ∧ c ≠ 'E' ∧ c ≠ '+' ∧ c ≠ '-' := by
  refine ⟨?_, ?_, ?_, ?_, ?_⟩ <;> rintro rfl <;> exact absurd h (by decide)

/-- The exponent part. -/
def ExpPart (exp : Str) : Prop :=
  exp = [] ∨ ∃ e sg ds, exp = e :: (sg ++ ds) ∧ (e = 'e' ∨ e = 'E') ∧
      (sg = [] ∨ sg = ['+'] ∨ sg = ['-']) ∧ Digits ds

/-- The scanner of the exponent. -/
def expScan (r : Str) : Bool :=
  match r with
  | [] => true
  | c :: r1 =>
    if c == 'e' || c == 'E' then
      let r2 := match r1 with
        | '+' :: r2 => r2
        | '-' :: r2 => r2
        | _ => r1
      !(spanDigits r2).1.isEmpty && (spanDigits r2).2.isEmpty
    else false

theorem digits_iff (r : Str) : (!(spanDigits r).1.isEmpty && (spanDigits r).2.isEmpty) = true ↔ Digits r := by
  constructor
  · intro h
    simp only [Bool.and_eq_true, Bool.not_eq_true', List.isEmpty_iff] at h
    have := spanDigits_append r
    rw [h.2, List.append_nil] at this
    refine ⟨?_, ?_⟩
    · rintro rfl
      simp [spanDigits] at h
    · rw [← this]; exact spanDigits_fst r
  · rintro ⟨h1, h2⟩
    rw [spanDigits_all h2]
    simp [h1]

theorem expScan_iff (r : Str) : expScan r = true ↔ ExpPart r := by
  unfold expScan ExpPart
  cases r with
  | nil => simp
  | cons c r1 =>
    simp only
    constructor
    · intro h
      right
      split at h
      · rename_i hc
        simp only [Bool.or_eq_true, beq_iff_eq] at hc
        rw [digits_iff] at h
        split at h
        · exact ⟨c, ['+'], _, rfl, hc, by simp, h⟩
        · exact ⟨c, ['-'], _, rfl, hc, by simp, h⟩
        · exact ⟨c, [], _, rfl, hc, by simp, h⟩
      · simp at h
    · intro h
      rcases h with h | ⟨e, sg, ds, he, hc, hs, hd⟩
      · simp at h
      · simp only [List.cons.injEq] at he
        obtain ⟨rfl, rfl⟩ := he
        rw [if_pos (by simpa using hc), digits_iff]
        rcases hs with rfl | rfl | rfl
        · simp only [List.nil_append]
          split
          · exact absurd (hd.2 '+' (by simp)) (by decide)
          · exact absurd (hd.2 '-' (by simp)) (by decide)
          · exact hd
        · exact hd
        · exact hd

theorem numTail_eq (s : Str) : numTail s =
    match s with
    | '.' :: r => if (spanDigits r).1.isEmpty then false else expScan (spanDigits r).2
    | _ => expScan s := by
  unfold numTail
  split
  · rename_i r
    simp only
    by_cases h : (spanDigits r).1.isEmpty = true
    · simp [h]
    · simp only [h]; rfl
  · rename_i h
    split
    · rename_i r; exact absurd rfl (h r)
    · rfl

theorem expPart_head {r : Str} (h : ExpPart r) : ∀ c, r.head? = some c → c.isDigit = false := by
  intro c hc
  rcases h with rfl | ⟨e, sg, ds, rfl, he, _⟩
  · simp at hc
  · simp at hc; subst hc
    rcases he with rfl | rfl <;> decide

theorem numTail_iff (s : Str) : numTail s = true ↔
    ∃ frac exp, s = frac ++ exp ∧ (frac = [] ∨ ∃ ds, frac = '.' :: ds ∧ Digits ds) ∧ ExpPart exp := by
  rw [numTail_eq]
  constructor
  · intro h
    split at h
    · rename_i r
      split at h
      · simp at h
      · rename_i hne
        exact ⟨'.' :: (spanDigits r).1, (spanDigits r).2, by simp [spanDigits_append],
          Or.inr ⟨_, rfl, by simpa using hne, spanDigits_fst r⟩, (expScan_iff _).mp h⟩
    · exact ⟨[], s, rfl, Or.inl rfl, (expScan_iff _).mp h⟩
  · rintro ⟨frac, exp, rfl, hf, he⟩
    rcases hf with rfl | ⟨ds, rfl, hd⟩
    · simp only [List.nil_append]
      split
      · rename_i r
        rcases he with h | ⟨e, sg, ds, h, hc, _⟩
        · simp at h
        · simp only [List.cons.injEq] at h
          rcases hc with rfl | rfl <;> simp at h
      · exact (expScan_iff _).mpr he
    · simp only [List.cons_append]
      rw [spanDigits_digits hd.2 (expPart_head he)]
      have : ds.isEmpty = false := by simpa using hd.1
      simp only [this, Bool.false_eq_true, if_false]
      exact (expScan_iff _).mpr he

theorem numTail_head {s : Str} (h : numTail s = true) : ∀ c, s.head? = some c → c.isDigit = false := by
  obtain ⟨frac, exp, rfl, hf, he⟩ := (numTail_iff s).mp h
  intro c hc
  rcases hf with rfl | ⟨ds, rfl, _⟩
  · exact expPart_head he c (by simpa using hc)
  · simp at hc; subst hc; decide

/-- The scanner after the minus sign. -/
def numBody (body : Str) : Bool :=
  match body with
  | [] => false
  | c :: r =>
    if c == '0' then
      match r with
      | [] => numTail r
      | d :: _ => if d.isDigit then false else numTail r
    else if c.isDigit then numTail (spanDigits body).2
    else false

theorem numBody_iff (body : Str) : numBody body = true ↔
    ∃ int tail, body = int ++ tail ∧ Digits int ∧ (int = ['0'] ∨ int.head? ≠ some '0') ∧ numTail tail = true := by
  unfold numBody
  constructor
  · intro h
    split at h
    · simp at h
    · rename_i c r
      split at h
      · rename_i hc
        have hc : c = '0' := by simpa using hc
        subst hc
        have : numTail r = true := by
          split at h
          · exact h
          · split at h
            · simp at h
            · exact h
        exact ⟨['0'], r, rfl, ⟨by simp, by simp⟩, Or.inl rfl, this⟩
      · rename_i hc
        split at h
        · rename_i hd
          refine ⟨(spanDigits (c :: r)).1, (spanDigits (c :: r)).2, (spanDigits_append _).symm, ⟨?_, spanDigits_fst _⟩, ?_, h⟩
          · simp [spanDigits, hd]
          · right
            simpa [spanDigits, hd] using hc
        · simp at h
  · rintro ⟨int, tail, rfl, ⟨hne, hd⟩, hz, ht⟩
    cases int with
    | nil => exact absurd rfl hne
    | cons c cs =>
      simp only [List.cons_append]
      have hcd : c.isDigit = true := hd c (by simp)
      rcases hz with hz | hz
      · simp only [List.cons.injEq] at hz
        obtain ⟨rfl, rfl⟩ := hz
        simp only [beq_self_eq_true, if_true, List.nil_append]
        split
        · exact ht
        · rename_i d r
          have := numTail_head ht d rfl
          simp only [this, Bool.false_eq_true, if_false]
          exact ht
      · have hc0 : c ≠ '0' := by simpa using hz
        rw [if_neg (by simpa using hc0), if_pos hcd]
        have : c :: (cs ++ tail) = (c :: cs) ++ tail := rfl
        rw [this, spanDigits_digits hd (numTail_head ht)]
        exact ht

theorem isNumericSyntax_eq (s : Str) : isNumericSyntax s = match stripMinus s with
    | none => false
    | some body => numBody body := by
  unfold isNumericSyntax
  cases stripMinus s with
  | none => rfl
  | some body => cases body <;> rfl

theorem numBody_minus (r : Str) : numBody ('-' :: r) = false := by
  simp [numBody]

theorem isNumericSyntax_iff (s : Str) : isNumericSyntax s = true ↔
    ∃ sign body, s = sign ++ body ∧ (sign = [] ∨ sign = ['-']) ∧ numBody body = true := by
  rw [isNumericSyntax_eq]
  constructor
  · intro h
    cases s with
    | nil => simp [stripMinus] at h
    | cons c r =>
      by_cases hc : c = '-'
      · subst hc
        cases r with
        | nil => simp [stripMinus] at h
        | cons d r =>
          rw [stripMinus_minus] at h
          exact ⟨['-'], d :: r, rfl, Or.inr rfl, h⟩
      · rw [stripMinus_cons hc] at h
        exact ⟨[], c :: r, rfl, Or.inl rfl, h⟩
  · rintro ⟨sign, body, rfl, hs, hb⟩
    cases body with
    | nil => simp [numBody] at hb
    | cons d r =>
      rcases hs with rfl | rfl
      · have : d ≠ '-' := by
          rintro rfl
          rw [numBody_minus] at hb; simp at hb
        simp only [List.nil_append]
        rw [stripMinus_cons this]
        exact hb
      · simp only [List.cons_append, List.nil_append]
        rw [stripMinus_minus]
        exact hb

theorem numericSyntax_grammar (s : Str) : isNumericSyntax s = true ↔ NumGrammar s := by
  rw [isNumericSyntax_iff]
  constructor
  · rintro ⟨sign, body, rfl, hs, hb⟩
    obtain ⟨int, tail, rfl, hd, hz, ht⟩ := (numBody_iff body).mp hb
    obtain ⟨frac, exp, rfl, hf, he⟩ := (numTail_iff tail).mp ht
    exact ⟨sign, int, frac, exp, rfl, hs, hd, hz, hf, he⟩
  · rintro ⟨sign, int, frac, exp, rfl, hs, hd, hz, hf, he⟩
    exact ⟨sign, int ++ (frac ++ exp), rfl, hs, (numBody_iff _).mpr
      ⟨int, frac ++ exp, rfl, hd, hz, (numTail_iff _).mpr ⟨frac, exp, rfl, hf, he⟩⟩⟩

theorem grammar_chars {s : Str} (h : NumGrammar s) {c : Char} (hc : c ∈ s) :
    c.isDigit = true ∨ c ∈ ['-', '+', '.', 'e', 'E'] := by
  obtain ⟨sign, int, frac, exp, rfl, hs, hd, hz, hf, he⟩ := h
  simp only [List.mem_append] at hc
  rcases hc with hc | hc | hc | hc
  · rcases hs with rfl | rfl
    · simp at hc
    · right; simp at hc; simp [hc]
  · exact Or.inl (hd.2 c hc)
  · rcases hf with rfl | ⟨ds, rfl, hds⟩
    · simp at hc
    · rcases List.mem_cons.mp hc with rfl | hc
      · right; simp
      · exact Or.inl (hds.2 c hc)
  · rcases he with rfl | ⟨e, sg, ds, rfl, hec, hsg, hds⟩
    · simp at hc
    · rcases List.mem_cons.mp hc with rfl | hc
      · right; rcases hec with rfl | rfl <;> simp
      · rcases List.mem_append.mp hc with hc | hc
        · right
          rcases hsg with rfl | rfl | rfl
          · simp at hc
          · simp at hc; simp [hc]
          · simp at hc; simp [hc]
        · exact Or.inl (hds.2 c hc)

theorem grammar_notWs {s : Str} (h : NumGrammar s) {c : Char} (hc : c ∈ s) : isWs c = false ∧ c ≠ '"' := by
  rcases grammar_chars h hc with hd | hm
  · have := numChar_cases (Or.inl hd)
    exact ⟨this.1, this.2.1⟩
  · simp only [List.mem_cons, List.not_mem_nil, or_false] at hm
    rcases hm with rfl | rfl | rfl | rfl | rfl <;> decide

theorem grammar_ne_nil {s : Str} (h : NumGrammar s) : s ≠ [] := by
  obtain ⟨sign, int, frac, exp, rfl, hs, hd, _⟩ := h
  simp [hd.1]

theorem grammar_edge {s : Str} (h : NumGrammar s) : NoEdgeWs s :=
  ⟨fun _ hc => (grammar_notWs h (List.mem_of_mem_head? hc)).1, fun _ hc => (grammar_notWs h (List.mem_of_getLast? hc)).1⟩

theorem grammar_notLit {s : Str} (h : NumGrammar s) : isBoolOrNull s = false := by
  cases hb : isBoolOrNull s with
  | false => rfl
  | true =>
    simp only [isBoolOrNull, Bool.or_eq_true, beq_iff_eq] at hb
    have key : ∀ c ∈ s, c ≠ 'l' ∧ c ≠ 't' := by
      intro c hc
      rcases grammar_chars h hc with hd | hm
      · constructor <;> rintro rfl <;> exact absurd hd (by decide)
      · simp only [List.mem_cons, List.not_mem_nil, or_false] at hm
        rcases hm with rfl | rfl | rfl | rfl | rfl <;> decide
    rcases hb with (rfl | rfl) | rfl
    · exact absurd rfl (key 't' (by decide)).2
    · exact absurd rfl (key 'l' (by decide)).1
    · exact absurd rfl (key 'l' (by decide)).1

theorem unsafe_of_grammar {s : Str} (h : NumGrammar s) (d : Char) : isSafeUnquoted s d = false := by
  cases hs : isSafeUnquoted s d with
  | false => rfl
  | true =>
    have := (isSafeUnquoted_iff s d).mp hs
    have hn := numericLike_of_syntax (grammar_edge h) ((numericSyntax_grammar s).mpr h)
    rw [this.notNum] at hn
    simp at hn

end Toon
