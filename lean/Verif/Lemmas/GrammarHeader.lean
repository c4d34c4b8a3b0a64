import Verif.Spec.Grammar
import Verif.Lemmas.Cells
import Verif.Lemmas.Declared
import Verif.Lemmas.Arrays

/-! The header parser decides the grammar of headers. -/

namespace Toon

theorem blank_trim {s : Str} : BlankLine s ↔ trim s = [] := trim_eq_nil.symm

theorem visibleFirst_iff {c : Char} (hc : isWs c = false) (s : Str) : VisibleFirst c s ↔ (trimStart s).head? = some c := by
  constructor
  · rintro ⟨ws, rest, hb, rfl⟩
    rw [trimStart_all_ws (by simpa [BlankLine] using hb)]
    simp [trimStart, hc]
  · intro h
    obtain ⟨t, ht, hw⟩ := trimStart_suffix s
    cases hs : trimStart s with
    | nil => rw [hs] at h; simp at h
    | cons x r =>
      rw [hs] at h ht
      simp at h
      subst h
      exact ⟨t, r, by simpa [BlankLine] using hw, ht⟩

/-! ## The bracket -/

theorem trimStart_quote {ws r : Str} (hb : BlankLine ws) : trimStart (ws ++ '"' :: r) = '"' :: r := by
  rw [trimStart_all_ws (by simpa [BlankLine] using hb)]
  simp [trimStart, show isWs '"' = false by decide]

theorem findBracketStart_before {content pre rest : Str} (h : BeforeBracket content pre rest) :
    content = pre ++ '[' :: rest ∧ findBracketStart content = .ok (some pre.length) := by
  cases h with
  | @quoted ws body rest hb hl =>
    refine ⟨by simp, ?_⟩
    unfold findBracketStart
    simp only
    have e : ws ++ '"' :: body ++ '"' :: '[' :: rest = ws ++ '"' :: (body ++ '"' :: '[' :: rest) := by simp
    rw [e, trimStart_quote hb]
    have hc := (findClosingQuote_iff (body ++ '"' :: '[' :: rest) (body.length + 1)).mpr ⟨body, '[' :: rest, rfl, rfl, hl⟩
    rw [hc]
    simp only [List.head?_cons, if_true]
    rw [if_neg (by simp)]
    have e2 : ws ++ '"' :: (body ++ '"' :: '[' :: rest) = (ws ++ '"' :: body ++ ['"']) ++ '[' :: rest := by simp
    have e3 : (ws ++ '"' :: (body ++ '"' :: '[' :: rest)).length - ('"' :: (body ++ '"' :: '[' :: rest)).length +
        (body.length + 1) + 1 = (ws ++ '"' :: body ++ ['"']).length := by
      simp only [List.length_append, List.length_cons, List.length_nil]; omega
    rw [e3, e2, findFrom_append]
    simp
  | @bare pre rest hv hp =>
    refine ⟨rfl, ?_⟩
    unfold findBracketStart
    simp only
    rw [if_neg (fun hh => hv ((visibleFirst_iff (by decide) _).mpr hh)), findChar_at hp]

theorem findBracketStart_after {content : Str} {i : Nat} (h : findBracketStart content = .ok (some i)) :
    ∃ pre rest, BeforeBracket content pre rest := by
  unfold findBracketStart at h
  simp only at h
  by_cases hq : (trimStart content).head? = some '"'
  · rw [if_pos hq] at h
    obtain ⟨ws, r, hb, rfl⟩ := (visibleFirst_iff (by decide) _).mpr hq
    rw [trimStart_quote hb] at h
    split at h
    · simp at h
    · rename_i closing hc
      obtain ⟨body, rest, rfl, rfl, hl⟩ := (findClosingQuote_iff _ _).mp hc
      split at h
      · simp at h
      · rename_i hn
        have : ('"' :: (body ++ '"' :: rest)).drop (body.length + 1 + 1) = rest := by simp
        rw [this] at hn
        obtain ⟨x, r, rfl⟩ : ∃ x r, rest = x :: r := by cases rest <;> simp_all
        simp at hn
        subst hn
        have e : ws ++ '"' :: (body ++ '"' :: '[' :: r) = ws ++ '"' :: body ++ '"' :: '[' :: r := by simp
        exact ⟨ws ++ '"' :: body ++ ['"'], r, e ▸ BeforeBracket.quoted hb hl⟩
  · rw [if_neg hq] at h
    simp only [Except.ok.injEq] at h
    obtain ⟨a, b, rfl, ha, _⟩ := findChar_some h
    exact ⟨a, b, .bare (fun hh => hq ((visibleFirst_iff (by decide) _).mp hh)) ha⟩

/-- A quote at the beginning is closed. -/
def QuoteClosed (content : Str) : Prop :=
  VisibleFirst '"' content → ∃ ws body rest, BlankLine ws ∧ LiteralBody body ∧ content = ws ++ '"' :: body ++ '"' :: rest

theorem findBracketStart_error {content : Str} {e : Err} (h : findBracketStart content = .error e) : ¬ QuoteClosed content := by
  intro hq
  unfold findBracketStart at h
  simp only at h
  by_cases hh : (trimStart content).head? = some '"'
  · rw [if_pos hh] at h
    obtain ⟨ws, body, rest, hb, hl, rfl⟩ := hq ((visibleFirst_iff (by decide) _).mpr hh)
    have e : ws ++ '"' :: body ++ '"' :: rest = ws ++ '"' :: (body ++ '"' :: rest) := by simp
    rw [e, trimStart_quote hb] at h
    have hc := (findClosingQuote_iff (body ++ '"' :: rest) (body.length + 1)).mpr ⟨body, rest, rfl, rfl, hl⟩
    rw [hc] at h
    simp only at h
    split at h <;> simp at h
  · rw [if_neg hh] at h; simp at h

theorem findBracketStart_ok {content : Str} {o : Option Nat} (h : findBracketStart content = .ok o) : QuoteClosed content := by
  intro hv
  have hh := (visibleFirst_iff (by decide) _).mp hv
  unfold findBracketStart at h
  simp only at h
  rw [if_pos hh] at h
  obtain ⟨ws, r, hb, rfl⟩ := hv
  rw [trimStart_quote hb] at h
  split at h
  · simp at h
  · rename_i closing hc
    obtain ⟨body, rest, rfl, rfl, hl⟩ := (findClosingQuote_iff _ _).mp hc
    exact ⟨ws, body, rest, hb, hl, by simp⟩

/-! ## After the bracket -/

/-- The column list, relative to the end of the bracket. -/
def columnsPos (b : Str) (ci : Nat) (d : Char) : Except Err (Option (List FieldName)) :=
  match findChar '{' b with
  | none => .ok none
  | some i =>
    if i < ci then
      match findFrom '}' b i with
      | none => .ok none
      | some f =>
        if f < ci then
          match parseFields (parseDelimitedValues (slice b (i + 1) f) d) with
          | .error e => .error e
          | .ok fs => .ok (some fs)
        else .ok none
    else .ok none

theorem parseHeaderFields_eq (x b : Str) {be : Nat} (hx : x.length = be + 1) (ci : Nat) (d : Char) :
    parseHeaderFields (x ++ b) be (x.length + ci) d = columnsPos b ci d := by
  unfold parseHeaderFields columnsPos
  rw [← hx, findFrom_append]
  cases h1 : findChar '{' b with
  | none => simp
  | some i =>
    simp only [Option.map_some, Nat.add_lt_add_iff_left]
    rw [findFrom_add]
    cases h3 : findFrom '}' b i with
    | none => simp
    | some f =>
      simp only [Option.map_some, Nat.add_lt_add_iff_left]
      have : slice (x ++ b) (x.length + i + 1) (x.length + f) = slice b (i + 1) f := by
        unfold slice
        rw [show x.length + i + 1 = x.length + (i + 1) by omega, List.drop_append,
          show x.length + f - (x.length + (i + 1)) = f - (i + 1) by omega]
        rw [List.drop_eq_nil_of_le (by omega : x.length ≤ x.length + (i + 1))]
        simp
      rw [this]
      rfl

/-- The parsed columns. -/
def columnsResult (cols : Option Str) (d : Char) : Except Err (Option (List FieldName)) :=
  match cols with
  | none => .ok none
  | some cs =>
    match parseFields (parseDelimitedValues cs d) with
    | .error e => .error e
    | .ok fs => .ok (some fs)

theorem afterBracket_pos {b after : Str} {cols : Option Str} (h : AfterBracket b cols after) :
    ∃ ci, colonPos b = some ci ∧ b.drop (ci + 1) = after ∧ ∀ d, columnsPos b ci d = columnsResult cols d := by
  cases h with
  | @columns u cs w after h1 h2 h3 h4 =>
    have e1 : u ++ '{' :: cs ++ '}' :: w ++ ':' :: after = u ++ '{' :: (cs ++ '}' :: (w ++ ':' :: after)) := by simp
    have e2 : u ++ '{' :: cs ++ '}' :: w ++ ':' :: after = (u ++ '{' :: cs ++ ['}']) ++ (w ++ ':' :: after) := by simp
    have hf : findChar '{' (u ++ '{' :: cs ++ '}' :: w ++ ':' :: after) = some u.length := by rw [e1, findChar_at h1]
    have hb : findFrom '}' (u ++ '{' :: cs ++ '}' :: w ++ ':' :: after) u.length = some (u.length + (cs.length + 1)) := by
      rw [e1, findFrom_append, ← List.cons_append, findChar_at (by simp [h3])]; simp
    have hc : findFrom ':' (u ++ '{' :: cs ++ '}' :: w ++ ':' :: after) (u.length + (cs.length + 1) + 1) =
        some ((u ++ '{' :: cs ++ '}' :: w).length) := by
      rw [e2, findFrom_append' _ _ (by simp; omega), findChar_at h4]; simp; omega
    refine ⟨(u ++ '{' :: cs ++ '}' :: w).length, ?_, by rw [List.drop_append]; simp, ?_⟩
    · unfold colonPos
      rw [hf]
      obtain ⟨j, hj, hlt⟩ : ∃ j, findChar ':' (u ++ '{' :: cs ++ '}' :: w ++ ':' :: after) = some j ∧ u.length < j := by
        cases hjj : findChar ':' (cs ++ '}' :: (w ++ ':' :: after)) with
        | none => exact absurd (findChar_eq_none.mp hjj) (by simp)
        | some j =>
          refine ⟨u.length + (j + 1), ?_, by omega⟩
          rw [e1, findChar_append_of_not_mem h2]
          simp [findChar, hjj]
      rw [hj]
      simp only [hlt, if_true, hb, hc]
    · intro d
      unfold columnsPos columnsResult
      rw [hf]
      simp only [hb]
      rw [if_pos (by simp), if_pos (by simp)]
      have : slice (u ++ '{' :: cs ++ '}' :: w ++ ':' :: after) (u.length + 1) (u.length + (cs.length + 1)) = cs :=
        slice_mid (a := u ++ ['{']) (b := cs) (c := '}' :: w ++ ':' :: after) (by simp) (by simp) (by simp; omega)
      rw [this]
  | @plain u after h1 h2 =>
    refine ⟨u.length, ?_, by rw [List.drop_append]; simp, ?_⟩
    · unfold colonPos
      rw [findChar_at h1]
      cases hf : findChar '{' (u ++ ':' :: after) with
      | none => rfl
      | some i =>
        rw [findChar_append_of_not_mem h2] at hf
        have : ¬ i < u.length := by
          cases hh : findChar '{' (':' :: after) with
          | none => rw [hh] at hf; simp at hf
          | some k => rw [hh] at hf; simp at hf; omega
        simp [this]
    · intro d
      unfold columnsPos columnsResult
      cases hf : findChar '{' (u ++ ':' :: after) with
      | none => rfl
      | some i =>
        rw [findChar_append_of_not_mem h2] at hf
        have : ¬ i < u.length := by
          cases hh : findChar '{' (':' :: after) with
          | none => rw [hh] at hf; simp at hf
          | some k => rw [hh] at hf; simp at hf; omega
        simp [this]
  | @unclosed u u' after h1 h2 h3 h4 h5 =>
    have e1 : u ++ '{' :: u' ++ ':' :: after = u ++ '{' :: (u' ++ ':' :: after) := by simp
    have hf : findChar '{' (u ++ '{' :: u' ++ ':' :: after) = some u.length := by rw [e1, findChar_at h1]
    have hc : findChar ':' (u ++ '{' :: u' ++ ':' :: after) = some (u ++ '{' :: u').length :=
      findChar_at (by simp [h2, h3]) _
    have hb : findFrom '}' (u ++ '{' :: u' ++ ':' :: after) u.length = none := by
      rw [e1, findFrom_append, findChar_eq_none.mpr (by simp [h4, h5])]; rfl
    refine ⟨(u ++ '{' :: u').length, ?_, by rw [List.drop_append]; simp, ?_⟩
    · unfold colonPos
      rw [hf, hc]
      simp only [hb]
      simp
    · intro d
      unfold columnsPos columnsResult
      rw [hf]
      simp only [hb]
      simp

theorem afterBracket_some {b : Str} {ci : Nat} (h : colonPos b = some ci) : ∃ cols after, AfterBracket b cols after := by
  have hr : reachesColon b = true := by rw [← colonPos_isSome, h]; rfl
  unfold reachesColon at hr
  cases hb : cut '{' b with
  | none =>
    have hb' := cut_none.mp hb
    rw [hb] at hr
    simp at hr
    obtain ⟨a, r, rfl, ha⟩ := mem_split_first hr
    exact ⟨none, r, .plain ha (fun hh => hb' (by simp [hh]))⟩
  | some pq =>
    obtain ⟨p, q⟩ := pq
    obtain ⟨rfl, hp⟩ := cut_some hb
    simp only [hb] at hr
    by_cases hpc : ':' ∈ p
    · obtain ⟨a, r, rfl, ha⟩ := mem_split_first hpc
      have e : a ++ ':' :: r ++ '{' :: q = a ++ ':' :: (r ++ '{' :: q) := by simp
      exact ⟨none, r ++ '{' :: q, e ▸ .plain ha (fun hh => hp (by simp [hh]))⟩
    · rw [if_neg (by simpa using hpc)] at hr
      cases hq : cut '}' q with
      | none =>
        rw [hq] at hr
        simp at hr
        have hq' := cut_none.mp hq
        obtain ⟨a, r, rfl, ha⟩ := mem_split_first hr
        simp at hq'
        have e : p ++ '{' :: (a ++ ':' :: r) = p ++ '{' :: a ++ ':' :: r := by simp
        exact ⟨none, r, e ▸ .unclosed hp hpc ha hq'.1 hq'.2⟩
      | some rs =>
        obtain ⟨r, s⟩ := rs
        obtain ⟨rfl, hr'⟩ := cut_some hq
        simp only [hq] at hr
        obtain ⟨a, t, rfl, ha⟩ := mem_split_first (by simpa using hr)
        have e : p ++ '{' :: (r ++ '}' :: (a ++ ':' :: t)) = p ++ '{' :: r ++ '}' :: a ++ ':' :: t := by simp
        exact ⟨some r, t, e ▸ .columns hp hpc hr' ha⟩

/-! ## The parts -/

theorem headerKey_iff (pre rest : Str) (k : Option Str) (q : Bool) :
    parseHeaderKey (pre ++ rest) pre.length = .ok (k, q) ↔ HeaderKey pre k q := by
  unfold parseHeaderKey
  rw [List.take_left]
  simp only
  by_cases h0 : pre.length > 0
  · rw [if_pos h0]
    by_cases hq : (trim pre).head? = some '"'
    · rw [if_pos hq]
      constructor
      · intro h
        split at h
        · simp at h
        · rename_i v hv
          simp only [Except.ok.injEq, Prod.mk.injEq] at h
          obtain ⟨rfl, rfl⟩ := h
          obtain ⟨body, hb, hd⟩ := (parseStringLiteral_iff (trim pre) v (by rw [trim_trim]; exact hq)).mp hv
          rw [trim_trim] at hb
          exact .quoted hb hd
      · intro h
        cases h with
        | none hb => rw [blank_trim.mp hb] at hq; simp at hq
        | @quoted body k hb hd =>
          rw [(parseStringLiteral_iff (trim pre) k (by rw [trim_trim]; exact hq)).mpr ⟨body, by rw [trim_trim]; exact hb, hd⟩]
        | bare h1 h2 => exact absurd hq h2
    · rw [if_neg hq]
      by_cases he : trim pre = []
      · rw [if_pos (by simp [he])]
        constructor
        · intro h
          simp only [Except.ok.injEq, Prod.mk.injEq] at h
          obtain ⟨rfl, rfl⟩ := h
          exact .none (blank_trim.mpr he)
        · intro h
          cases h with
          | none hb => rfl
          | quoted hb hd => rw [he] at hb; simp at hb
          | bare h1 h2 => exact absurd he h1
      · rw [if_neg (by simpa using he)]
        constructor
        · intro h
          simp only [Except.ok.injEq, Prod.mk.injEq] at h
          obtain ⟨rfl, rfl⟩ := h
          exact .bare he hq
        · intro h
          cases h with
          | none hb => exact absurd (blank_trim.mp hb) he
          | quoted hb hd => rw [hb] at hq; simp at hq
          | bare h1 h2 => rfl
  · rw [if_neg h0]
    have : pre = [] := by cases pre <;> simp_all
    subst this
    constructor
    · intro h
      simp only [Except.ok.injEq, Prod.mk.injEq] at h
      obtain ⟨rfl, rfl⟩ := h
      exact .none (by simp [BlankLine])
    · intro h
      cases h with
      | none hb => rfl
      | quoted hb hd => simp [trim, trimStart, trimEnd] at hb
      | bare h1 h2 => simp [trim, trimStart, trimEnd] at h1

theorem parseUsize_iff (s : Str) (n : Nat) : parseUsize s = some n ↔
    ∃ plus digits : Str, s = plus ++ digits ∧ (plus = [] ∨ plus = ['+']) ∧ Digits digits ∧ decimalValue digits 0 = n ∧ n < 2 ^ 64 := by
  have key : ∀ ds : Str, (if ds.isEmpty then (none : Option Nat)
      else if ds.all Char.isDigit then (if digitsVal ds < 2 ^ 64 then some (digitsVal ds) else none)
      else none) = some n ↔ Digits ds ∧ decimalValue ds 0 = n ∧ n < 2 ^ 64 := by
    intro ds
    rw [← digitsVal_eq]
    unfold Digits
    by_cases h1 : ds = []
    · simp [h1]
    · rw [if_neg (by simpa using h1)]
      by_cases h2 : ds.all Char.isDigit = true
      · rw [if_pos h2]
        have h2' := List.all_eq_true.mp h2
        by_cases h3 : digitsVal ds < 2 ^ 64
        · rw [if_pos h3]
          simp only [Option.some.injEq]
          exact ⟨fun h => ⟨⟨h1, h2'⟩, h, h ▸ h3⟩, fun h => h.2.1⟩
        · rw [if_neg h3]
          simp only [reduceCtorEq, false_iff]
          rintro ⟨_, rfl, h⟩
          exact h3 h
      · rw [if_neg h2]
        simp only [reduceCtorEq, false_iff]
        rintro ⟨⟨_, h⟩, _⟩
        exact h2 (List.all_eq_true.mpr h)
  unfold parseUsize
  simp only
  split
  · rename_i rest
    rw [key]
    constructor
    · rintro ⟨h1, h2⟩; exact ⟨['+'], rest, rfl, Or.inr rfl, h1, h2⟩
    · rintro ⟨plus, digits, h1, h2 | h2, h3, h4⟩
      · subst h2
        simp at h1
        subst h1
        have := h3.2 '+' (by simp)
        exact absurd this (by decide)
      · subst h2
        simp at h1
        subst h1
        exact ⟨h3, h4⟩
  · rename_i hn
    rw [key]
    constructor
    · rintro ⟨h1, h2⟩; exact ⟨[], s, rfl, Or.inl rfl, h1, h2⟩
    · rintro ⟨plus, digits, h1, h2 | h2, h3, h4⟩
      · subst h2
        simp at h1
        subst h1
        exact ⟨h3, h4⟩
      · subst h2
        exact absurd h1 (by simpa using hn digits)

theorem lengthMeans_iff (seg : Str) (n : Nat) (d : Char) : parseBracketSegment seg ',' = some (n, d) ↔ LengthMeans seg n d := by
  have last : ∀ {c : Char}, seg.getLast? = some c → seg = seg.dropLast ++ [c] := by
    intro c hc
    have hne : seg ≠ [] := by rintro rfl; simp at hc
    have := List.dropLast_concat_getLast hne
    rw [List.getLast?_eq_some_getLast hne] at hc
    simp only [Option.some.injEq] at hc
    rw [hc] at this
    exact this.symm
  constructor
  · intro h
    unfold parseBracketSegment at h
    split at h
    · rename_i hl
      simp only [Option.map_eq_some_iff, Prod.mk.injEq] at h
      obtain ⟨m, hm, rfl, rfl⟩ := h
      obtain ⟨p, ds, h1, h2, h3, h4, h5⟩ := (parseUsize_iff _ _).mp hm
      exact ⟨p, ds, ['\t'], by rw [← h1]; exact last hl, h2, h3, h4, h5, by simp⟩
    · rename_i hl
      simp only [Option.map_eq_some_iff, Prod.mk.injEq] at h
      obtain ⟨m, hm, rfl, rfl⟩ := h
      obtain ⟨p, ds, h1, h2, h3, h4, h5⟩ := (parseUsize_iff _ _).mp hm
      exact ⟨p, ds, ['|'], by rw [← h1]; exact last hl, h2, h3, h4, h5, by simp⟩
    · simp only [Option.map_eq_some_iff, Prod.mk.injEq] at h
      obtain ⟨m, hm, rfl, rfl⟩ := h
      obtain ⟨p, ds, h1, h2, h3, h4, h5⟩ := (parseUsize_iff _ _).mp hm
      exact ⟨p, ds, [], by simpa using h1, h2, h3, h4, h5, by simp⟩
  · rintro ⟨plus, digits, mark, rfl, h2, h3, h4, h5, h6⟩
    have hu : parseUsize (plus ++ digits) = some n := (parseUsize_iff _ _).mpr ⟨plus, digits, rfl, h2, h3, h4, h5⟩
    unfold parseBracketSegment
    rcases h6 with ⟨rfl, rfl⟩ | ⟨rfl, rfl⟩ | ⟨rfl, rfl⟩
    · have hd : ∃ c, (plus ++ digits).getLast? = some c ∧ c.isDigit = true := by
        rw [List.getLast?_append, List.getLast?_eq_some_getLast h3.1]
        exact ⟨_, rfl, h3.2 _ (List.getLast_mem _)⟩
      obtain ⟨c, hc, hd⟩ := hd
      rw [List.append_nil, hc, hu]
      split
      · rename_i hh; simp at hh; subst hh; exact absurd hd (by decide)
      · rename_i hh; simp at hh; subst hh; exact absurd hd (by decide)
      · rfl
    · simp [hu]
    · simp [hu]

theorem nameMeans_iff (cell : Str) (hc : trim cell = cell) (f : FieldName) :
    (∃ name, parseStringLiteral (trim cell) = .ok name ∧ f = ⟨name, (trim cell).head? == some '"'⟩) ↔ NameMeans cell f := by
  rw [hc]
  by_cases hq : cell.head? = some '"'
  · have hq' : (trim cell).head? = some '"' := by rw [hc]; exact hq
    constructor
    · rintro ⟨name, h1, rfl⟩
      obtain ⟨body, hb, hd⟩ := (parseStringLiteral_iff cell name hq').mp h1
      rw [hc] at hb
      subst hb
      exact .quoted hd
    · intro h
      cases h with
      | @quoted body k hd => exact ⟨k, (parseStringLiteral_iff _ k hq').mpr ⟨body, hc, hd⟩, by simp⟩
      | bare h => exact absurd hq h
  · have hp : parseStringLiteral cell = .ok cell := by
      unfold parseStringLiteral
      simp only [hc]
      rw [if_neg hq]
    rw [hp]
    have hf : (cell.head? == some '"') = false := by simpa using hq
    rw [hf]
    constructor
    · rintro ⟨name, h1, rfl⟩
      simp only [Except.ok.injEq] at h1
      subst h1
      exact .bare hq
    · intro h
      cases h with
      | quoted hd => simp at hq
      | bare h => exact ⟨cell, rfl, rfl⟩

theorem parseFields_iff (cells : List Str) (hc : ∀ c ∈ cells, trim c = c) (fs : List FieldName) :
    parseFields cells = .ok fs ↔ Pointwise NameMeans cells fs := by
  induction cells generalizing fs with
  | nil =>
    simp only [parseFields, Except.ok.injEq]
    constructor
    · rintro rfl; exact .nil
    · intro h; cases h; rfl
  | cons c cs ih =>
    rw [parseFields]
    have ih := fun fs => ih (fun x hx => hc x (by simp [hx])) fs
    have hn := nameMeans_iff c (hc c (by simp))
    constructor
    · intro h
      split at h
      · simp at h
      · rename_i name h1
        split at h
        · simp at h
        · rename_i fs' h2
          simp only [Except.ok.injEq] at h
          subst h
          exact .cons ((hn _).mp ⟨name, h1, rfl⟩) ((ih _).mp h2)
    · intro h
      cases h with
      | cons h1 h2 =>
        obtain ⟨name, h3, rfl⟩ := (hn _).mpr h1
        rw [h3, (ih _).mpr h2]

theorem columnsMean_iff {d : Char} (hd : d ≠ '"') (cols : Option Str) (fs : Option (List FieldName)) :
    columnsResult cols d = .ok fs ↔ ColumnsMean d cols fs := by
  unfold columnsResult
  cases cols with
  | none =>
    simp only [Except.ok.injEq]
    constructor
    · rintro rfl; exact .none
    · intro h; cases h; rfl
  | some cs =>
    have hcells := parseDelimited_cells hd cs
    constructor
    · intro h
      simp only at h
      split at h
      · simp at h
      · rename_i fs' h1
        simp only [Except.ok.injEq] at h
        subst h
        have hc := (hcells _).mp rfl
        exact .some hc ((parseFields_iff _ (cells_trimmed hc) _).mp h1)
    · intro h
      cases h with
      | some h1 h2 =>
        have := (hcells _).mpr h1
        simp only
        rw [this, (parseFields_iff _ (cells_trimmed h1) _).mpr h2]

theorem lengthMeans_delim {seg : Str} {n : Nat} {d : Char} (h : LengthMeans seg n d) : d = ',' ∨ d = '|' ∨ d = '\t' := by
  obtain ⟨_, _, _, _, _, _, _, _, h⟩ := h
  rcases h with h | h | h
  · exact Or.inl h.2
  · exact Or.inr (Or.inl h.2)
  · exact Or.inr (Or.inr h.2)

theorem delim_ne_quote {d : Char} (h : d = ',' ∨ d = '|' ∨ d = '\t') : d ≠ '"' := by
  rcases h with rfl | rfl | rfl <;> decide

/-! ## Headers -/

/-- The header parser on a line with the shape of a header. -/
theorem parseHeader_shape {content pre seg after : Str} {cols : Option Str} (h : HeaderShape content pre seg cols after) :
    parseArrayHeaderLine content ',' =
      match parseHeaderKey content pre.length with
      | .error e => .error e
      | .ok (key, keyQuoted) =>
        match parseBracketSegment seg ',' with
        | none => .ok none
        | some (length, delim) =>
          if length > maxDeclaredLength then .error (.lengthCap length)
          else
            match columnsResult cols delim with
            | .error e => .error e
            | .ok fields =>
              .ok (some { key := key, keyQuoted := keyQuoted, length := length, delim := delim, fields := fields,
                          inline := if (trim after).isEmpty then none else some (trim after) }) := by
  obtain ⟨rest, h1, h2, h3⟩ := h
  obtain ⟨e1, e2⟩ := findBracketStart_before h1
  obtain ⟨ci, c1, c2, c3⟩ := afterBracket_pos h3
  unfold parseArrayHeaderLine
  rw [e2]
  simp only
  have x1 : content = (pre ++ '[' :: seg ++ [']']) ++ rest := by rw [e1]; simp
  have xl : (pre ++ '[' :: seg ++ [']']).length = (pre.length + (seg.length + 1)) + 1 := by simp; omega
  have f1 : findFrom ']' content pre.length = some (pre.length + (seg.length + 1)) := by
    rw [e1, findFrom_append, ← List.cons_append, findChar_at (by simp [h2])]; simp
  rw [f1]
  simp only
  have f2 : findFrom ':' content (findBraceEnd content (pre.length + (seg.length + 1))) =
      some ((pre ++ '[' :: seg ++ [']']).length + ci) := by
    conv => lhs; rw [x1]
    rw [findColon_eq _ _ xl, c1]; rfl
  rw [f2]
  simp only
  have f3 : slice content (pre.length + 1) (pre.length + (seg.length + 1)) = seg :=
    slice_mid (a := pre ++ ['[']) (b := seg) (c := ']' :: rest) (by rw [e1]; simp) (by simp) (by simp; omega)
  have f4 : content.drop ((pre ++ '[' :: seg ++ [']']).length + ci + 1) = after := by
    conv => lhs; rw [x1]
    rw [List.drop_append, Nat.add_assoc, List.drop_eq_nil_of_le (by omega), Nat.add_sub_cancel_left, c2]; rfl
  have f5 : ∀ d, parseHeaderFields content (pre.length + (seg.length + 1)) ((pre ++ '[' :: seg ++ [']']).length + ci) d =
      columnsResult cols d := by
    intro d
    rw [← c3 d]
    conv => lhs; rw [x1]
    exact parseHeaderFields_eq _ _ xl ci d
  rw [f3, f4]
  simp only [f5]
  rfl

/-- Without that shape the line is no header, or the quote at its beginning is not closed. -/
theorem parseHeader_noShape {content : Str} (h : ∀ pre seg cols after, ¬ HeaderShape content pre seg cols after) :
    (QuoteClosed content → parseArrayHeaderLine content ',' = .ok none) ∧
    (¬ QuoteClosed content → ∃ e, parseArrayHeaderLine content ',' = .error e) := by
  unfold parseArrayHeaderLine
  cases hb : findBracketStart content with
  | error e => exact ⟨fun hq => absurd hq (findBracketStart_error hb), fun _ => ⟨e, rfl⟩⟩
  | ok o =>
    refine ⟨fun _ => ?_, fun hq => absurd (findBracketStart_ok hb) hq⟩
    cases o with
    | none => rfl
    | some i =>
      obtain ⟨pre, rest, h1⟩ := findBracketStart_after hb
      obtain ⟨e1, e2⟩ := findBracketStart_before h1
      rw [e2] at hb
      simp only [Except.ok.injEq, Option.some.injEq] at hb
      subst hb
      simp only
      cases hc : findFrom ']' content pre.length with
      | none => rfl
      | some j =>
        have hc' := hc
        rw [e1, findFrom_append] at hc
        simp only [findChar, if_neg (show ¬ '[' = ']' by decide)] at hc
        cases hf : findChar ']' rest with
        | none => rw [hf] at hc; simp at hc
        | some k =>
          rw [hf] at hc
          obtain ⟨seg, r, rfl, hs, rfl⟩ := findChar_some hf
          simp at hc
          subst hc
          simp only
          have x1 : content = (pre ++ '[' :: seg ++ [']']) ++ r := by rw [e1]; simp
          have xl : (pre ++ '[' :: seg ++ [']']).length = (pre.length + (seg.length + 1)) + 1 := by simp; omega
          have f2 : findFrom ':' content (findBraceEnd content (pre.length + (seg.length + 1))) =
              (colonPos r).map ((pre ++ '[' :: seg ++ [']']).length + ·) := by
            conv => lhs; rw [x1]
            rw [findColon_eq _ _ xl]
          rw [f2]
          cases hp : colonPos r with
          | none => rfl
          | some ci =>
            obtain ⟨cols, after, ha⟩ := afterBracket_some hp
            exact absurd ⟨r, h1, hs, ha⟩ (h pre seg cols after)

theorem headerShape_quoteClosed {content pre seg after : Str} {cols : Option Str} (h : HeaderShape content pre seg cols after) :
    QuoteClosed content := by
  obtain ⟨rest, h1, _, _⟩ := h
  exact findBracketStart_ok (findBracketStart_before h1).2

theorem headerShape_pre {content pre seg after : Str} {cols : Option Str} (h : HeaderShape content pre seg cols after) :
    ∃ r, content = pre ++ r := by
  obtain ⟨rest, h1, _, _⟩ := h
  exact ⟨_, (findBracketStart_before h1).1⟩

theorem headerMeans_iff (content : Str) (h : Header) : parseArrayHeaderLine content ',' = .ok (some h) ↔ HeaderMeans content h := by
  constructor
  · intro hp
    by_cases hs : ∃ pre seg cols after, HeaderShape content pre seg cols after
    · obtain ⟨pre, seg, cols, after, hs⟩ := hs
      rw [parseHeader_shape hs] at hp
      split at hp
      · simp at hp
      · rename_i key kq hk
        split at hp
        · simp at hp
        · rename_i length delim hl
          split at hp
          · simp at hp
          · rename_i hcap
            split at hp
            · simp at hp
            · rename_i fields hf
              simp only [Except.ok.injEq, Option.some.injEq] at hp
              subst hp
              obtain ⟨r, rfl⟩ := headerShape_pre hs
              have hl := (lengthMeans_iff _ _ _).mp hl
              refine ⟨pre, seg, cols, after, hs, (headerKey_iff pre r _ _).mp hk, hl, by simpa [maxDeclaredLength] using hcap,
                (columnsMean_iff (delim_ne_quote (lengthMeans_delim hl)) _ _).mp hf, ?_⟩
              by_cases hb : trim after = []
              · exact Or.inl ⟨blank_trim.mpr hb, by simp [hb]⟩
              · exact Or.inr ⟨fun hh => hb (blank_trim.mp hh), by simp [hb]⟩
    · have := parseHeader_noShape (content := content) (fun pre seg cols after hh => hs ⟨pre, seg, cols, after, hh⟩)
      by_cases hq : QuoteClosed content
      · rw [this.1 hq] at hp; simp at hp
      · obtain ⟨e, he⟩ := this.2 hq
        rw [he] at hp; simp at hp
  · rintro ⟨pre, seg, cols, after, hs, hk, hl, hcap, hf, hi⟩
    rw [parseHeader_shape hs]
    obtain ⟨r, rfl⟩ := headerShape_pre hs
    rw [(headerKey_iff pre r _ _).mpr hk]
    simp only
    rw [(lengthMeans_iff _ _ _).mpr hl]
    simp only
    rw [if_neg (by simpa [maxDeclaredLength] using hcap), (columnsMean_iff (delim_ne_quote (lengthMeans_delim hl)) _ _).mpr hf]
    simp only [Except.ok.injEq, Option.some.injEq]
    have : h.inline = if (trim after).isEmpty then none else some (trim after) := by
      rcases hi with ⟨hb, hi⟩ | ⟨hb, hi⟩
      · rw [hi, blank_trim.mp hb]; rfl
      · rw [hi, if_neg]; simpa using fun hh => hb (blank_trim.mpr hh)
    rw [← this]

theorem noHeader_iff (content : Str) : parseArrayHeaderLine content ',' = .ok none ↔ NoHeader content := by
  constructor
  · intro hp
    by_cases hs : ∃ pre seg cols after, HeaderShape content pre seg cols after
    · obtain ⟨pre, seg, cols, after, hs⟩ := hs
      refine ⟨headerShape_quoteClosed hs, ?_⟩
      intro pre seg cols after hs
      rw [parseHeader_shape hs] at hp
      split at hp
      · simp at hp
      · rename_i key kq hk
        obtain ⟨r, rfl⟩ := headerShape_pre hs
        refine ⟨⟨key, kq, (headerKey_iff pre r _ _).mp hk⟩, ?_⟩
        rintro ⟨n, d, hl⟩
        rw [(lengthMeans_iff _ _ _).mpr hl] at hp
        simp only at hp
        split at hp
        · simp at hp
        · split at hp <;> simp at hp
    · have := parseHeader_noShape (content := content) (fun pre seg cols after hh => hs ⟨pre, seg, cols, after, hh⟩)
      by_cases hq : QuoteClosed content
      · exact ⟨hq, fun pre seg cols after hh => absurd ⟨pre, seg, cols, after, hh⟩ hs⟩
      · obtain ⟨e, he⟩ := this.2 hq
        rw [he] at hp; simp at hp
  · rintro ⟨hq, hn⟩
    by_cases hs : ∃ pre seg cols after, HeaderShape content pre seg cols after
    · obtain ⟨pre, seg, cols, after, hs⟩ := hs
      obtain ⟨⟨k, q, hk⟩, hl⟩ := hn _ _ _ _ hs
      rw [parseHeader_shape hs]
      obtain ⟨r, rfl⟩ := headerShape_pre hs
      rw [(headerKey_iff pre r _ _).mpr hk]
      simp only
      cases hp : parseBracketSegment seg ',' with
      | none => rfl
      | some nd => exact absurd ⟨nd.1, nd.2, (lengthMeans_iff _ _ _).mp hp⟩ hl
    · exact (parseHeader_noShape (content := content) (fun pre seg cols after hh => hs ⟨pre, seg, cols, after, hh⟩)).1 hq

theorem noKeyedHeader_iff (content : Str) :
    NoKeyedHeader content ↔ ∃ hdr, parseArrayHeaderLine content ',' = .ok hdr ∧ keyedHeader hdr = none := by
  constructor
  · rintro (h | ⟨h, h1, h2⟩)
    · exact ⟨none, (noHeader_iff _).mpr h, rfl⟩
    · exact ⟨some h, (headerMeans_iff _ _).mpr h1, by simp [keyedHeader, h2]⟩
  · rintro ⟨hdr, h1, h2⟩
    cases hdr with
    | none => exact Or.inl ((noHeader_iff _).mp h1)
    | some h =>
      refine Or.inr ⟨h, (headerMeans_iff _ _).mp h1, ?_⟩
      cases hk : h.key with
      | none => rfl
      | some k => simp [keyedHeader, hk] at h2

/-! ## Keys -/

theorem keyLine_iff (content k : Str) (q : Bool) (e : Nat) (hp : parseKeyToken content = .ok (k, e, q)) :
    KeyLineMeans content k q (content.drop e) := by
  by_cases hh : content.head? = some '"'
  · obtain ⟨s, rfl⟩ : ∃ s, content = '"' :: s := by
      cases content with
      | nil => simp at hh
      | cons c s => simp at hh; exact ⟨s, by rw [hh]⟩
    obtain ⟨rfl, body, rest, rfl, hq, rfl⟩ := (parseKeyToken_quoted_iff _ _ _ _).mp hp
    have : ('"' :: (body ++ '"' :: ':' :: rest)).drop (body.length + 3) = rest := by
      rw [show body.length + 3 = (body.length + 2) + 1 by omega, List.drop_succ_cons, List.drop_append]; simp
    rw [this]
    exact .quoted hq
  · obtain ⟨rfl, a, rest, rfl, ha, rfl, rfl⟩ := (parseKeyToken_bare_iff _ _ _ _ hh).mp hp
    have : (a ++ ':' :: rest).drop (a.length + 1) = rest := by rw [List.drop_append]; simp
    rw [this]
    exact .bare ha hh

theorem keyLine_parse {content k after : Str} {q : Bool} (h : KeyLineMeans content k q after) :
    ∃ e, parseKeyToken content = .ok (k, e, q) ∧ content.drop e = after := by
  cases h with
  | @quoted body k after hq =>
    refine ⟨body.length + 3, (parseKeyToken_quoted_iff _ _ _ _).mpr ⟨rfl, body, after, by simp, hq, rfl⟩, ?_⟩
    rw [show body.length + 3 = (body.length + 2) + 1 by omega, List.cons_append, List.drop_succ_cons, List.drop_append]; simp
  | @bare a after ha hh =>
    exact ⟨a.length + 1, (parseKeyToken_bare_iff _ _ _ _ hh).mpr ⟨rfl, a, after, rfl, ha, rfl, rfl⟩, by rw [List.drop_append]; simp⟩

end Toon
