import Verif.Model.JsonRead
import Verif.Lemmas.NumGrammar

/-! The JSON reader accepts exactly the JSON grammar. -/

namespace Toon

/-! ## White space -/

theorem isJsonWs_iff (c : Char) : isJsonWs c = true ↔ c = ' ' ∨ c = '\t' ∨ c = '\n' ∨ c = '\r' := by
  simp [isJsonWs, or_assoc]

theorem skipJsonWs_append {w : Str} (h : JsonWs w) (s : Str) : skipJsonWs (w ++ s) = skipJsonWs s := by
  unfold skipJsonWs
  induction w with
  | nil => rfl
  | cons c w ih =>
    have hc := (isJsonWs_iff c).mpr (h c (by simp))
    rw [List.cons_append, List.dropWhile_cons, if_pos hc]
    exact ih fun x hx => h x (by simp [hx])

theorem skipJsonWs_cons {c : Char} (h : isJsonWs c = false) (s : Str) : skipJsonWs (c :: s) = c :: s := by
  simp [skipJsonWs, h]

theorem skipJsonWs_split (s : Str) : ∃ w, s = w ++ skipJsonWs s ∧ JsonWs w := by
  refine ⟨s.takeWhile isJsonWs, (List.takeWhile_append_dropWhile).symm, ?_⟩
  intro c hc
  have : isJsonWs c = true := by
    induction s with
    | nil => simp at hc
    | cons a s ih =>
      rw [List.takeWhile_cons] at hc
      split at hc
      · rcases List.mem_cons.mp hc with rfl | hc
        · assumption
        · exact ih hc
      · simp at hc
  exact (isJsonWs_iff c).mp this

theorem jsonWs_append {v w : Str} (hv : JsonWs v) (hw : JsonWs w) : JsonWs (v ++ w) := by
  intro x hx
  rcases List.mem_append.mp hx with h | h
  · exact hv x h
  · exact hw x h

theorem skipJsonWs_self {w : Str} (h : JsonWs w) : skipJsonWs w = [] := by
  have := skipJsonWs_append h []
  simpa [skipJsonWs] using this

/-! ## Strings -/

theorem jsonShortEscape_iff (x c : Char) : jsonShortEscape x = some c ↔ (x, c) ∈ jsonShortEscapes := by
  unfold jsonShortEscape jsonShortEscapes
  simp only [List.mem_cons, Prod.mk.injEq, List.not_mem_nil, or_false]
  constructor
  · intro h
    repeat' split at h
    all_goals simp_all [eq_comm]
  · intro h
    rcases h with ⟨rfl, rfl⟩ | ⟨rfl, rfl⟩ | ⟨rfl, rfl⟩ | ⟨rfl, rfl⟩ | ⟨rfl, rfl⟩ | ⟨rfl, rfl⟩ | ⟨rfl, rfl⟩ | ⟨rfl, rfl⟩ <;> rfl

theorem jsonShortEscape_u : jsonShortEscape 'u' = none := by decide

theorem readChars_complete {e s : Str} (h : JsonChars e s) (r : Str) : readChars (e ++ '"' :: r) = some (s, r) := by
  induction h with
  | nil => rw [List.nil_append, readChars.eq_def]; simp
  | plain h1 h2 h3 _ ih =>
    rw [List.cons_append, readChars.eq_def]
    simp only [h2, h3, if_false, Nat.not_lt.mpr h1, ih]
  | @short x c e s hx _ ih =>
    have hu : x ≠ 'u' := by
      rintro rfl
      have := (jsonShortEscape_iff 'u' c).mpr hx
      rw [jsonShortEscape_u] at this
      cases this
    rw [List.cons_append, List.cons_append, readChars.eq_def]
    simp [hu, (jsonShortEscape_iff x c).mpr hx, ih]
  | basic hn hs _ ih =>
    simp only [List.cons_append]
    rw [readChars.eq_def]
    simp [hn, hs, ih]
  | @pair a b c d a' b' c' d' hi lo e s hn h1 h2 hm h3 h4 _ ih =>
    simp only [List.cons_append]
    rw [readChars.eq_def]
    have : hi ≤ 0xDFFF := by omega
    simp [hn, hm, h1, h2, h3, h4, ih, this]

theorem readChars_sound {t s r : Str} (h : readChars t = some (s, r)) : ∃ e, t = e ++ '"' :: r ∧ JsonChars e s := by
  fun_induction readChars t generalizing s r with
  | case1 => simp at h
  | case2 => simp at h; obtain ⟨rfl, rfl⟩ := h; exact ⟨[], rfl, .nil⟩
  | case6 a b c d n hn hs q u a' b' c' d' t' hq m hm hs' s0 t0 h0 _ ih =>
    simp at h
    obtain ⟨rfl, rfl⟩ := h
    obtain ⟨e, rfl, he⟩ := ih h0
    obtain ⟨rfl, rfl⟩ := hq
    exact ⟨'\\' :: 'u' :: a :: b :: c :: d :: '\\' :: 'u' :: a' :: b' :: c' :: d' :: e, rfl,
      .pair hn hs.1 hs'.1 hm hs'.2.1 hs'.2.2 he⟩
  | case11 a b c d t' n hn hs s0 t0 h0 _ ih =>
    simp at h
    obtain ⟨rfl, rfl⟩ := h
    obtain ⟨e, rfl, he⟩ := ih h0
    exact ⟨'\\' :: 'u' :: a :: b :: c :: d :: e, rfl, .basic hn hs he⟩
  | case15 x t' hu y hy s0 t0 h0 _ ih =>
    simp at h
    obtain ⟨rfl, rfl⟩ := h
    obtain ⟨e, rfl, he⟩ := ih h0
    exact ⟨'\\' :: x :: e, rfl, .short ((jsonShortEscape_iff x y).mp hy) he⟩
  | case18 c t' h1 h2 h3 s0 t0 h0 ih =>
    simp at h
    obtain ⟨rfl, rfl⟩ := h
    obtain ⟨e, rfl, he⟩ := ih h0
    exact ⟨c :: e, rfl, .plain (by omega) h1 h2 he⟩
  | _ => simp at h

/-! ## Numbers -/

theorem grammar_numChar {t : Str} (h : NumGrammar t) {c : Char} (hc : c ∈ t) : isJsonNumChar c = true := by
  have := grammar_chars h hc
  unfold isJsonNumChar
  simp only [List.mem_cons, List.not_mem_nil, or_false] at this
  simp only [Bool.or_eq_true, decide_eq_true_eq]
  grind

theorem takeWhile_append_stop {p : Char → Bool} {t r : Str} (ht : ∀ c ∈ t, p c = true)
    (hr : ∀ c, r.head? = some c → p c = false) : (t ++ r).takeWhile p = t ∧ (t ++ r).dropWhile p = r := by
  induction t with
  | nil =>
    cases r with
    | nil => simp
    | cons c r => simp [hr c rfl]
  | cons c t ih =>
    have hc := ht c (by simp)
    have := ih fun x hx => ht x (by simp [hx])
    simp [hc, this]

/-- A number ends before this text. -/
def NumStop (r : Str) : Prop := ∀ c, r.head? = some c → isJsonNumChar c = false

theorem numStop_ws {w r : Str} (hw : JsonWs w) (hr : NumStop r) : NumStop (w ++ r) := by
  cases w with
  | nil => exact hr
  | cons c w =>
    intro d hd
    simp at hd
    subst hd
    rcases hw c (by simp) with rfl | rfl | rfl | rfl <;> decide

theorem numStop_cons {c : Char} (h : isJsonNumChar c = false) (r : Str) : NumStop (c :: r) := by
  intro d hd
  simp at hd
  subst hd
  exact h

section
variable {F : Type} {rd : Str → Option F}

theorem readNumber_complete {t r : Str} {x : F} (hg : NumGrammar t) (hx : rd t = some x) (hr : NumStop r) :
    readNumber rd (t ++ r) = some (.prim (.num x), r) := by
  have := takeWhile_append_stop (fun c hc => grammar_numChar hg hc) hr
  unfold readNumber
  rw [this.1, this.2, if_pos ((numericSyntax_grammar t).mpr hg), hx]

theorem readNumber_sound {s r : Str} {v : Json F} (h : readNumber rd s = some (v, r)) :
    ∃ t x, s = t ++ r ∧ v = .prim (.num x) ∧ NumGrammar t ∧ rd t = some x := by
  unfold readNumber at h
  split at h
  · rename_i hg
    split at h
    · rename_i x hx
      simp at h
      obtain ⟨rfl, rfl⟩ := h
      exact ⟨_, x, (List.takeWhile_append_dropWhile).symm, rfl, (numericSyntax_grammar _).mp hg, hx⟩
    · simp at h
  · simp at h

theorem grammar_first {t : Str} (h : NumGrammar t) : ∃ c r, t = c :: r ∧ (c = '-' ∨ c.isDigit = true) := by
  obtain ⟨sign, int, frac, exp, rfl, hs, hi, _⟩ := h
  rcases hs with rfl | rfl
  · cases int with
    | nil => exact absurd rfl hi.1
    | cons c r => exact ⟨c, _, rfl, Or.inr (hi.2 c (by simp))⟩
  · exact ⟨'-', _, rfl, Or.inl rfl⟩

theorem digit_ne {c : Char} (h : c = '-' ∨ c.isDigit = true) {d : Char} (hd : d ≠ '-' ∧ d.isDigit = false) : c ≠ d := by
  rintro rfl
  rcases h with h | h
  · exact hd.1 h
  · rw [hd.2] at h; cases h

/-! ## Completeness -/

/-- The first character of a value. -/
theorem isJson_first {v : Json F} {t : Str} (h : IsJson rd v t) :
    ∃ c r, t = c :: r ∧ isJsonWs c = false ∧ c ≠ ']' ∧ c ≠ '}' := by
  cases h with
  | null => exact ⟨_, _, rfl, by decide⟩
  | true => exact ⟨_, _, rfl, by decide⟩
  | false => exact ⟨_, _, rfl, by decide⟩
  | num hg _ =>
    obtain ⟨c, r, rfl, hc⟩ := grammar_first hg
    refine ⟨c, r, rfl, ?_, digit_ne hc (by decide), digit_ne hc (by decide)⟩
    rw [Bool.eq_false_iff]
    intro hw
    rcases (isJsonWs_iff c).mp hw with h | h | h | h <;> exact digit_ne hc (by decide) h
  | str _ => exact ⟨_, _, rfl, by decide⟩
  | arr0 _ => exact ⟨_, _, rfl, by decide⟩
  | arr _ => exact ⟨_, _, rfl, by decide⟩
  | obj0 _ => exact ⟨_, _, rfl, by decide⟩
  | obj _ => exact ⟨_, _, rfl, by decide⟩

theorem skipJsonWs_value {v : Json F} {t : Str} (h : IsJson rd v t) (r : Str) : skipJsonWs (t ++ r) = t ++ r := by
  obtain ⟨c, t', rfl, hc, _⟩ := isJson_first h
  exact skipJsonWs_cons hc _

theorem isItems_first {vs : List (Json F)} {t : Str} (h : IsItems rd vs t) (r : Str) :
    ∃ c t', skipJsonWs (t ++ r) = c :: t' ∧ c ≠ ']' := by
  cases h with
  | one hw hv hw' =>
    rw [List.append_assoc, skipJsonWs_append hw, List.append_assoc, skipJsonWs_value hv]
    obtain ⟨c, t', rfl, _, hc, _⟩ := isJson_first hv
    exact ⟨c, _, rfl, hc⟩
  | cons hw hv hw' _ =>
    rw [List.append_assoc, skipJsonWs_append hw, List.append_assoc, skipJsonWs_value hv]
    obtain ⟨c, t', rfl, _, hc, _⟩ := isJson_first hv
    exact ⟨c, _, rfl, hc⟩

theorem isMembers_first {es : List (Str × Json F)} {t : Str} (h : IsMembers rd es t) (r : Str) :
    ∃ t', skipJsonWs (t ++ r) = '"' :: t' := by
  cases h with
  | one hw _ _ _ _ _ =>
    rw [List.append_assoc, skipJsonWs_append hw]
    exact ⟨_, skipJsonWs_cons (by decide) _⟩
  | cons hw _ _ _ _ _ _ =>
    rw [List.append_assoc, skipJsonWs_append hw]
    exact ⟨_, skipJsonWs_cons (by decide) _⟩

mutual
theorem readValue_complete {v : Json F} {t : Str} (h : IsJson rd v t) (n : Nat) (hn : 2 * t.length ≤ n) (r : Str)
    (hr : NumStop r) : readValue rd n (t ++ r) = some (v, r) := by
  obtain ⟨n, rfl⟩ : ∃ m, n = m + 1 := by
    obtain ⟨c, t', rfl, _⟩ := isJson_first h
    exact ⟨n - 1, by simp at hn; omega⟩
  cases h with
  | null => rw [List.cons_append, readValue.eq_def]; simp
  | true => rw [List.cons_append, readValue.eq_def]; simp
  | false => rw [List.cons_append, readValue.eq_def]; simp
  | num hg hx =>
    have := readNumber_complete (rd := rd) hg hx hr
    obtain ⟨c, t', rfl, hc⟩ := grammar_first hg
    rw [List.cons_append, readValue.eq_def] at *
    simp only [digit_ne hc (d := '{') (by decide), digit_ne hc (d := '[') (by decide),
      digit_ne hc (d := '"') (by decide), digit_ne hc (d := 'n') (by decide),
      digit_ne hc (d := 't') (by decide), digit_ne hc (d := 'f') (by decide), if_false, this]
  | str he =>
    rw [List.cons_append, readValue.eq_def]
    simp [readChars_complete he]
  | arr0 hw =>
    rw [List.cons_append, readValue.eq_def]
    simp [skipJsonWs_append hw, skipJsonWs_cons (show isJsonWs ']' = false by decide)]
  | @arr vs t h =>
    have hl := readItems_complete h n (by simp at hn; omega) r
    obtain ⟨c, t', ht, hc⟩ := isItems_first h (']' :: r)
    rw [List.cons_append, readValue.eq_def]
    simp only [List.append_assoc, List.cons_append, List.nil_append, ht, hc, if_false] at hl ⊢
    simp [hl]
  | obj0 hw =>
    rw [List.cons_append, readValue.eq_def]
    simp [skipJsonWs_append hw, skipJsonWs_cons (show isJsonWs '}' = false by decide)]
  | @obj es t h =>
    have hl := readMembers_complete h n (by simp at hn; omega) r
    obtain ⟨t', ht⟩ := isMembers_first h ('}' :: r)
    rw [List.cons_append, readValue.eq_def]
    simp only [List.append_assoc, List.cons_append, List.nil_append, ht] at hl ⊢
    simp [hl]

theorem readItems_complete {vs : List (Json F)} {t : Str} (h : IsItems rd vs t) (n : Nat) (hn : 2 * t.length + 1 ≤ n) (r : Str) :
    readItems rd n (skipJsonWs (t ++ ']' :: r)) = some (vs, r) := by
  obtain ⟨n, rfl⟩ : ∃ m, n = m + 1 := ⟨n - 1, by omega⟩
  cases h with
  | one hw hv hw' =>
    rw [List.append_assoc, skipJsonWs_append hw, List.append_assoc, skipJsonWs_value hv, readItems.eq_def]
    simp only
    rw [readValue_complete hv n (by simp at hn; omega) _ (numStop_ws hw' (numStop_cons (by decide) _))]
    simp only [skipJsonWs_append hw', skipJsonWs_cons (show isJsonWs ']' = false by decide), if_true]
  | cons hw hv hw' h =>
    have hl := readItems_complete h n (by simp at hn; omega) r
    rw [List.append_assoc, skipJsonWs_append hw, List.append_assoc, skipJsonWs_value hv, readItems.eq_def]
    simp only [List.append_assoc, List.cons_append]
    rw [readValue_complete hv n (by simp at hn; omega) _ (numStop_ws hw' (numStop_cons (by decide) _))]
    simp only [skipJsonWs_append hw', skipJsonWs_cons (show isJsonWs ',' = false by decide), if_true, hl]
    simp

theorem readMembers_complete {es : List (Str × Json F)} {t : Str} (h : IsMembers rd es t) (n : Nat) (hn : 2 * t.length + 1 ≤ n) (r : Str) :
    readMembers rd n (skipJsonWs (t ++ '}' :: r)) = some (es, r) := by
  obtain ⟨n, rfl⟩ : ∃ m, n = m + 1 := ⟨n - 1, by omega⟩
  cases h with
  | one hw he hw2 hw3 hv hw4 =>
    rw [List.append_assoc, skipJsonWs_append hw, List.cons_append, skipJsonWs_cons (show isJsonWs '"' = false by decide),
      readMembers.eq_def]
    simp only [List.append_assoc, List.cons_append, readChars_complete he, skipJsonWs_append hw2,
      skipJsonWs_cons (show isJsonWs ':' = false by decide), if_true, skipJsonWs_append hw3, skipJsonWs_value hv]
    rw [readValue_complete hv n (by simp at hn; omega) _ (numStop_ws hw4 (numStop_cons (by decide) _))]
    simp only [skipJsonWs_append hw4, skipJsonWs_cons (show isJsonWs '}' = false by decide), if_true]
  | cons hw he hw2 hw3 hv hw4 h =>
    have hl := readMembers_complete h n (by simp at hn; omega) r
    rw [List.append_assoc, skipJsonWs_append hw, List.cons_append, skipJsonWs_cons (show isJsonWs '"' = false by decide),
      readMembers.eq_def]
    simp only [List.append_assoc, List.cons_append, readChars_complete he, skipJsonWs_append hw2,
      skipJsonWs_cons (show isJsonWs ':' = false by decide), if_true, skipJsonWs_append hw3, skipJsonWs_value hv]
    rw [readValue_complete hv n (by simp at hn; omega) _ (numStop_ws hw4 (numStop_cons (by decide) _))]
    simp only [skipJsonWs_append hw4, skipJsonWs_cons (show isJsonWs ',' = false by decide), if_true, hl]
    simp
end

theorem readJson_complete {v : Json F} {s : Str} (h : JsonDoc rd v s) : readJson rd s = some v := by
  obtain ⟨w, t, w', rfl, hw, hv, hw'⟩ := h
  unfold readJson
  rw [skipJsonWs_append hw, skipJsonWs_value hv,
    readValue_complete hv _ (by simp; omega) w' (by simpa using numStop_ws hw' (r := []) (by intro c h; simp at h))]
  simp [skipJsonWs_self hw']

/-! ## Soundness -/

theorem take_drop_eq {r l : Str} {k : Nat} (h : r.take k = l) : r = l ++ r.drop k := by
  rw [← h, List.take_append_drop]

theorem read_sound (n : Nat) :
    (∀ (s r : Str) (v : Json F), readValue rd n s = some (v, r) → ∃ t, s = t ++ r ∧ IsJson rd v t) ∧
    (∀ (s r : Str) (vs : List (Json F)), readItems rd n s = some (vs, r) → ∃ t, s = t ++ ']' :: r ∧ IsItems rd vs t) ∧
    (∀ (s r : Str) (es : List (Str × Json F)), readMembers rd n s = some (es, r) →
      ∃ t, s = t ++ '}' :: r ∧ IsMembers rd es t) := by
  induction n with
  | zero => refine ⟨?_, ?_, ?_⟩ <;> intro s r v h <;> simp [readValue, readItems, readMembers] at h
  | succ n ih =>
    obtain ⟨ihv, ihi, ihm⟩ := ih
    refine ⟨?_, ?_, ?_⟩
    · intro s r v h
      rw [readValue.eq_def] at h
      cases s with
      | nil => simp at h
      | cons c s =>
        simp only at h
        by_cases h1 : c = '{'
        · rw [if_pos h1] at h
          subst h1
          obtain ⟨w, hs, hw⟩ := skipJsonWs_split s
          split at h
          · simp at h
          · rename_i d r' hd
            rw [hd] at hs
            split at h
            · rename_i hd'
              subst hd'
              simp at h
              obtain ⟨rfl, rfl⟩ := h
              exact ⟨'{' :: (w ++ ['}']), by simp [hs], .obj0 hw⟩
            · split at h
              · rename_i es t he
                simp at h
                obtain ⟨rfl, rfl⟩ := h
                obtain ⟨t', ht, hm⟩ := ihm _ _ _ he
                refine ⟨'{' :: ((w ++ t') ++ ['}']), by simp [hs, ht], .obj ?_⟩
                cases hm with
                | one hw1 a b c d e =>
                  rw [← List.append_assoc]
                  exact .one (jsonWs_append hw hw1) a b c d e
                | cons hw1 a b c d e f =>
                  rw [← List.append_assoc]
                  exact .cons (jsonWs_append hw hw1) a b c d e f
              · simp at h
        · rw [if_neg h1] at h
          by_cases h2 : c = '['
          · rw [if_pos h2] at h
            subst h2
            obtain ⟨w, hs, hw⟩ := skipJsonWs_split s
            split at h
            · simp at h
            · rename_i d r' hd
              rw [hd] at hs
              split at h
              · rename_i hd'
                subst hd'
                simp at h
                obtain ⟨rfl, rfl⟩ := h
                exact ⟨'[' :: (w ++ [']']), by simp [hs], .arr0 hw⟩
              · split at h
                · rename_i vs t he
                  simp at h
                  obtain ⟨rfl, rfl⟩ := h
                  obtain ⟨t', ht, hm⟩ := ihi _ _ _ he
                  refine ⟨'[' :: ((w ++ t') ++ [']']), by simp [hs, ht], .arr ?_⟩
                  cases hm with
                  | one hw1 a b =>
                    rw [← List.append_assoc]
                    exact .one (jsonWs_append hw hw1) a b
                  | cons hw1 a b c =>
                    rw [← List.append_assoc]
                    exact .cons (jsonWs_append hw hw1) a b c
                · simp at h
          · rw [if_neg h2] at h
            by_cases h3 : c = '"'
            · rw [if_pos h3] at h
              subst h3
              split at h
              · rename_i e t he
                simp at h
                obtain ⟨rfl, rfl⟩ := h
                obtain ⟨e', rfl, he'⟩ := readChars_sound he
                exact ⟨'"' :: (e' ++ ['"']), by simp, .str he'⟩
              · simp at h
            · rw [if_neg h3] at h
              by_cases h4 : c = 'n'
              · rw [if_pos h4] at h
                subst h4
                split at h
                · rename_i ht
                  simp at h
                  obtain ⟨rfl, rfl⟩ := h
                  exact ⟨['n', 'u', 'l', 'l'], by rw [take_drop_eq ht]; simp, .null⟩
                · simp at h
              · rw [if_neg h4] at h
                by_cases h5 : c = 't'
                · rw [if_pos h5] at h
                  subst h5
                  split at h
                  · rename_i ht
                    simp at h
                    obtain ⟨rfl, rfl⟩ := h
                    exact ⟨['t', 'r', 'u', 'e'], by rw [take_drop_eq ht]; simp, .true⟩
                  · simp at h
                · rw [if_neg h5] at h
                  by_cases h6 : c = 'f'
                  · rw [if_pos h6] at h
                    subst h6
                    split at h
                    · rename_i ht
                      simp at h
                      obtain ⟨rfl, rfl⟩ := h
                      exact ⟨['f', 'a', 'l', 's', 'e'], by rw [take_drop_eq ht]; simp, .false⟩
                    · simp at h
                  · rw [if_neg h6] at h
                    obtain ⟨t, x, ht, rfl, hg, hx⟩ := readNumber_sound h
                    exact ⟨t, ht, .num hg hx⟩
    · intro s r vs h
      rw [readItems.eq_def] at h
      simp only at h
      split at h
      · simp at h
      · rename_i v r1 hv
        obtain ⟨t, rfl, ht⟩ := ihv _ _ _ hv
        obtain ⟨w, hs, hw⟩ := skipJsonWs_split r1
        split at h
        · simp at h
        · rename_i d r' hd
          rw [hd] at hs
          split at h
          · rename_i hd'
            subst hd'
            simp at h
            obtain ⟨rfl, rfl⟩ := h
            exact ⟨[] ++ (t ++ w), by simp [hs], .one (by intro c hc; simp at hc) ht hw⟩
          · split at h
            · rename_i hd'
              subst hd'
              obtain ⟨w2, hs2, hw2⟩ := skipJsonWs_split r'
              split at h
              · rename_i vs' t' hi
                simp at h
                obtain ⟨rfl, rfl⟩ := h
                obtain ⟨t2, ht2, hm⟩ := ihi _ _ _ hi
                refine ⟨[] ++ (t ++ (w ++ ',' :: (w2 ++ t2))), ?_, .cons (by intro c hc; simp at hc) ht hw ?_⟩
                · rw [ht2] at hs2
                  simp [hs, hs2]
                · cases hm with
                  | one hw1 a b =>
                    rw [← List.append_assoc]
                    exact .one (jsonWs_append hw2 hw1) a b
                  | cons hw1 a b c =>
                    rw [← List.append_assoc]
                    exact .cons (jsonWs_append hw2 hw1) a b c
              · simp at h
            · simp at h
    · intro s r es h
      rw [readMembers.eq_def] at h
      cases s with
      | nil => simp at h
      | cons c s =>
        simp only at h
        split at h
        · rename_i hc
          subst hc
          split at h
          · simp at h
          · rename_i k r1 hk
            obtain ⟨e, rfl, he⟩ := readChars_sound hk
            obtain ⟨w1, hs1, hw1⟩ := skipJsonWs_split r1
            split at h
            · simp at h
            · rename_i d r2 hd
              rw [hd] at hs1
              split at h
              · rename_i hd'
                subst hd'
                obtain ⟨w2, hs2, hw2⟩ := skipJsonWs_split r2
                split at h
                · simp at h
                · rename_i v r3 hv
                  obtain ⟨t, ht', ht⟩ := ihv _ _ _ hv
                  rw [ht'] at hs2
                  obtain ⟨w3, hs3, hw3⟩ := skipJsonWs_split r3
                  split at h
                  · simp at h
                  · rename_i d r' hd
                    rw [hd] at hs3
                    split at h
                    · rename_i hd'
                      subst hd'
                      simp at h
                      obtain ⟨rfl, rfl⟩ := h
                      exact ⟨[] ++ '"' :: (e ++ '"' :: (w1 ++ ':' :: (w2 ++ (t ++ w3)))), by simp [hs1, hs2, hs3],
                        .one (by intro c hc; simp at hc) he hw1 hw2 ht hw3⟩
                    · split at h
                      · rename_i hd'
                        subst hd'
                        obtain ⟨w4, hs4, hw4⟩ := skipJsonWs_split r'
                        split at h
                        · rename_i es' t' hi
                          simp at h
                          obtain ⟨rfl, rfl⟩ := h
                          obtain ⟨t2, ht2, hm⟩ := ihm _ _ _ hi
                          refine ⟨[] ++ '"' :: (e ++ '"' :: (w1 ++ ':' :: (w2 ++ (t ++ (w3 ++ ',' :: (w4 ++ t2)))))), ?_,
                            .cons (by intro c hc; simp at hc) he hw1 hw2 ht hw3 ?_⟩
                          · rw [ht2] at hs4
                            simp [hs1, hs2, hs3, hs4]
                          · cases hm with
                            | one hx a b c d e =>
                              rw [← List.append_assoc]
                              exact .one (jsonWs_append hw4 hx) a b c d e
                            | cons hx a b c d e f =>
                              rw [← List.append_assoc]
                              exact .cons (jsonWs_append hw4 hx) a b c d e f
                        · simp at h
                      · simp at h
              · simp at h
        · simp at h

theorem readJson_sound {v : Json F} {s : Str} (h : readJson rd s = some v) : JsonDoc rd v s := by
  unfold readJson at h
  split at h
  · rename_i v' r hv
    split at h
    · rename_i hr
      simp at h
      subst h
      obtain ⟨t, ht, hj⟩ := (read_sound _).1 _ _ _ hv
      obtain ⟨w, hs, hw⟩ := skipJsonWs_split s
      obtain ⟨w', hs', hw'⟩ := skipJsonWs_split r
      rw [List.isEmpty_iff.mp hr, List.append_nil] at hs'
      exact ⟨w, t, r, by rw [← ht]; exact hs, hw, hj, by rw [hs']; exact hw'⟩
    · simp at h
  · simp at h

theorem readJson_iff (v : Json F) (s : Str) : readJson rd s = some v ↔ JsonDoc rd v s :=
  ⟨readJson_sound, readJson_complete⟩

/-- A text denotes at most one value. -/
theorem jsonDoc_unique {v w : Json F} {s : Str} (h1 : JsonDoc rd v s) (h2 : JsonDoc rd w s) : v = w := by
  have := readJson_complete h1
  rw [readJson_complete h2] at this
  simpa [eq_comm] using this

end

end Toon
