import Verif.Lemmas.Percent
import Verif.Lemmas.Layout
import Verif.Lemmas.Scan
import Verif.Spec.Stderr

/-! # Words, estimates and the lines on standard error -/

namespace Toon

/-! ## Words -/

theorem splitWhitespace_blank : ∀ (blank s : Str), (∀ c ∈ blank, isWs c = true) → splitWhitespace (blank ++ s) = splitWhitespace s
  | [], _, _ => rfl
  | c :: cs, s, h => by
    have hc : isWs c = true := h c (by simp)
    rw [← splitWhitespace_blank cs s (fun x hx => h x (by simp [hx]))]
    simp [splitWhitespace, splitWhite, hc]

theorem splitWhite_edge (rest : Str) (hr : ∀ c, rest.head? = some c → isWs c = true) : ∃ more, splitWhite rest = [] :: more := by
  cases rest with
  | nil => exact ⟨[], rfl⟩
  | cons c cs => exact ⟨splitWhite cs, by simp [splitWhite, hr c rfl]⟩

theorem splitWhite_word : ∀ (w rest more), (∀ c ∈ w, isWs c = false) → splitWhite rest = [] :: more → splitWhite (w ++ rest) = w :: more
  | [], _, _, _, h => h
  | c :: cs, rest, more, hw, h => by
    have hc : isWs c = false := hw c (by simp)
    have ih := splitWhite_word cs rest more (fun x hx => hw x (by simp [hx])) h
    simp [splitWhite, hc, ih]

theorem words_split {s : Str} {words : List Str} (h : Words s words) : splitWhitespace s = words := by
  induction h with
  | none blank hb =>
    have := splitWhitespace_blank blank [] hb
    rw [List.append_nil] at this
    rw [this]; rfl
  | word blank w rest words hb hw hn hr _ ih =>
    rw [List.append_assoc, splitWhitespace_blank _ _ hb]
    obtain ⟨more, hm⟩ := splitWhite_edge rest hr
    unfold splitWhitespace at ih ⊢
    rw [splitWhite_word w rest more hw hm]
    rw [hm] at ih
    cases w with
    | nil => exact absurd rfl hn
    | cons c cs =>
      simp only [List.filter, List.isEmpty_nil, List.isEmpty_cons, Bool.not_true, Bool.not_false] at ih ⊢
      rw [ih]

theorem words_exist : ∀ (n : Nat) (s : Str), s.length ≤ n → ∃ words, Words s words
  | 0, s, h => ⟨[], .none s (by simp [List.eq_nil_of_length_eq_zero (Nat.le_zero.mp h)])⟩
  | n + 1, s, h => by
    have hb : ∀ c ∈ s.takeWhile isWs, isWs c = true := fun c hc => (mem_takeWhile hc)
    cases hr : s.dropWhile isWs with
    | nil =>
      refine ⟨[], .none s ?_⟩
      have := List.takeWhile_append_dropWhile (p := isWs) (l := s)
      rw [hr, List.append_nil] at this
      rwa [this] at hb
    | cons c cs =>
      have hc : isWs c = false := by
        have := List.head?_dropWhile_not isWs s
        rw [hr] at this
        simpa using this
      have hlen : (s.takeWhile isWs).length + (c :: cs).length = s.length := by
        rw [← hr, ← List.length_append, List.takeWhile_append_dropWhile]
      have hd := List.takeWhile_append_dropWhile (p := fun c => !isWs c) (l := cs)
      have hl2 := congrArg List.length hd
      rw [List.length_append] at hl2
      simp only [List.length_cons] at hlen
      obtain ⟨words, hw⟩ := words_exist n (cs.dropWhile (fun c => !isWs c)) (by omega)
      have := Words.word (s.takeWhile isWs) (c :: cs.takeWhile (fun c => !isWs c)) (cs.dropWhile (fun c => !isWs c)) words hb
        (by
          intro x hx
          rcases List.mem_cons.mp hx with rfl | hx
          · exact hc
          · have := mem_takeWhile hx
            simpa using this) (by simp)
        (by
          intro x hx
          have := List.head?_dropWhile_not (fun c => !isWs c) cs
          rw [hx] at this
          simpa using this) hw
      rw [List.append_assoc, List.cons_append, hd, ← hr, List.takeWhile_append_dropWhile] at this
      exact ⟨_, this⟩

theorem words_iff (s : Str) (words : List Str) : Words s words ↔ splitWhitespace s = words := by
  refine ⟨words_split, ?_⟩
  rintro rfl
  obtain ⟨words, h⟩ := words_exist s.length s (Nat.le_refl _)
  rw [words_split h]
  exact h

theorem estimate_iff (s : Str) (n : Nat) : Estimate s n ↔ estimateTokens s = n := by
  unfold Estimate estimateTokens
  dsimp only
  constructor
  · rintro ⟨words, hw, rfl⟩
    rw [words_split hw, List.countP_eq_length_filter]
  · rintro rfl
    exact ⟨_, (words_iff _ _).mpr rfl, by rw [List.countP_eq_length_filter]⟩

/-! ## Counting the beginnings of words -/

/-- The number of words that begin in the text; `p`: white space precedes it. -/
def starts : Bool → Str → Nat
  | _, [] => 0
  | p, c :: cs => (if p && !isWs c then 1 else 0) + starts (isWs c) cs

theorem starts_le (s : Str) : starts false s ≤ starts true s := by
  cases s with
  | nil => exact Nat.le_refl _
  | cons c cs => simp [starts]

theorem starts_append : ∀ (a s : Str) (p : Bool), starts p (a ++ s) = starts p a + starts (match a.getLast? with
    | some c => isWs c
    | none => p) s
  | [], s, p => by simp [starts]
  | [c], s, p => by simp [starts]
  | c :: d :: a, s, p => by
    have ih := starts_append (d :: a) s (isWs c)
    have hl : (c :: d :: a).getLast? = (d :: a).getLast? := by simp [List.getLast?_cons]
    rw [hl]
    have hsome : ∃ x, (d :: a).getLast? = some x := ⟨_, List.getLast?_cons⟩
    obtain ⟨x, hx⟩ := hsome
    rw [hx] at ih ⊢
    dsimp only at ih ⊢
    rw [List.cons_append, starts, ih, ← Nat.add_assoc]
    rfl

theorem starts_words {s : Str} {words : List Str} (h : Words s words) : starts true s = words.length := by
  have hblank : ∀ (blank s : Str), (∀ c ∈ blank, isWs c = true) → starts true (blank ++ s) = starts true s := by
    intro blank s hb
    induction blank with
    | nil => rfl
    | cons c cs ih =>
      have hc : isWs c = true := hb c (by simp)
      rw [List.cons_append, starts, hc, ih (fun x hx => hb x (by simp [hx]))]
      simp
  have hword : ∀ (w s : Str), (∀ c ∈ w, isWs c = false) → starts false (w ++ s) = starts false s := by
    intro w s hb
    induction w with
    | nil => rfl
    | cons c cs ih =>
      have hc : isWs c = false := hb c (by simp)
      rw [List.cons_append, starts, hc, ih (fun x hx => hb x (by simp [hx]))]
      simp
  induction h with
  | none blank hb =>
    have := hblank blank [] hb
    rw [List.append_nil] at this
    rw [this]; rfl
  | word blank w rest words hb hw hn hr _ ih =>
    rw [List.append_assoc, hblank _ _ hb]
    cases w with
    | nil => exact absurd rfl hn
    | cons c cs =>
      have hc : isWs c = false := hw c (by simp)
      rw [List.cons_append, starts, hc, hword _ _ (fun x hx => hw x (by simp [hx]))]
      have he : starts false rest = starts true rest := by
        cases rest with
        | nil => rfl
        | cons x xs => simp [starts, hr x rfl]
      rw [he, ih]
      simp
      omega

theorem words_insert {a white b : Str} {ws ws' : List Str} (hw : ∀ c ∈ white, isWs c = true) (h : Words (a ++ b) ws)
    (h' : Words (a ++ white ++ b) ws') : ws.length ≤ ws'.length := by
  rw [← starts_words h, ← starts_words h', List.append_assoc, starts_append, starts_append]
  apply Nat.add_le_add_left
  generalize (match a.getLast? with
    | some c => isWs c
    | none => true) = p
  cases white with
  | nil => exact Nat.le_refl _
  | cons c cs =>
    rw [starts_append (c :: cs) b p]
    obtain ⟨x, hx⟩ : ∃ x, (c :: cs).getLast? = some x := ⟨_, List.getLast?_cons⟩
    rw [hx]
    dsimp only
    rw [hw x (List.mem_of_getLast? hx)]
    cases p
    · have := starts_le b; omega
    · omega

/-! ## Lines -/

theorem toString_string (s : String) : toString s = s := rfl

theorem natDigits_toDigits (n : Nat) : natDigits n = Nat.toDigits 10 n := natDigitsAux_toDigits (n + 1) n (by omega)

theorem statsText_lines (input toon : Str) :
    statsText input toon = unlines (statsLines (estimateTokens input) (estimateTokens toon)
      (B64.savedTenths (estimateTokens input - estimateTokens toon) (estimateTokens input))) := by
  unfold statsText statsLines unlines
  dsimp only
  generalize estimateTokens input = j
  generalize estimateTokens toon = t
  by_cases h : t < j
  · rw [if_pos (by omega), if_pos h]
    unfold B64.fixed1 B64.savedTenths
    dsimp only
    generalize B64.roundDiv _ _ = p
    simp [natDigits_toDigits, toString_string]
  · rw [if_neg (by omega), if_neg h]
    simp [natDigits_toDigits, toString_string]

theorem inputLabel_name (args : Args) : inputLabel args = (inputName args).toList := by
  unfold inputLabel inputName Args.isStdin
  cases args.input with
  | none => rfl
  | some p =>
    by_cases hp : p = "-".toList
    · simp [hp]
    · have : p ≠ ['-'] := hp
      simp [this]

theorem successNote_lines (verb : String) (args : Args) : successNote verb.toList args = unlines (noteLines verb args) := by
  unfold successNote noteLines unlines
  cases args.output with
  | none => rfl
  | some p => simp [inputLabel_name, toString_string]

end Toon
