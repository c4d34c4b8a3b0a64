import Verif.Model.Utf8
import Verif.Lemmas.Pad

/-!
# Byte offsets and character positions

`off s k` is the byte offset of the character position `k` of `s`.
-/

namespace Toon.Utf8

/-- The byte offset of a character position. -/
def off (s : Str) (k : Nat) : Nat := len (s.take k)

/-! ## UTF-8 encoding of one character -/

theorem enc_ascii {c : Char} (h : c.toNat < 128) :
    String.utf8EncodeChar c = [UInt8.ofNat c.toNat] := by
  have h' : c.val.toNat ≤ 127 := by
    have : c.toNat = c.val.toNat := rfl
    omega
  simp only [String.utf8EncodeChar]
  rw [if_pos h']; rfl

theorem enc_high {c : Char} (h : ¬ c.toNat < 128) :
    ∀ b ∈ String.utf8EncodeChar c, 128 ≤ b.toNat := by
  have h' : ¬ c.val.toNat ≤ 127 := by
    have : c.toNat = c.val.toNat := rfl
    omega
  intro b hb
  simp only [String.utf8EncodeChar] at hb
  rw [if_neg h'] at hb
  split at hb
  · simp only [List.mem_cons, List.not_mem_nil, or_false] at hb
    rcases hb with rfl | rfl <;> rw [UInt8.toNat_ofNat_of_lt' (by simp [UInt8.size]; omega)] <;> omega
  · split at hb
    · simp only [List.mem_cons, List.not_mem_nil, or_false] at hb
      rcases hb with rfl | rfl | rfl <;> rw [UInt8.toNat_ofNat_of_lt' (by simp [UInt8.size]; omega)] <;> omega
    · simp only [List.mem_cons, List.not_mem_nil, or_false] at hb
      rcases hb with rfl | rfl | rfl | rfl <;>
        rw [UInt8.toNat_ofNat_of_lt' (by simp [UInt8.size]; omega)] <;> omega

theorem enc_length_pos (c : Char) : 0 < (String.utf8EncodeChar c).length := by
  rw [String.length_utf8EncodeChar]; exact Char.utf8Size_pos c

theorem enc_cases (c : Char) : (c.toNat < 128 ∧ String.utf8EncodeChar c = [UInt8.ofNat c.toNat]) ∨
    (¬ c.toNat < 128 ∧ ∃ b bs, String.utf8EncodeChar c = b :: bs ∧ 128 ≤ b.toNat ∧ ∀ x ∈ bs, 128 ≤ x.toNat) := by
  by_cases h : c.toNat < 128
  · exact Or.inl ⟨h, enc_ascii h⟩
  · refine Or.inr ⟨h, ?_⟩
    have hp := enc_length_pos c
    have hh := enc_high h
    cases he : String.utf8EncodeChar c with
    | nil => rw [he] at hp; simp at hp
    | cons b bs =>
      rw [he] at hh
      exact ⟨b, bs, rfl, hh b (by simp), fun x hx => hh x (by simp [hx])⟩

/-- An ASCII character compares with an ASCII byte as the characters do. -/
theorem ascii_eq {c d : Char} (hc : c.toNat < 128) (hd : d.toNat < 128) :
    UInt8.ofNat c.toNat = UInt8.ofNat d.toNat ↔ c = d := by
  constructor
  · intro h
    have h2 := congrArg UInt8.toNat h
    rw [UInt8.toNat_ofNat_of_lt' (by simp [UInt8.size]; omega),
      UInt8.toNat_ofNat_of_lt' (by simp [UInt8.size]; omega)] at h2
    exact Char.toNat_inj.mp h2
  · rintro rfl; rfl

theorem high_ne {b : UInt8} (hb : 128 ≤ b.toNat) {x : UInt8} (hx : x.toNat < 128) : b ≠ x := by
  rintro rfl; omega

/-! ## Lengths and offsets -/

@[simp] theorem bytes_nil : bytes [] = [] := rfl

@[simp] theorem bytes_cons (c : Char) (s : Str) :
    bytes (c :: s) = String.utf8EncodeChar c ++ bytes s := rfl

theorem bytes_append (a b : Str) : bytes (a ++ b) = bytes a ++ bytes b := by
  simp [bytes, List.flatMap_append]

@[simp] theorem len_nil : len [] = 0 := rfl

@[simp] theorem len_cons (c : Char) (s : Str) :
    len (c :: s) = (String.utf8EncodeChar c).length + len s := by
  simp only [len, bytes_cons, List.length_append]

theorem len_append (a b : Str) : len (a ++ b) = len a + len b := by
  simp [len, bytes_append]

@[simp] theorem off_zero (s : Str) : off s 0 = 0 := by simp [off]

@[simp] theorem off_nil (k : Nat) : off [] k = 0 := by simp [off]

@[simp] theorem off_cons_succ (c : Char) (s : Str) (k : Nat) :
    off (c :: s) (k + 1) = (String.utf8EncodeChar c).length + off s k := by simp [off]

theorem off_add (s : Str) (i j : Nat) : off s (i + j) = off s i + off (s.drop i) j := by
  rw [off, off, off, List.take_add, len_append]

theorem off_length (s : Str) : off s s.length = len s := by simp [off]

theorem len_drop (s : Str) (k : Nat) : len s = off s k + len (s.drop k) := by
  rw [off, ← len_append, List.take_append_drop]

theorem off_succ_of {s : Str} {k : Nat} {c : Char} (h : s[k]? = some c) (hc : c.toNat < 128) :
    off s (k + 1) = off s k + 1 := by
  rw [off_add]
  have hk : k < s.length := (List.getElem?_eq_some_iff.mp h).1
  rw [List.drop_eq_getElem_cons hk]
  have : s[k] = c := (List.getElem?_eq_some_iff.mp h).2
  rw [this]
  simp [off, enc_ascii hc]

theorem off_lt {s : Str} {i j : Nat} (hij : i < j) (hj : j ≤ s.length) : off s i < off s j := by
  obtain ⟨d, rfl⟩ : ∃ d, j = i + (d + 1) := ⟨j - i - 1, by omega⟩
  rw [off_add]
  have hi : i < s.length := by omega
  rw [List.drop_eq_getElem_cons hi, off_cons_succ]
  have := enc_length_pos s[i]
  omega

theorem off_lt_iff {s : Str} {i j : Nat} (hi : i ≤ s.length) (hj : j ≤ s.length) :
    off s i < off s j ↔ i < j := by
  constructor
  · intro h
    rcases Nat.lt_trichotomy i j with h1 | h1 | h1
    · exact h1
    · subst h1; omega
    · have := off_lt h1 hi; omega
  · exact fun h => off_lt h hj

theorem off_inj {s : Str} {i j : Nat} (hi : i ≤ s.length) (hj : j ≤ s.length)
    (h : off s i = off s j) : i = j := by
  rcases Nat.lt_trichotomy i j with h1 | h1 | h1
  · have := off_lt h1 hj; omega
  · exact h1
  · have := off_lt h1 hi; omega

/-! ## Slicing -/

theorem splitAt_append (a b : Str) : splitAt (a ++ b) (len a) = some (a, b) := by
  induction a with
  | nil => cases b <;> simp [splitAt]
  | cons c a ih =>
    have hp := enc_length_pos c
    obtain ⟨n, hn⟩ : ∃ n, len (c :: a) = n + 1 := ⟨len (c :: a) - 1, by rw [len_cons]; omega⟩
    rw [hn, List.cons_append, splitAt, ← hn, if_pos (by rw [len_cons]; omega)]
    rw [show len (c :: a) - (String.utf8EncodeChar c).length = len a by rw [len_cons]; omega, ih]
    rfl

theorem splitAt_off (s : Str) (k : Nat) : splitAt s (off s k) = some (s.take k, s.drop k) := by
  have := splitAt_append (s.take k) (s.drop k)
  rwa [List.take_append_drop] at this

theorem splitAt_some : ∀ {s : Str} {i : Nat} {a b : Str}, splitAt s i = some (a, b) →
    s = a ++ b ∧ len a = i
  | s, 0, a, b, h => by
    cases s <;> simp only [splitAt, Option.some.injEq, Prod.mk.injEq] at h <;>
      (obtain ⟨rfl, rfl⟩ := h; simp)
  | [], i + 1, a, b, h => by simp [splitAt] at h
  | c :: s, i + 1, a, b, h => by
    rw [splitAt] at h
    split at h
    · rename_i hle
      rw [Option.map_eq_some_iff] at h
      obtain ⟨⟨a', b'⟩, h1, h2⟩ := h
      simp only [Prod.mk.injEq] at h2
      obtain ⟨rfl, rfl⟩ := h2
      obtain ⟨rfl, h3⟩ := splitAt_some h1
      refine ⟨rfl, ?_⟩
      rw [len_cons, h3]; omega
    · simp at h

theorem sliceFrom_off (s : Str) (k : Nat) : sliceFrom s (off s k) = .ok (s.drop k) := by
  rw [sliceFrom, splitAt_off]

theorem sliceTo_off (s : Str) (k : Nat) : sliceTo s (off s k) = .ok (s.take k) := by
  rw [sliceTo, splitAt_off]

theorem sliceRange_off (s : Str) {i j : Nat} (h : i ≤ j) :
    sliceRange s (off s i) (off s j) = .ok (slice s i j) := by
  obtain ⟨d, rfl⟩ : ∃ d, j = i + d := ⟨j - i, by omega⟩
  rw [sliceRange, if_pos (by rw [off_add]; omega), splitAt_off, splitAt_off]
  dsimp only
  rw [show off s (i + d) - off s i = off (s.drop i) d by rw [off_add]; omega, sliceTo_off, slice,
    Nat.add_sub_cancel_left]

/-! ## Searching -/

theorem find_eq (c : Char) (s : Str) : find c s = (findChar c s).map (off s) := by
  induction s with
  | nil => rfl
  | cons x xs ih =>
    rw [find, findChar]
    split
    · simp
    · rw [ih]
      cases findChar c xs <;> simp [Nat.add_comm]

theorem findFrom_eq (c : Char) (s : Str) (k : Nat) :
    findFrom c s (off s k) = .ok ((Toon.findFrom c s k).map (off s)) := by
  rw [findFrom, sliceFrom_off]
  simp only [bind, Except.bind, pure, Except.pure, find_eq, Toon.findFrom]
  cases findChar c (s.drop k) <;> simp [off_add]

theorem findChar_get {c : Char} {s : Str} {k : Nat} (h : findChar c s = some k) : s[k]? = some c := by
  induction s generalizing k with
  | nil => simp [findChar] at h
  | cons x xs ih =>
    rw [findChar] at h
    split at h
    · rename_i hx
      simp only [Option.some.injEq] at h
      subst h; subst hx; rfl
    · rw [Option.map_eq_some_iff] at h
      obtain ⟨j, hj, rfl⟩ := h
      simp [ih hj]

theorem findFrom_get {c : Char} {s : Str} {i k : Nat} (h : Toon.findFrom c s i = some k) :
    s[k]? = some c ∧ i ≤ k := by
  rw [Toon.findFrom, Option.map_eq_some_iff] at h
  obtain ⟨j, hj, rfl⟩ := h
  have := findChar_get hj
  rw [List.getElem?_drop] at this
  exact ⟨this, by omega⟩

theorem get_lt {s : Str} {k : Nat} {c : Char} (h : s[k]? = some c) : k < s.length :=
  (List.getElem?_eq_some_iff.mp h).1

/-! ## The loops over bytes -/

theorem closingB_cons {b : UInt8} (h1 : b ≠ 0x5C) (h2 : b ≠ 0x22) (rest : List UInt8) (i : Nat) :
    closingQuoteAux (b :: rest) i = closingQuoteAux rest (i + 1) := by
  cases rest with
  | nil => simp [closingQuoteAux, h2]
  | cons b' r => simp [closingQuoteAux, h1, h2]

theorem closingB_high {hs : List UInt8} (h : ∀ b ∈ hs, 128 ≤ b.toNat) (rest : List UInt8) (i : Nat) :
    closingQuoteAux (hs ++ rest) i = closingQuoteAux rest (i + hs.length) := by
  induction hs generalizing i with
  | nil => rfl
  | cons b hs ih =>
    rw [List.cons_append, closingB_cons (high_ne (h b (by simp)) (by decide))
      (high_ne (h b (by simp)) (by decide)), ih (fun x hx => h x (by simp [hx]))]
    congr 1; simp only [List.length_cons]; omega

theorem closingQuoteAux_step (c : Char) (rest : Str) (i : Nat) :
    Toon.closingQuoteAux (c :: rest) i =
      if c = '\\' then
        match rest with
        | [] => none
        | _ :: rest' => Toon.closingQuoteAux rest' (i + 2)
      else if c = '"' then some i
      else Toon.closingQuoteAux rest (i + 1) := by
  rw [Toon.closingQuoteAux.eq_def]; rfl

theorem closingQuoteAux_shift (s : Str) (i : Nat) :
    Toon.closingQuoteAux s i = (Toon.closingQuoteAux s 0).map (i + ·) := by
  have key : ∀ n (s : Str), s.length ≤ n → ∀ i j, Toon.closingQuoteAux s (i + j) =
      (Toon.closingQuoteAux s j).map (i + ·) := by
    intro n
    induction n with
    | zero => intro s hs i j; have : s = [] := List.length_eq_zero_iff.mp (by omega); subst this; rfl
    | succ n ih =>
      intro s hs i j
      cases s with
      | nil => rfl
      | cons c rest =>
        simp only [List.length_cons] at hs
        rw [closingQuoteAux_step, closingQuoteAux_step]
        split
        · cases rest with
          | nil => rfl
          | cons d r =>
            simp only [List.length_cons] at hs
            dsimp only
            rw [Nat.add_assoc, ih r (by omega)]
        · split
          · rfl
          · rw [Nat.add_assoc, ih rest (by omega)]
  exact key s.length s (Nat.le_refl _) i 0

theorem closingQuoteAux_eq : ∀ n (s : Str), s.length ≤ n → ∀ i,
    closingQuoteAux (bytes s) i = (Toon.closingQuoteAux s 0).map (fun k => i + off s k) := by
  intro n
  induction n with
  | zero => intro s hs i; have : s = [] := List.length_eq_zero_iff.mp (by omega); subst this; rfl
  | succ n ih =>
    intro s hs i
    cases s with
    | nil => rfl
    | cons c rest =>
      simp only [List.length_cons] at hs
      rw [closingQuoteAux_step, bytes_cons]
      rcases enc_cases c with ⟨hc, he⟩ | ⟨hc, b, bs, he, hb, hbs⟩
      · rw [he, List.singleton_append]
        by_cases h1 : c = '\\'
        · subst h1
          cases rest with
          | nil => rfl
          | cons d r =>
            simp only [List.length_cons] at hs
            rw [if_pos rfl]
            dsimp only
            have hd : ∃ b bs, String.utf8EncodeChar d = b :: bs ∧ ∀ x ∈ bs, 128 ≤ x.toNat := by
              rcases enc_cases d with ⟨hd, hde⟩ | ⟨hd, b, bs, hde, hb, hbs⟩
              · exact ⟨_, [], hde, by simp⟩
              · exact ⟨b, bs, hde, hbs⟩
            obtain ⟨b, bs, hde, hbs⟩ := hd
            rw [bytes_cons, hde, List.cons_append, closingQuoteAux]
            rw [if_pos (by decide), closingB_high hbs, ih r (by omega), closingQuoteAux_shift r (0 + 2),
              Option.map_map]
            congr 1
            funext k
            simp only [Function.comp]
            rw [show 0 + 2 + k = (k + 1) + 1 by omega, off_cons_succ, off_cons_succ, he, hde]
            simp only [List.length_cons, List.length_nil]; omega
        · rw [if_neg h1]
          have hb1 : UInt8.ofNat c.toNat ≠ 0x5C := fun h => h1 ((ascii_eq hc (d := '\\') (by decide)).mp h)
          by_cases h2 : c = '"'
          · subst h2
            rw [if_pos rfl]
            cases bytes rest <;> simp [closingQuoteAux]
          · rw [if_neg h2]
            have hb2 : UInt8.ofNat c.toNat ≠ 0x22 := fun h => h2 ((ascii_eq hc (d := '"') (by decide)).mp h)
            rw [closingB_cons hb1 hb2, ih rest (by omega), closingQuoteAux_shift rest (0 + 1), Option.map_map]
            congr 1
            funext k
            simp only [Function.comp]
            rw [show 0 + 1 + k = k + 1 by omega, off_cons_succ, he]
            simp only [List.length_cons, List.length_nil]; omega
      · have h1 : c ≠ '\\' := by rintro rfl; exact hc (by decide)
        have h2 : c ≠ '"' := by rintro rfl; exact hc (by decide)
        rw [if_neg h1, if_neg h2, closingB_high (enc_high hc), ih rest (by omega),
          closingQuoteAux_shift rest (0 + 1), Option.map_map]
        congr 1
        funext k
        simp only [Function.comp]
        rw [show 0 + 1 + k = k + 1 by omega, off_cons_succ]
        omega

/-- The quoted text starts with an ASCII character (a quote) at every call. -/
theorem findClosingQuote_eq {s : Str} (hs : s.head? = some '"') :
    findClosingQuote s 0 = (Toon.findClosingQuote s 0).map (off s) := by
  cases s with
  | nil => simp at hs
  | cons c rest =>
    simp only [List.head?_cons, Option.some.injEq] at hs
    subst hs
    have he : String.utf8EncodeChar '"' = [0x22] := by decide
    rw [findClosingQuote, if_neg (by simp [he]), bytes_cons, he, Toon.findClosingQuote]
    simp only [List.drop_zero, List.singleton_append, List.drop_succ_cons, Nat.zero_add]
    rw [closingQuoteAux_eq _ _ (Nat.le_refl _), closingQuoteAux_shift rest 1, Option.map_map]
    congr 1
    funext k
    simp only [Function.comp]
    rw [Nat.add_comm 1 k, off_cons_succ, he]
    rfl

theorem closingQuoteAux_get : ∀ n (s : Str), s.length ≤ n → ∀ {k}, Toon.closingQuoteAux s 0 = some k →
    s[k]? = some '"' := by
  intro n
  induction n with
  | zero => intro s hs k h; have : s = [] := List.length_eq_zero_iff.mp (by omega); subst this; simp [Toon.closingQuoteAux] at h
  | succ n ih =>
    intro s hs k h
    cases s with
    | nil => simp [Toon.closingQuoteAux] at h
    | cons c rest =>
      simp only [List.length_cons] at hs
      rw [closingQuoteAux_step] at h
      split at h
      · cases rest with
        | nil => simp at h
        | cons d r =>
          simp only [List.length_cons] at hs
          dsimp only at h
          rw [closingQuoteAux_shift, Option.map_eq_some_iff] at h
          obtain ⟨j, hj, rfl⟩ := h
          rw [show 0 + 2 + j = j + 1 + 1 by omega, List.getElem?_cons_succ, List.getElem?_cons_succ]
          exact ih r (by omega) hj
      · split at h
        · rename_i h1 h2
          simp only [Option.some.injEq] at h
          subst h; subst h2; rfl
        · rw [closingQuoteAux_shift, Option.map_eq_some_iff] at h
          obtain ⟨j, hj, rfl⟩ := h
          rw [show 0 + 1 + j = j + 1 by omega, List.getElem?_cons_succ]
          exact ih rest (by omega) hj

theorem findClosingQuote_get {s : Str} {k : Nat} (h : Toon.findClosingQuote s 0 = some k) :
    s[k]? = some '"' ∧ 1 ≤ k := by
  cases s with
  | nil => simp [Toon.findClosingQuote] at h
  | cons c rest =>
    simp only [Toon.findClosingQuote, List.drop_zero] at h
    rw [closingQuoteAux_shift, Option.map_eq_some_iff] at h
    obtain ⟨j, hj, rfl⟩ := h
    rw [show 0 + 1 + j = j + 1 by omega, List.getElem?_cons_succ]
    exact ⟨closingQuoteAux_get _ _ (Nat.le_refl _) hj, by omega⟩

theorem unquotedB_cons {t b : UInt8} (h1 : b ≠ 0x5C) (h2 : b ≠ 0x22) (h3 : b ≠ t) (rest : List UInt8)
    (i : Nat) (q : Bool) : unquotedCharAux t (b :: rest) i q = unquotedCharAux t rest (i + 1) q := by
  cases rest with
  | nil => simp [unquotedCharAux, h3]
  | cons b' r => simp [unquotedCharAux, h1, h2, h3]

theorem unquotedB_high {t : UInt8} (ht : t.toNat < 128) {hs : List UInt8} (h : ∀ b ∈ hs, 128 ≤ b.toNat)
    (rest : List UInt8) (i : Nat) (q : Bool) :
    unquotedCharAux t (hs ++ rest) i q = unquotedCharAux t rest (i + hs.length) q := by
  induction hs generalizing i with
  | nil => rfl
  | cons b hs ih =>
    rw [List.cons_append, unquotedB_cons (high_ne (h b (by simp)) (by decide))
      (high_ne (h b (by simp)) (by decide)) (high_ne (h b (by simp)) ht), ih (fun x hx => h x (by simp [hx]))]
    congr 1; simp only [List.length_cons]; omega

theorem unquotedCharAux_step (t c : Char) (rest : Str) (i : Nat) (q : Bool) :
    Toon.unquotedCharAux t (c :: rest) i q =
      if q && c = '\\' then
        match rest with
        | [] => none
        | _ :: rest' => Toon.unquotedCharAux t rest' (i + 2) q
      else if c = '"' then Toon.unquotedCharAux t rest (i + 1) (!q)
      else if c = t && !q then some i
      else Toon.unquotedCharAux t rest (i + 1) q := by
  rw [Toon.unquotedCharAux.eq_def]; rfl

theorem unquotedCharAux_shift (t : Char) (s : Str) (i : Nat) (q : Bool) :
    Toon.unquotedCharAux t s i q = (Toon.unquotedCharAux t s 0 q).map (i + ·) := by
  have key : ∀ n (s : Str), s.length ≤ n → ∀ i j q, Toon.unquotedCharAux t s (i + j) q =
      (Toon.unquotedCharAux t s j q).map (i + ·) := by
    intro n
    induction n with
    | zero => intro s hs i j q; have : s = [] := List.length_eq_zero_iff.mp (by omega); subst this; rfl
    | succ n ih =>
      intro s hs i j q
      cases s with
      | nil => rfl
      | cons c rest =>
        simp only [List.length_cons] at hs
        rw [unquotedCharAux_step, unquotedCharAux_step]
        split
        · cases rest with
          | nil => rfl
          | cons d r =>
            simp only [List.length_cons] at hs
            dsimp only
            rw [Nat.add_assoc, ih r (by omega)]
        · split
          · rw [Nat.add_assoc, ih rest (by omega)]
          · split
            · rfl
            · rw [Nat.add_assoc, ih rest (by omega)]
  exact key s.length s (Nat.le_refl _) i 0 q

theorem unquotedCharAux_eq {t : Char} (ht : t.toNat < 128) : ∀ n (s : Str), s.length ≤ n → ∀ i q,
    unquotedCharAux (UInt8.ofNat t.toNat) (bytes s) i q =
      (Toon.unquotedCharAux t s 0 q).map (fun k => i + off s k) := by
  have htb : (UInt8.ofNat t.toNat).toNat < 128 := by
    rw [UInt8.toNat_ofNat_of_lt' (by simp [UInt8.size]; omega)]; exact ht
  intro n
  induction n with
  | zero => intro s hs i q; have : s = [] := List.length_eq_zero_iff.mp (by omega); subst this; rfl
  | succ n ih =>
    intro s hs i q
    cases s with
    | nil => rfl
    | cons c rest =>
      simp only [List.length_cons] at hs
      rw [unquotedCharAux_step, bytes_cons]
      have step : ∀ q', (Toon.unquotedCharAux t rest 0 q').map
            (fun k => i + (String.utf8EncodeChar c).length + off rest k) =
          (Toon.unquotedCharAux t rest (0 + 1) q').map (fun k => i + off (c :: rest) k) := by
        intro q'
        rw [unquotedCharAux_shift t rest (0 + 1), Option.map_map]
        congr 1
        funext k
        simp only [Function.comp]
        rw [show 0 + 1 + k = k + 1 by omega, off_cons_succ]
        omega
      rcases enc_cases c with ⟨hc, he⟩ | ⟨hc, b, bs, he, hb, hbs⟩
      · have hlen : (String.utf8EncodeChar c).length = 1 := by rw [he]; rfl
        rw [hlen] at step
        rw [he, List.singleton_append]
        have e1 : (UInt8.ofNat c.toNat == (0x5C : UInt8)) = decide (c = '\\') := by
          rw [Bool.eq_iff_iff]; simp only [beq_iff_eq, decide_eq_true_eq]
          exact ascii_eq hc (d := '\\') (by decide)
        have e2 : UInt8.ofNat c.toNat = (0x22 : UInt8) ↔ c = '"' := ascii_eq hc (d := '"') (by decide)
        have e3 : (UInt8.ofNat c.toNat == UInt8.ofNat t.toNat) = decide (c = t) := by
          rw [Bool.eq_iff_iff]; simp only [beq_iff_eq, decide_eq_true_eq]
          exact ascii_eq hc ht
        cases rest with
        | nil =>
          rw [bytes_nil, unquotedCharAux]
          simp only [e2, e3]
          by_cases hq : c = '"'
          · subst hq; simp [Toon.unquotedCharAux]
          · simp only [if_neg hq]
            by_cases h3 : (decide (c = t) && !q) = true
            · have hq' : q = false := by cases q <;> simp_all
              have hct : c = t := by simpa [hq'] using h3
              subst hq'
              simp [hct]
            · rw [if_neg h3, if_neg h3]
              split <;> simp [Toon.unquotedCharAux]
        | cons d r =>
          simp only [List.length_cons] at hs
          obtain ⟨db, dbs, hde, hdbs⟩ : ∃ b bs, String.utf8EncodeChar d = b :: bs ∧ ∀ x ∈ bs, 128 ≤ x.toNat := by
            rcases enc_cases d with ⟨hd, hde⟩ | ⟨hd, b, bs, hde, hb, hbs⟩
            · exact ⟨_, [], hde, by simp⟩
            · exact ⟨b, bs, hde, hbs⟩
          have hbd : bytes (d :: r) = db :: (dbs ++ bytes r) := by rw [bytes_cons, hde, List.cons_append]
          rw [hbd, unquotedCharAux, ← hbd]
          simp only [e1, e2, e3]
          by_cases h1 : (q && decide (c = '\\')) = true
          · simp only [h1, if_true]
            rw [unquotedB_high htb hdbs, ih r (by omega), unquotedCharAux_shift t r (0 + 2), Option.map_map]
            congr 1
            funext k
            simp only [Function.comp]
            rw [show 0 + 2 + k = (k + 1) + 1 by omega, off_cons_succ, off_cons_succ, he, hde]
            simp only [List.length_cons, List.length_nil]; omega
          · simp only [h1, if_false]
            by_cases hq : c = '"'
            · simp only [hq, if_true]
              rw [ih (d :: r) (by simp only [List.length_cons]; omega)]
              subst hq
              exact step _
            · simp only [if_neg hq]
              by_cases h3 : (decide (c = t) && !q) = true
              · simp [h3]
              · simp only [h3]
                rw [ih (d :: r) (by simp only [List.length_cons]; omega)]
                exact step _
      · have h1 : c ≠ '\\' := by rintro rfl; exact hc (by decide)
        have h2 : c ≠ '"' := by rintro rfl; exact hc (by decide)
        have h3 : c ≠ t := by rintro rfl; exact hc ht
        rw [unquotedB_high htb (enc_high hc), ih rest (by omega), step]
        simp [h1, h2, h3]

theorem findUnquotedChar_eq (s : Str) (t : Char) :
    findUnquotedChar s t = (Toon.findUnquotedChar s t).map (off s) := by
  rw [findUnquotedChar, Toon.findUnquotedChar]
  split
  · rename_i ht
    rw [unquotedCharAux_eq ht _ _ (Nat.le_refl _)]
    simp only [Nat.zero_add]
  · rfl

theorem unquotedCharAux_lt (t : Char) : ∀ n (s : Str), s.length ≤ n → ∀ {q k},
    Toon.unquotedCharAux t s 0 q = some k → k < s.length := by
  intro n
  induction n with
  | zero => intro s hs q k h; have : s = [] := List.length_eq_zero_iff.mp (by omega); subst this; simp [Toon.unquotedCharAux] at h
  | succ n ih =>
    intro s hs q k h
    cases s with
    | nil => simp [Toon.unquotedCharAux] at h
    | cons c rest =>
      simp only [List.length_cons] at hs
      rw [unquotedCharAux_step] at h
      split at h
      · cases rest with
        | nil => simp at h
        | cons d r =>
          simp only [List.length_cons] at hs
          dsimp only at h
          rw [unquotedCharAux_shift, Option.map_eq_some_iff] at h
          obtain ⟨j, hj, rfl⟩ := h
          have := ih r (by omega) hj
          simp only [List.length_cons]; omega
      · split at h
        · rw [unquotedCharAux_shift, Option.map_eq_some_iff] at h
          obtain ⟨j, hj, rfl⟩ := h
          have := ih rest (by omega) hj
          simp only [List.length_cons]; omega
        · split at h
          · simp only [Option.some.injEq] at h
            subst h; simp
          · rw [unquotedCharAux_shift, Option.map_eq_some_iff] at h
            obtain ⟨j, hj, rfl⟩ := h
            have := ih rest (by omega) hj
            simp only [List.length_cons]; omega

theorem findUnquotedChar_lt {s : Str} {t : Char} {k : Nat} (h : Toon.findUnquotedChar s t = some k) :
    k < s.length := by
  rw [Toon.findUnquotedChar] at h
  split at h
  · exact unquotedCharAux_lt t _ _ (Nat.le_refl _) h
  · simp at h

end Toon.Utf8
