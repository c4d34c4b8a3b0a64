import Verif.Lemmas.Utf8

/-!
# The byte-level parser functions compute what the character-level ones do
-/

namespace Toon.Utf8

@[simp] theorem lift_ok {α : Type} (a : α) : lift (.ok a : Except Err α) = .ok a := rfl
@[simp] theorem lift_error {α : Type} (e : Err) : lift (.error e : Except Err α) = .error (.fail e) := rfl

@[simp] theorem ok_bind {ε α β : Type} (a : α) (f : α → Except ε β) :
    ((Except.ok a : Except ε α) >>= f) = f a := rfl
@[simp] theorem error_bind {ε α β : Type} (e : ε) (f : α → Except ε β) :
    ((Except.error e : Except ε α) >>= f) = .error e := rfl
@[simp] theorem pure_ok {ε α : Type} (a : α) : (pure a : Except ε α) = .ok a := rfl
@[simp] theorem throw_error {ε α : Type} (e : ε) : (throw e : Except ε α) = .error e := rfl

theorem lift_bind {α β : Type} (x : Except Err α) (f : α → Except Err β) :
    lift (x >>= f) = lift x >>= fun a => lift (f a) := by
  cases x <;> rfl

/-! ## Numbers -/

theorem digit_ascii {c : Char} (hc : c.toNat < 128) : isDigit (UInt8.ofNat c.toNat) = c.isDigit := by
  have h : (UInt8.ofNat c.toNat).toNat = c.toNat := UInt8.toNat_ofNat_of_lt' (by simp [UInt8.size]; omega)
  rw [Bool.eq_iff_iff]
  simp only [isDigit, Char.isDigit, Bool.and_eq_true, decide_eq_true_eq, UInt8.le_iff_toNat_le, h,
    UInt32.le_iff_toNat_le, ge_iff_le]
  exact Iff.rfl

theorem digit_high {b : UInt8} (hb : 128 ≤ b.toNat) : isDigit b = false := by
  simp only [isDigit, Bool.and_eq_false_iff, decide_eq_false_iff_not, UInt8.le_iff_toNat_le]
  right
  have : (0x39 : UInt8).toNat = 57 := rfl
  omega

theorem digit_char_ascii {c : Char} (h : c.isDigit = true) : c.toNat < 128 := by
  simp only [Char.isDigit, Bool.and_eq_true, decide_eq_true_eq, UInt32.le_iff_toNat_le] at h
  have h2 := h.2
  have : c.toNat = c.val.toNat := rfl
  have : '9'.val.toNat = 57 := rfl
  omega

/-- The first byte of a text tells the first character apart from every ASCII character, and the
rest follows it when it is ASCII. -/
theorem bytes_view (s : Str) : (s = [] ∧ bytes s = []) ∨
    (∃ c r, s = c :: r ∧ c.toNat < 128 ∧ bytes s = UInt8.ofNat c.toNat :: bytes r) ∨
    (∃ c r b bs, s = c :: r ∧ ¬ c.toNat < 128 ∧ bytes s = b :: bs ∧ 128 ≤ b.toNat) := by
  cases s with
  | nil => exact Or.inl ⟨rfl, rfl⟩
  | cons c r =>
    rcases enc_cases c with ⟨hc, he⟩ | ⟨hc, b, bs, he, hb, hbs⟩
    · exact Or.inr (Or.inl ⟨c, r, rfl, hc, by rw [bytes_cons, he]; rfl⟩)
    · exact Or.inr (Or.inr ⟨c, r, b, bs ++ bytes r, rfl, hc, by rw [bytes_cons, he]; rfl, hb⟩)

theorem bytes_isEmpty (s : Str) : (bytes s).isEmpty = s.isEmpty := by
  rcases bytes_view s with ⟨rfl, h⟩ | ⟨c, r, rfl, hc, h⟩ | ⟨c, r, b, bs, rfl, hc, h, hb⟩ <;> simp [h]

theorem takeWhile_bytes {p : UInt8 → Bool} {q : Char → Bool} (ha : ∀ c : Char, c.toNat < 128 →
    p (UInt8.ofNat c.toNat) = q c) (hb : ∀ b : UInt8, 128 ≤ b.toNat → p b = false)
    (hq : ∀ c, q c = true → c.toNat < 128) (s : Str) :
    (bytes s).takeWhile p = bytes (s.takeWhile q) ∧ (bytes s).dropWhile p = bytes (s.dropWhile q) ∧
      len (s.takeWhile q) = (s.takeWhile q).length := by
  induction s with
  | nil => exact ⟨rfl, rfl, rfl⟩
  | cons c s ih =>
    obtain ⟨ih1, ih2, ih3⟩ := ih
    rcases enc_cases c with ⟨hc, he⟩ | ⟨hc, b, bs, he, hb', hbs⟩
    · rw [bytes_cons, he, List.singleton_append, List.takeWhile_cons, List.dropWhile_cons, ha c hc,
        List.takeWhile_cons, List.dropWhile_cons]
      cases q c
      · simp [he]
      · simp only [if_true, ih1, ih2, bytes_cons, he, List.singleton_append, len_cons, ih3,
          List.length_cons, List.length_nil, true_and]
        omega
    · have hqc : q c = false := by
        cases h : q c
        · rfl
        · exact absurd (hq c h) hc
      rw [bytes_cons, he, List.cons_append, List.takeWhile_cons, List.dropWhile_cons, hb b hb',
        List.takeWhile_cons, List.dropWhile_cons, hqc]
      simp [he]

theorem spanDigits_eq (s : Str) : spanDigits (bytes s) =
    (bytes (Toon.spanDigits s).1, bytes (Toon.spanDigits s).2) := by
  have h := takeWhile_bytes (p := isDigit) (q := Char.isDigit) (fun c hc => digit_ascii hc)
    (fun b hb => digit_high hb) (fun c hc => digit_char_ascii hc) s
  rw [spanDigits, Toon.spanDigits, h.1, h.2.1]

theorem byte_is {c d : Char} (hc : c.toNat < 128) (hd : d.toNat < 128) {x : UInt8}
    (hx : x = UInt8.ofNat d.toNat) : (UInt8.ofNat c.toNat = x) = (c = d) := by
  subst hx; exact propext (ascii_eq hc hd)

/-- The optional sign of an exponent, on bytes. -/
def signB (r1 : List UInt8) : List UInt8 :=
  match r1 with
  | [] => r1
  | s :: r2 => if s = 0x2B || s = 0x2D then r2 else r1

/-- The optional sign of an exponent, on characters. -/
def signC (r1 : Str) : Str :=
  match r1 with
  | '+' :: r2 => r2
  | '-' :: r2 => r2
  | _ => r1

/-- The optional exponent, on bytes. -/
def expB (r : List UInt8) : Bool :=
  match r with
  | [] => true
  | b :: r1 =>
    if b = 0x65 || b = 0x45 then
      !(spanDigits (signB r1)).1.isEmpty && (spanDigits (signB r1)).2.isEmpty
    else false

/-- The optional exponent, on characters. -/
def expC (r : Str) : Bool :=
  match r with
  | [] => true
  | c :: r1 =>
    if c == 'e' || c == 'E' then
      !(Toon.spanDigits (signC r1)).1.isEmpty && (Toon.spanDigits (signC r1)).2.isEmpty
    else false

/-- The optional fraction, on bytes. -/
def fracB (bs : List UInt8) : Option (List UInt8) :=
  match bs with
  | [] => some bs
  | b :: r =>
    if b = 0x2E then
      if (spanDigits r).1.isEmpty then none else some (spanDigits r).2
    else some bs

/-- The optional fraction, on characters. -/
def fracC (s : Str) : Option Str :=
  match s with
  | '.' :: r => if (Toon.spanDigits r).1.isEmpty then none else some (Toon.spanDigits r).2
  | _ => some s

theorem numTailB (bs : List UInt8) : numTail bs = match fracB bs with
    | none => false
    | some r => expB r := rfl

theorem numTailC (s : Str) : Toon.numTail s = match fracC s with
    | none => false
    | some r => expC r := rfl

theorem sign_eq (r1 : Str) : signB (bytes r1) = bytes (signC r1) := by
  rcases bytes_view r1 with ⟨rfl, h⟩ | ⟨c, r, rfl, hc, h⟩ | ⟨c, r, b, bs, rfl, hc, h, hb⟩
  · rfl
  · rw [h, signB]
    simp only [byte_is hc (d := '+') (by decide) (x := 0x2B) rfl,
      byte_is hc (d := '-') (by decide) (x := 0x2D) rfl]
    by_cases h1 : c = '+'
    · subst h1; simp [signC]
    · by_cases h2 : c = '-'
      · subst h2; simp [signC]
      · simp only [h1, h2, decide_false, Bool.or_self, Bool.false_eq_true, if_false]
        rw [← h, signC]
        · intro r2 hx; exact h1 (List.cons.inj hx).1
        · intro r2 hx; exact h2 (List.cons.inj hx).1
  · have h1 := high_ne hb (x := 0x2B) (by decide)
    have h2 := high_ne hb (x := 0x2D) (by decide)
    have c1 : c ≠ '+' := by rintro rfl; exact hc (by decide)
    have c2 : c ≠ '-' := by rintro rfl; exact hc (by decide)
    rw [h, signB]
    simp only [h1, h2, decide_false, Bool.or_self, Bool.false_eq_true, if_false]
    rw [← h, signC]
    · intro r2 hx; exact c1 (List.cons.inj hx).1
    · intro r2 hx; exact c2 (List.cons.inj hx).1

theorem exp_eq (r : Str) : expB (bytes r) = expC r := by
  rcases bytes_view r with ⟨rfl, h⟩ | ⟨c, r1, rfl, hc, h⟩ | ⟨c, r1, b, bs, rfl, hc, h, hb⟩
  · rfl
  · rw [h, expB, expC]
    simp only [byte_is hc (d := 'e') (by decide) (x := 0x65) rfl,
      byte_is hc (d := 'E') (by decide) (x := 0x45) rfl, sign_eq, spanDigits_eq, bytes_isEmpty,
      beq_iff_eq, Bool.or_eq_true, decide_eq_true_eq]
  · rw [h, expB, expC]
    have c1 : c ≠ 'e' := by rintro rfl; exact hc (by decide)
    have c2 : c ≠ 'E' := by rintro rfl; exact hc (by decide)
    simp [high_ne hb (x := 0x65) (by decide), high_ne hb (x := 0x45) (by decide), c1, c2]

theorem frac_eq (s : Str) : fracB (bytes s) = (fracC s).map bytes := by
  rcases bytes_view s with ⟨rfl, h⟩ | ⟨c, r, rfl, hc, h⟩ | ⟨c, r, b, bs, rfl, hc, h, hb⟩
  · rfl
  · rw [h, fracB]
    simp only [byte_is hc (d := '.') (by decide) (x := 0x2E) rfl, spanDigits_eq, bytes_isEmpty]
    by_cases h1 : c = '.'
    · subst h1
      simp only [if_true, fracC]
      split <;> rfl
    · simp only [h1, if_false]
      rw [← h, fracC]
      · rfl
      · intro r2 hx; exact h1 (List.cons.inj hx).1
  · have c1 : c ≠ '.' := by rintro rfl; exact hc (by decide)
    rw [h, fracB]
    simp only [high_ne hb (x := 0x2E) (by decide), if_false]
    rw [← h, fracC]
    · rfl
    · intro r2 hx; exact c1 (List.cons.inj hx).1

theorem numTail_eq (s : Str) : numTail (bytes s) = Toon.numTail s := by
  rw [numTailB, numTailC, frac_eq]
  cases fracC s with
  | none => rfl
  | some r => exact exp_eq r

theorem stripMinus_eq (s : Str) : stripMinus (bytes s) = (Toon.stripMinus s).map bytes := by
  rcases bytes_view s with ⟨rfl, h⟩ | ⟨c, r, rfl, hc, h⟩ | ⟨c, r, b, bs, rfl, hc, h, hb⟩
  · rfl
  · rw [h, stripMinus]
    simp only [byte_is hc (d := '-') (by decide) (x := 0x2D) rfl, bytes_isEmpty]
    by_cases h1 : c = '-'
    · subst h1
      cases r <;> simp [Toon.stripMinus]
    · rw [if_neg h1, ← h]
      have : Toon.stripMinus (c :: r) = some (c :: r) := by
        cases r <;> simp [Toon.stripMinus, h1]
      rw [this]; rfl
  · have c1 : c ≠ '-' := by rintro rfl; exact hc (by decide)
    rw [h, stripMinus, if_neg (high_ne hb (by decide)), ← h]
    have : Toon.stripMinus (c :: r) = some (c :: r) := by
      cases r <;> simp [Toon.stripMinus, c1]
    rw [this]; rfl

theorem isNumericSyntax_eq (s : Str) : isNumericSyntax (bytes s) = Toon.isNumericSyntax s := by
  rw [isNumericSyntax, Toon.isNumericSyntax, stripMinus_eq]
  cases Toon.stripMinus s with
  | none => rfl
  | some body =>
    simp only [Option.map_some]
    rcases bytes_view body with ⟨rfl, h⟩ | ⟨c, r, rfl, hc, h⟩ | ⟨c, r, b, bs, rfl, hc, h, hb⟩
    · rfl
    · rw [h]
      simp only [byte_is hc (d := '0') (by decide) (x := 0x30) rfl, digit_ascii hc, beq_iff_eq]
      by_cases h1 : c = '0'
      · simp only [h1, if_true]
        rcases bytes_view r with ⟨rfl, h'⟩ | ⟨c', r', rfl, hc', h'⟩ | ⟨c', r', b', bs', rfl, hc', h', hb'⟩
        · rw [h']; exact numTail_eq []
        · rw [h']; dsimp only; rw [digit_ascii hc', ← h', numTail_eq]
        · rw [h']; dsimp only
          have : c'.isDigit = false := by
            cases hd : c'.isDigit
            · rfl
            · exact absurd (digit_char_ascii hd) hc'
          rw [digit_high hb', this, ← h', numTail_eq]
      · simp only [h1, if_false]
        rw [← h, spanDigits_eq, numTail_eq]
    · rw [h]
      have c1 : c ≠ '0' := by rintro rfl; exact hc (by decide)
      have hd : c.isDigit = false := by
        cases hd : c.isDigit
        · rfl
        · exact absurd (digit_char_ascii hd) hc
      simp [high_ne hb (x := 0x30) (by decide), c1, hd, digit_high hb]

theorem isNumericLiteral_eq (F : Type) [F64 F] (s : Str) : isNumericLiteral F s = Toon.isNumericLiteral F s := by
  rw [isNumericLiteral, Toon.isNumericLiteral, isNumericSyntax_eq]; rfl

theorem len_digits {s : Str} (h : ∀ c ∈ s, c.isDigit = true) : (bytes s).length = s.length := by
  induction s with
  | nil => rfl
  | cons c s ih =>
    have hc := digit_char_ascii (h c (by simp))
    rw [bytes_cons, enc_ascii hc, List.singleton_append, List.length_cons, List.length_cons,
      ih fun x hx => h x (by simp [hx])]

theorem isNumericLike_eq (s : Str) : isNumericLike s = Toon.isNumericLike s := by
  rw [isNumericLike, Toon.isNumericLike, stripMinus_eq]
  cases Toon.stripMinus (trim s) with
  | none => rfl
  | some body =>
    simp only [Option.map_some, spanDigits_eq, bytes_isEmpty, numTail_eq]
    have hall : ∀ c ∈ (Toon.spanDigits body).1, c.isDigit = true := by
      intro c hc
      exact (List.all_eq_true.mp (List.all_takeWhile (l := body) (p := Char.isDigit))) c hc
    rw [len_digits hall]
    have hh : ((bytes (Toon.spanDigits body).1).head? == some 0x30) =
        ((Toon.spanDigits body).1.head? == some '0') := by
      generalize (Toon.spanDigits body).1 = ds at hall
      rcases bytes_view ds with ⟨rfl, h⟩ | ⟨c, r, rfl, hc, h⟩ | ⟨c, r, b, bs, rfl, hc, h, hb⟩
      · rfl
      · rw [h]
        simp only [List.head?_cons]
        rw [Bool.eq_iff_iff]
        simp only [beq_iff_eq, Option.some.injEq, byte_is hc (d := '0') (by decide) (x := 0x30) rfl]
      · exact absurd (digit_char_ascii (hall c (by simp))) hc
    rw [hh]

/-! ## String literals and keys -/

theorem one_off {s : Str} (h : s.head? = some '"') : off s 1 = 1 := by
  cases s with
  | nil => simp at h
  | cons c r =>
    simp only [List.head?_cons, Option.some.injEq] at h
    subst h
    rw [off_cons_succ, off_zero, enc_ascii (by decide)]
    rfl

theorem parseStringLiteral_eq (t : Str) : parseStringLiteral t = lift (Toon.parseStringLiteral t) := by
  rw [parseStringLiteral, Toon.parseStringLiteral]
  split
  · rename_i hq
    rw [findClosingQuote_eq hq]
    cases hc : Toon.findClosingQuote (trim t) 0 with
    | none => rfl
    | some k =>
      simp only [Option.map_some]
      obtain ⟨hg, hk⟩ := findClosingQuote_get hc
      have hlt := get_lt hg
      have hsucc := off_succ_of hg (by decide)
      have hiff : off (trim t) k ≠ len (trim t) - 1 ↔ k ≠ (trim t).length - 1 := by
        refine not_congr ?_
        constructor
        · intro h
          have h2 : off (trim t) (k + 1) = off (trim t) (trim t).length := by
            rw [hsucc, off_length, h]
            have := len_drop (trim t) (k + 1)
            omega
          have := off_inj (by omega) (Nat.le_refl _) h2
          omega
        · intro h
          have h2 : off (trim t) (k + 1) = len (trim t) := by
            rw [← off_length, show k + 1 = (trim t).length by omega]
          omega
      by_cases h : k ≠ (trim t).length - 1
      · rw [if_pos (hiff.mpr h), if_pos h]; rfl
      · rw [if_neg (fun h' => h (hiff.mp h')), if_neg h]
        have := sliceRange_off (trim t) (i := 1) (j := k) hk
        rw [one_off hq] at this
        rw [this]; rfl
  · rfl

theorem parseFields_eq : ∀ l : List Str, parseFields l = lift (Toon.parseFields l)
  | [] => rfl
  | f :: rest => by
    rw [parseFields, Toon.parseFields, parseStringLiteral_eq, parseFields_eq rest]
    cases Toon.parseStringLiteral (trim f) with
    | error e => rfl
    | ok n => cases Toon.parseFields rest <;> rfl

theorem colonByte_eq (s : Str) (i : Nat) :
    colonByte (bytes s) i = (findChar ':' s).map (fun k => i + off s k) := by
  induction s generalizing i with
  | nil => rfl
  | cons c s ih =>
    have hhigh : ∀ (hs rest : List UInt8) (i : Nat), (∀ b ∈ hs, 128 ≤ b.toNat) →
        colonByte (hs ++ rest) i = colonByte rest (i + hs.length) := by
      intro hs
      induction hs with
      | nil => intros; rfl
      | cons b hs ihh =>
        intro rest i hb
        rw [List.cons_append, colonByte, if_neg (high_ne (hb b (by simp)) (by decide)),
          ihh rest _ fun x hx => hb x (by simp [hx])]
        congr 1; simp only [List.length_cons]; omega
    rw [findChar, bytes_cons]
    rcases enc_cases c with ⟨hc, he⟩ | ⟨hc, b, bs, he, hb, hbs⟩
    · rw [he, List.singleton_append, colonByte]
      simp only [byte_is hc (d := ':') (by decide) (x := 0x3A) rfl]
      split
      · simp
      · rw [ih, Option.map_map]
        congr 1
        funext k
        simp only [Function.comp]
        rw [off_cons_succ, he]; simp only [List.length_cons, List.length_nil]; omega
    · have c1 : c ≠ ':' := by rintro rfl; exact hc (by decide)
      rw [if_neg c1, hhigh _ _ _ (enc_high hc), ih, Option.map_map]
      congr 1
      funext k
      simp only [Function.comp]
      rw [off_cons_succ]; omega

/-- A key token: the same key, and the byte offset of the same position. -/
def atOffset (s : Str) : Str × Nat → Str × Nat := fun p => (p.1, off s p.2)

theorem parseUnquotedKey_eq (s : Str) :
    parseUnquotedKey s = (lift (Toon.parseUnquotedKey s)).map (atOffset s) := by
  rw [parseUnquotedKey, Toon.parseUnquotedKey, colonByte_eq]
  cases hc : findChar ':' s with
  | none => rfl
  | some k =>
    simp only [Option.map_some, Nat.zero_add]
    have := sliceRange_off s (i := 0) (j := k) (Nat.zero_le _)
    rw [off_zero] at this
    rw [this]
    simp only [ok_bind, pure_ok, lift_ok, Except.map, atOffset]
    rw [off_succ_of (findChar_get hc) (by decide)]
    simp [slice]

theorem bytes_get (s : Str) (k : Nat) :
    (bytes s)[off s k]? = (bytes (s.drop k))[0]? := by
  have h : bytes s = bytes (s.take k) ++ bytes (s.drop k) := by
    rw [← bytes_append, List.take_append_drop]
  rw [h, List.getElem?_append_right (by simp [off, len])]
  simp [off, len]

theorem bytes_get_eq {s : Str} {c : Char} (hc : c.toNat < 128) :
    (bytes s)[0]? = some (UInt8.ofNat c.toNat) ↔ s.head? = some c := by
  rcases bytes_view s with ⟨rfl, h⟩ | ⟨d, r, rfl, hd, h⟩ | ⟨d, r, b, bs, rfl, hd, h, hb⟩
  · simp
  · rw [h]; simp [ascii_eq hd hc]
  · rw [h]
    simp only [List.getElem?_cons_zero, Option.some.injEq, List.head?_cons]
    have h1 : b ≠ UInt8.ofNat c.toNat := high_ne hb (by
      rw [UInt8.toNat_ofNat_of_lt' (by simp [UInt8.size]; omega)]; exact hc)
    have h2 : d ≠ c := by rintro rfl; exact hd hc
    simp [h1, h2]

theorem parseQuotedKey_eq {s : Str} (hq : s.head? = some '"') :
    parseQuotedKey s = (lift (Toon.parseQuotedKey s)).map (atOffset s) := by
  rw [parseQuotedKey, Toon.parseQuotedKey, findClosingQuote_eq hq]
  cases hc : Toon.findClosingQuote s 0 with
  | none => rfl
  | some k =>
    obtain ⟨hg, hk⟩ := findClosingQuote_get hc
    have hlt := get_lt hg
    have hsucc := off_succ_of hg (by decide)
    have h1 := sliceRange_off s (i := 1) (j := k) hk
    rw [one_off hq] at h1
    simp only [Option.map_some, h1, ok_bind]
    cases unescapeString (slice s 1 k) with
    | error e => rfl
    | ok key =>
      simp only [lift_ok, ok_bind]
      rw [← hsucc, bytes_get]
      have hb : (bytes (s.drop (k + 1)))[0]? = some 0x3A ↔ _ := bytes_get_eq (s := s.drop (k + 1)) (c := ':') (by decide)
      by_cases h : (s.drop (k + 1)).head? = some ':'
      · rw [if_pos (hb.mpr h), if_pos h]
        have hg2 : s[k + 1]? = some ':' := by rw [List.head?_drop] at h; exact h
        have := off_succ_of hg2 (by decide)
        simp only [pure_ok, lift_ok, Except.map, atOffset]
        rw [this, hsucc]
      · rw [if_neg (fun h' => h (hb.mp h')), if_neg h]; rfl

theorem parseKeyToken_eq (s : Str) :
    parseKeyToken s = (lift (Toon.parseKeyToken s)).map (fun p => (p.1, off s p.2.1, p.2.2)) := by
  rw [parseKeyToken, Toon.parseKeyToken]
  have hb : (bytes s)[0]? = some 0x22 ↔ _ := bytes_get_eq (s := s) (c := '"') (by decide)
  by_cases h : s.head? = some '"'
  · rw [if_pos (hb.mpr h), if_pos h, parseQuotedKey_eq h]
    cases Toon.parseQuotedKey s <;> rfl
  · rw [if_neg (fun h' => h (hb.mp h')), if_neg h, parseUnquotedKey_eq]
    cases Toon.parseUnquotedKey s <;> rfl

/-! ## Array headers -/

theorem trimStart_drop (s : Str) : trimStart s = s.drop (s.length - (trimStart s).length) := by
  have h : s = s.takeWhile isWs ++ trimStart s := (List.takeWhile_append_dropWhile).symm
  have hl : s.length - (trimStart s).length = (s.takeWhile isWs).length := by
    have := congrArg List.length h
    rw [List.length_append] at this; omega
  rw [hl]
  have h2 : ∀ n, n = (s.takeWhile isWs).length → (s.takeWhile isWs ++ trimStart s).drop n = trimStart s :=
    fun n hn => List.drop_left' hn.symm
  rw [← h] at h2
  exact (h2 _ rfl).symm

theorem findBracketStart_eq (s : Str) :
    findBracketStart s = (lift (Toon.findBracketStart s)).map (Option.map (off s)) := by
  rw [findBracketStart, Toon.findBracketStart]
  dsimp only
  split
  · rename_i hq
    rw [findClosingQuote_eq hq]
    cases hc : Toon.findClosingQuote (trimStart s) 0 with
    | none => rfl
    | some k =>
      obtain ⟨hg, hk⟩ := findClosingQuote_get hc
      have hsucc := off_succ_of hg (by decide)
      simp only [Option.map_some]
      rw [← hsucc, sliceFrom_off]
      simp only [ok_bind]
      split
      · rfl
      · have hw : len s - len (trimStart s) = off s (s.length - (trimStart s).length) := by
          have := len_drop s (s.length - (trimStart s).length)
          rw [← trimStart_drop] at this
          omega
        have hkey : len s - len (trimStart s) + off (trimStart s) k + 1 =
            off s (s.length - (trimStart s).length + k + 1) := by
          rw [hw, Nat.add_assoc, ← hsucc, Nat.add_assoc, off_add s _ (k + 1), ← trimStart_drop]
        have := findFrom_eq '[' s (s.length - (trimStart s).length + k + 1)
        rw [findFrom] at this
        rw [hkey]
        exact this
  · simp only [lift_ok, Except.map, find_eq]

theorem findFrom_off_succ {c : Char} {s : Str} {k : Nat} {d : Char} (h : s[k]? = some d)
    (hd : d.toNat < 128) : findFrom c s (off s k + 1) = .ok ((Toon.findFrom c s (k + 1)).map (off s)) := by
  rw [← off_succ_of h hd, findFrom_eq]

theorem findBraceEnd_eq {s : Str} {k : Nat} (h : s[k]? = some ']') :
    findBraceEnd s (off s k) ((Toon.findFrom '{' s (k + 1)).map (off s))
      ((Toon.findFrom ':' s (k + 1)).map (off s)) = .ok (off s (Toon.findBraceEnd s k)) := by
  have hsucc := off_succ_of h (by decide)
  rw [Toon.findBraceEnd]
  cases hb : Toon.findFrom '{' s (k + 1) with
  | none =>
    cases Toon.findFrom ':' s (k + 1) <;> simp [findBraceEnd, hsucc]
  | some b =>
    cases hc : Toon.findFrom ':' s (k + 1) with
    | none => simp [findBraceEnd, hsucc]
    | some c =>
      have hb' := (findFrom_get hb).1
      have hc' := (findFrom_get hc).1
      simp only [Option.map_some, findBraceEnd]
      have hlt := off_lt_iff (s := s) (i := b) (j := c) (Nat.le_of_lt (get_lt hb')) (Nat.le_of_lt (get_lt hc'))
      by_cases hbc : b < c
      · rw [if_pos (hlt.mpr hbc), if_pos hbc, findFrom_eq]
        simp only [ok_bind]
        cases hf : Toon.findFrom '}' s b with
        | none => simp [hsucc]
        | some f => simp [off_succ_of (findFrom_get hf).1 (by decide)]
      · rw [if_neg (fun h' => hbc (hlt.mp h')), if_neg hbc, hsucc]

theorem parseHeaderKey_eq (s : Str) {k : Nat} (hk : k ≤ s.length) :
    parseHeaderKey s (off s k) = lift (Toon.parseHeaderKey s k) := by
  rw [parseHeaderKey, Toon.parseHeaderKey]
  have hpos : off s k > 0 ↔ k > 0 := by
    have := off_lt_iff (s := s) (i := 0) (j := k) (Nat.zero_le _) hk
    rw [off_zero] at this
    exact this
  by_cases h : k > 0
  · rw [if_pos (hpos.mpr h), if_pos h, sliceTo_off]
    simp only [ok_bind, parseStringLiteral_eq]
    split
    · cases Toon.parseStringLiteral (trim (s.take k)) <;> rfl
    · split <;> rfl
  · rw [if_neg (fun h' => h (hpos.mp h')), if_neg h]; rfl

theorem parseHeaderFields_eq (s : Str) {k c : Nat} (hc : s[c]? = some ':') (d : Char) :
    parseHeaderFields s ((Toon.findFrom '{' s (k + 1)).map (off s)) (off s c) d =
      lift (Toon.parseHeaderFields s k c d) := by
  rw [Toon.parseHeaderFields]
  cases hb : Toon.findFrom '{' s (k + 1) with
  | none => rfl
  | some b =>
    have hb' := (findFrom_get hb).1
    simp only [Option.map_some, parseHeaderFields]
    have hlt := off_lt_iff (s := s) (i := b) (j := c) (Nat.le_of_lt (get_lt hb')) (Nat.le_of_lt (get_lt hc))
    by_cases hbc : b < c
    · rw [if_pos (hlt.mpr hbc), if_pos hbc, findFrom_eq]
      simp only [ok_bind]
      cases hf : Toon.findFrom '}' s b with
      | none => rfl
      | some f =>
        obtain ⟨hf', hbf⟩ := findFrom_get hf
        have hlt2 := off_lt_iff (s := s) (i := f) (j := c) (Nat.le_of_lt (get_lt hf')) (Nat.le_of_lt (get_lt hc))
        simp only [Option.map_some]
        by_cases hfc : f < c
        · rw [if_pos (hlt2.mpr hfc), if_pos hfc, ← off_succ_of hb' (by decide)]
          have hne : b ≠ f := by
            rintro rfl
            rw [hb'] at hf'; simp at hf'
          rw [sliceRange_off s (i := b + 1) (j := f) (by omega)]
          simp only [ok_bind, parseFields_eq]
          cases Toon.parseFields (parseDelimitedValues (slice s (b + 1) f) d) <;> rfl
        · rw [if_neg (fun h' => hfc (hlt2.mp h')), if_neg hfc]; rfl
    · rw [if_neg (fun h' => hbc (hlt.mp h')), if_neg hbc]; rfl

theorem findBracketStart_get {s : Str} {k : Nat} (h : Toon.findBracketStart s = .ok (some k)) :
    s[k]? = some '[' := by
  rw [Toon.findBracketStart] at h
  dsimp only at h
  split at h
  · split at h
    · simp at h
    · split at h
      · simp at h
      · simp only [Except.ok.injEq] at h
        exact (findFrom_get h).1
  · simp only [Except.ok.injEq] at h
    exact findChar_get h

theorem parseArrayHeaderLine_eq (s : Str) (d : Char) :
    parseArrayHeaderLine s d = lift (Toon.parseArrayHeaderLine s d) := by
  rw [parseArrayHeaderLine, Toon.parseArrayHeaderLine, findBracketStart_eq]
  cases hs : Toon.findBracketStart s with
  | error e => rfl
  | ok o =>
    cases o with
    | none => rfl
    | some k =>
      have hk := findBracketStart_get hs
      simp only [lift_ok, Except.map, ok_bind, Option.map_some]
      rw [findFrom_eq]
      simp only [ok_bind]
      cases he : Toon.findFrom ']' s k with
      | none => rfl
      | some e =>
        obtain ⟨he', hke⟩ := findFrom_get he
        simp only [Option.map_some]
        rw [findFrom_off_succ he' (by decide), findFrom_off_succ he' (by decide)]
        simp only [ok_bind]
        rw [findBraceEnd_eq he']
        simp only [ok_bind]
        rw [findFrom_eq]
        simp only [ok_bind]
        cases hc : Toon.findFrom ':' s (Toon.findBraceEnd s e) with
        | none => rfl
        | some c =>
          have hc' := (findFrom_get hc).1
          simp only [Option.map_some]
          rw [parseHeaderKey_eq s (Nat.le_of_lt (get_lt hk))]
          cases Toon.parseHeaderKey s k with
          | error e => rfl
          | ok kq =>
            obtain ⟨key, q⟩ := kq
            simp only [lift_ok, ok_bind]
            rw [← off_succ_of hc' (by decide), sliceFrom_off]
            simp only [ok_bind]
            have hne : k ≠ e := by
              rintro rfl
              rw [hk] at he'; simp at he'
            rw [← off_succ_of hk (by decide), sliceRange_off s (i := k + 1) (j := e) (by omega)]
            simp only [ok_bind]
            cases parseBracketSegment (slice s (k + 1) e) d with
            | none => rfl
            | some ld =>
              obtain ⟨l, dl⟩ := ld
              simp only
              split
              · rfl
              · rw [parseHeaderFields_eq s hc']
                cases Toon.parseHeaderFields s e c dl <;> rfl

end Toon.Utf8
