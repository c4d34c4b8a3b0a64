import Verif.Model.Float64
import Verif.Lemmas.Rounding

/-! The concrete model of binary64 satisfies the float laws. -/

namespace Toon
namespace B64

/-! ## Reading formatted decimals -/

theorem digitsVal_zeros (n : Nat) : digitsVal (List.replicate n '0') = 0 := by
  induction n with
  | zero => rfl
  | succ n ih =>
    rw [List.replicate_succ', digitsVal_snoc, ih]
    decide

theorem digitsVal_append_zeros (s : Str) (n : Nat) : digitsVal (s ++ List.replicate n '0') = digitsVal s * 10 ^ n := by
  induction n with
  | zero => simp
  | succ n ih =>
    rw [List.replicate_succ', ← List.append_assoc, digitsVal_snoc, ih, Nat.pow_succ, Nat.mul_assoc]
    simp

theorem digitsVal_zeros_append (n : Nat) (s : Str) : digitsVal (List.replicate n '0' ++ s) = digitsVal s := by
  induction n with
  | zero => simp
  | succ n ih =>
    rw [List.replicate_succ, List.cons_append, ← ih]
    rfl

theorem parseAbs_int (neg : Bool) {ip : Str} (hne : ip ≠ []) (h : ∀ c ∈ ip, c.isDigit = true) :
    parseAbs neg ip = some (ofDecimal neg (digitsVal ip) 0) := by
  unfold parseAbs
  have := spanDigits_all h
  simp only [spanDigits, Prod.mk.injEq] at this
  simp only [this.1, this.2]
  rw [if_neg (by simpa using hne)]
  simp [parseExp]

theorem parseAbs_frac (neg : Bool) {ip fp : Str} (hne : ip ≠ []) (h : ∀ c ∈ ip, c.isDigit = true)
    (hne' : fp ≠ []) (h' : ∀ c ∈ fp, c.isDigit = true) :
    parseAbs neg (ip ++ '.' :: fp) = some (ofDecimal neg (digitsVal (ip ++ fp)) (0 - fp.length)) := by
  unfold parseAbs
  have h1 := spanDigits_digits h (r := '.' :: fp) (by intro c hc; simp at hc; subst hc; decide)
  simp only [spanDigits, Prod.mk.injEq] at h1
  have h2 := spanDigits_all h'
  simp only [spanDigits, Prod.mk.injEq] at h2
  simp only [h1.1, h1.2, h2.1, h2.2]
  rw [if_neg (by simpa using hne), if_neg (by simpa using hne')]
  simp [parseExp]

theorem zeros_isDigit {n : Nat} {c : Char} (h : c ∈ List.replicate n '0') : c.isDigit = true := by
  rw [List.eq_of_mem_replicate h]; decide

/-- The parts of a formatted decimal. -/
theorem fmt_negSucc (D p : Nat) : ∃ ip fp, fmt D (.negSucc p) = ip ++ '.' :: fp ∧ ip ≠ [] ∧
    (∀ c ∈ ip, c.isDigit = true) ∧ fp.length = p + 1 ∧ (∀ c ∈ fp, c.isDigit = true) ∧
    digitsVal (ip ++ fp) = D ∧ (D ≠ 0 → ip = ['0'] ∨ ip.head? ≠ some '0') := by
  unfold fmt
  simp only
  split
  · rename_i h
    refine ⟨['0'], List.replicate (p + 1 - (natDigits D).length) '0' ++ natDigits D, rfl, by simp, ?_, ?_, ?_, ?_, ?_⟩
    · intro c hc; simp at hc; subst hc; decide
    · simp; omega
    · intro c hc
      rcases List.mem_append.mp hc with hc | hc
      · exact zeros_isDigit hc
      · exact natDigits_mem hc
    · have := digitsVal_zeros_append 1 (List.replicate (p + 1 - (natDigits D).length) '0' ++ natDigits D)
      simp only [List.replicate_one] at this
      rw [this, digitsVal_zeros_append, digitsVal_natDigits]
    · intro _; exact Or.inl rfl
  · rename_i h
    refine ⟨(natDigits D).take ((natDigits D).length - (p + 1)), (natDigits D).drop ((natDigits D).length - (p + 1)),
      rfl, ?_, ?_, ?_, ?_, ?_, ?_⟩
    · intro h'
      have := congrArg List.length h'
      simp at this
      omega
    · intro c hc; exact natDigits_mem (List.mem_of_mem_take hc)
    · simp; omega
    · intro c hc; exact natDigits_mem (List.mem_of_mem_drop hc)
    · rw [List.take_append_drop, digitsVal_natDigits]
    · intro hD
      right
      obtain ⟨d, hd, hd0, hd1⟩ := natDigits_head (n := D) (by omega)
      intro h'
      have : (natDigits D).head? = some '0' := by
        rw [← List.take_append_drop ((natDigits D).length - (p + 1)) (natDigits D), List.head?_append, h']
        rfl
      rw [hd] at this
      simp only [Option.some.injEq] at this
      have h3 := digitChar_toNat hd1
      rw [this] at h3
      have : ('0' : Char).toNat = 48 := by decide
      omega

theorem parseAbs_fmt_negSucc (neg : Bool) (D p : Nat) :
    parseAbs neg (fmt D (.negSucc p)) = some (ofDecimal neg D (.negSucc p)) := by
  obtain ⟨ip, fp, h, h1, h2, h3, h4, h5, _⟩ := fmt_negSucc D p
  rw [h, parseAbs_frac neg h1 h2 (by intro h; rw [h] at h3; simp at h3) h4, h5, h3]
  congr 2

theorem parseAbs_fmt_ofNat (neg : Bool) (D p : Nat) :
    parseAbs neg (fmt D (.ofNat p)) = some (ofDecimal neg (D * 10 ^ p) 0) := by
  unfold fmt
  simp only
  rw [parseAbs_int, digitsVal_append_zeros, digitsVal_natDigits]
  · intro h
    exact natDigits_ne_nil D (List.append_eq_nil_iff.mp h).1
  · intro c hc
    rcases List.mem_append.mp hc with hc | hc
    · exact natDigits_mem hc
    · exact zeros_isDigit hc

theorem parseAbs_fmt_zero (neg : Bool) (p : Int) : parseAbs neg (fmt 0 p) = some (zeroB neg) := by
  cases p with
  | ofNat p => rw [parseAbs_fmt_ofNat, Nat.zero_mul]; rfl
  | negSucc p => rw [parseAbs_fmt_negSucc]; rfl

/-- Unsigned plain decimal. -/
def PlainAbs (s : Str) : Prop :=
  ∃ ip frac : Str, s = ip ++ frac ∧ ip ≠ [] ∧ (∀ c ∈ ip, c.isDigit = true) ∧
    (ip = ['0'] ∨ ip.head? ≠ some '0') ∧ (frac = [] ∨ ∃ ds : Str, frac = '.' :: ds ∧ ds ≠ [] ∧ ∀ c ∈ ds, c.isDigit = true)

theorem fmt_plain {D : Nat} (hD : D ≠ 0) (p : Int) : PlainAbs (fmt D p) := by
  cases p with
  | ofNat p =>
    refine ⟨natDigits D ++ List.replicate p '0', [], by simp [fmt], ?_, ?_, ?_, Or.inl rfl⟩
    · intro h
      exact natDigits_ne_nil D (List.append_eq_nil_iff.mp h).1
    · intro c hc
      rcases List.mem_append.mp hc with hc | hc
      · exact natDigits_mem hc
      · exact zeros_isDigit hc
    · right
      obtain ⟨d, hd, hd0, hd1⟩ := natDigits_head (n := D) (by omega)
      rw [List.head?_append, hd]
      intro h
      simp only [Option.some_or, Option.some.injEq] at h
      have h3 := digitChar_toNat hd1
      rw [h] at h3
      have : ('0' : Char).toNat = 48 := by decide
      omega
  | negSucc p =>
    obtain ⟨ip, fp, h, h1, h2, h3, h4, _, h6⟩ := fmt_negSucc D p
    exact ⟨ip, '.' :: fp, h, h1, h2, h6 hD, Or.inr ⟨fp, rfl, by intro h; rw [h] at h3; simp at h3, h4⟩⟩

/-- Formatting and reading is reading the decimal. -/
theorem parseAbs_fmt (neg : Bool) (D : Nat) (p : Int) : parseAbs neg (fmt D p) = some (ofDecimal neg D p) := by
  cases p with
  | ofNat p =>
    rw [parseAbs_fmt_ofNat, ofDecimal_eq, ofDecimal_eq]
    have e1 : (Int.ofNat p).toNat = p := rfl
    have e2 : (-(Int.ofNat p)).toNat = 0 := by simp
    have e3 : (-(0 : Int)).toNat = 0 := rfl
    have e4 : (0 : Int).toNat = 0 := rfl
    unfold decNum decDen
    rw [e1, e2, e3, e4, Nat.pow_zero, Nat.mul_one]
  | negSucc p => exact parseAbs_fmt_negSucc neg D p

theorem exact_decimal (x : B64) (hf : x.isFin = true) (hz : x.units ≠ 0) :
    ofDecimal x.neg (exactDecimal x.units).1 (exactDecimal x.units).2 = x := by
  unfold exactDecimal
  dsimp only
  generalize hk : (1073 : Nat) = k
  have h1074 : (1074 : Nat) = k + 1 := by omega
  have h5 : ∀ k : Nat, x.units * 5 ^ k * 2 ^ k = x.units * 10 ^ k := by
    intro k
    rw [Nat.mul_assoc, ← Nat.mul_pow]
  rw [h1074]
  have hpos : x.units * 5 ^ (k + 1) ≠ 0 := Nat.mul_ne_zero hz (Nat.ne_of_gt (Nat.pow_pos (by decide)))
  unfold ofDecimal
  rw [if_neg hpos]
  simp only
  rw [if_neg (by omega), h1074, h5, ofUnits_exact x hf (Nat.pow_pos (by decide))]

theorem firstOf_spec {P : Nat → Prop} [DecidablePred P] {a b D : Nat} (h : (if P a then some a else if P b then some b else none) = some D) :
    P D := by
  split at h
  · rename_i h1
    cases h
    exact h1
  · split at h
    · rename_i h1
      cases h
      exact h1
    · cases h

theorem pick_spec {x : B64} {e : Int} {D : Nat} (h : pick x e = some D) : ofDecimal x.neg D e = x := by
  unfold pick at h
  exact firstOf_spec (P := fun D => ofDecimal x.neg D e = x) h

theorem search_zero (x : B64) (n : Nat) : search x 0 n = exactDecimal x.units := rfl

theorem search_succ (x : B64) (fuel n : Nat) :
    search x (fuel + 1) n = orElse (pick x (lastPlace x.units n)) (lastPlace x.units n) (search x fuel (n + 1)) := rfl

theorem search_spec (x : B64) (hf : x.isFin = true) (hz : x.units ≠ 0) (fuel n : Nat) :
    ofDecimal x.neg (search x fuel n).1 (search x fuel n).2 = x := by
  induction fuel generalizing n with
  | zero => rw [search_zero]; exact exact_decimal x hf hz
  | succ fuel ih =>
    rw [search_succ]
    cases h : pick x (lastPlace x.units n) with
    | some D => exact pick_spec h
    | none => exact ih (n + 1)

/-- A trailing zero is a power of ten. -/
theorem ofDecimal_ten (neg : Bool) (D : Nat) (p : Int) : ofDecimal neg (10 * D) p = ofDecimal neg D (p + 1) := by
  rw [ofDecimal_eq, ofDecimal_eq]
  unfold decNum decDen
  cases p with
  | ofNat p =>
    have e1 : (Int.ofNat p).toNat = p := rfl
    have e2 : (Int.ofNat p + 1).toNat = p + 1 := rfl
    have e3 : (-(Int.ofNat p)).toNat = 0 := by simp
    have e4 : (-(Int.ofNat p + 1)).toNat = 0 := by simp; omega
    rw [e1, e2, e3, e4, Nat.pow_succ (n := 10) (m := p), Nat.mul_comm 10 D, Nat.mul_assoc D, Nat.mul_comm 10]
  | negSucc p =>
    have e1 : (Int.negSucc p).toNat = 0 := rfl
    have e2 : (Int.negSucc p + 1).toNat = 0 := by omega
    have e3 : (-(Int.negSucc p)).toNat = p + 1 := rfl
    have e4 : (-(Int.negSucc p + 1)).toNat = p := by omega
    rw [e1, e2, e3, e4, Nat.pow_succ (n := 10) (m := p), Nat.pow_zero, Nat.mul_one, Nat.mul_one, Nat.mul_assoc 10, Nat.mul_comm 10 (D * _),
      ofUnits_scale _ _ _ (by decide)]

theorem dropZero_spec (neg : Bool) (r : Nat × Int) : ofDecimal neg (dropZero r).1 (dropZero r).2 = ofDecimal neg r.1 r.2 := by
  unfold dropZero
  split
  · rename_i h1
    rw [← ofDecimal_ten, Nat.mul_div_cancel' (Nat.dvd_of_mod_eq_zero h1)]
  · rfl

/-- The shortest decimal reads back. -/
theorem shortest_spec (x : B64) (hf : x.isFin = true) (hz : x.units ≠ 0) : ofDecimal x.neg x.shortest.1 x.shortest.2 = x :=
  (dropZero_spec x.neg _).trans (search_spec x hf hz 17 1)

theorem ofDecimal_zero (neg : Bool) (p : Int) : ofDecimal neg 0 p = zeroB neg := by unfold ofDecimal; rw [if_pos rfl]

/-- Its digits after the sign, read back. -/
theorem shortest_parse (x : B64) (hf : x.isFin = true) (hz : x.units ≠ 0) :
    parseAbs x.neg (fmt x.shortest.1 x.shortest.2) = some x ∧ PlainAbs (fmt x.shortest.1 x.shortest.2) := by
  have h := shortest_spec x hf hz
  refine ⟨by rw [parseAbs_fmt, h], fmt_plain ?_ _⟩
  intro hD
  rw [hD, ofDecimal_zero] at h
  rw [← h] at hz
  exact hz (units_zeroB _)

theorem plainAbs_head {s : Str} (h : PlainAbs s) : ∃ c r, s = c :: r ∧ c.isDigit = true := by
  obtain ⟨ip, frac, rfl, h1, h2, _⟩ := h
  cases ip with
  | nil => exact absurd rfl h1
  | cons c r => exact ⟨c, r ++ frac, rfl, h2 c (by simp)⟩

theorem parse_neg (s : Str) : parse ('-' :: s) = parseAbs true s := rfl

theorem parse_pos {s : Str} (h : PlainAbs s) : parse s = parseAbs false s := by
  obtain ⟨c, r, rfl, hc⟩ := plainAbs_head h
  unfold parse
  split
  · rename_i heq
    simp only [List.cons.injEq] at heq
    rw [heq.1] at hc
    exact absurd hc (by decide)
  · rfl

theorem plain_sign {s : Str} (h : PlainAbs s) (neg : Bool) :
    PlainDecimal ((if neg then ['-'] else []) ++ s) := by
  obtain ⟨ip, frac, rfl, h1, h2, h3, h4⟩ := h
  refine ⟨if neg then ['-'] else [], ip, frac, by simp, ?_, h1, h2, h3, h4⟩
  cases neg <;> simp

theorem parse_zero : parse ['0'] = some (zeroB false) := by
  have : parse ['0'] = parseAbs false ['0'] := rfl
  rw [this, parseAbs_int false (by simp) (by intro c hc; simp at hc; subst hc; decide)]
  have : digitsVal ['0'] = 0 := by decide
  rw [this]
  rfl

theorem display_eq {x : B64} (hf : x.isFin = true) (hz : x.units ≠ 0) :
    display x = (if x.neg then ['-'] else []) ++ fmt x.shortest.1 x.shortest.2 := by
  rw [display, if_neg (by rw [hf]; decide), if_neg hz]

theorem parse_display {x : B64} (hf : x.isFin = true) (hz : x.units ≠ 0) : parse (display x) = some x := by
  rw [display_eq hf hz]
  have hs := shortest_parse x hf hz
  generalize fmt x.shortest.1 x.shortest.2 = s at hs
  cases hn : x.neg with
  | true =>
    rw [hn] at hs
    rw [if_pos rfl, List.singleton_append, parse_neg]
    exact hs.1
  | false =>
    rw [hn] at hs
    rw [if_neg (by decide), List.nil_append, parse_pos hs.2]
    exact hs.1

theorem display_plain {x : B64} (hf : x.isFin = true) (hz : x.units ≠ 0) : PlainDecimal (display x) := by
  rw [display_eq hf hz]
  exact plain_sign (shortest_parse x hf hz).2 x.neg

theorem isZero_zeroB : (zeroB false).isFin && (zeroB false).units == 0 := by
  rw [units_zeroB]
  rfl

theorem zero_unique {x : B64} (hz : x.units = 0) (hn : x.neg = false) : x = zeroB false := by
  obtain ⟨neg, ⟨ex, hex⟩, ⟨mant, hmant⟩⟩ := x
  simp only at hn
  subst hn
  simp only [units, sig, shift] at hz
  by_cases h0 : ex = 0
  · subst h0
    simp only [if_true, Nat.zero_sub, Nat.pow_zero, Nat.mul_one] at hz
    subst hz
    rfl
  · simp only [h0, if_false] at hz
    have : 0 < (2 ^ 52 + mant) * 2 ^ (ex - 1) := Nat.mul_pos (by omega) (Nat.two_pow_pos _)
    omega

theorem units_of_isZero {x : B64} (h : (x.isFin && x.units == 0) = true) : x.isFin = true ∧ x.units = 0 := by
  rw [Bool.and_eq_true] at h
  exact ⟨h.1, beq_iff_eq.mp h.2⟩

theorem units_of_not_isZero {x : B64} (hf : x.isFin = true) (h : (x.isFin && x.units == 0) = false) :
    x.units ≠ 0 := by
  rw [hf, Bool.true_and] at h
  exact beq_eq_false_iff_ne.mp h

end B64

instance : LawfulF64 B64 where
  zero_isFinite := rfl
  zero_isZero := B64.isZero_zeroB
  zero_isNeg := rfl
  isZero_isFinite _ h := (B64.units_of_isZero h).1
  zero_unique _ hz hn := B64.zero_unique (B64.units_of_isZero hz).2 hn
  parse_zero := B64.parse_zero
  parse_display _ hf hz := B64.parse_display hf (B64.units_of_not_isZero hf hz)
  display_plain _ hf hz := B64.display_plain hf (B64.units_of_not_isZero hf hz)

end Toon
