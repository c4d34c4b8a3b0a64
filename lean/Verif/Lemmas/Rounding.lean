import Verif.Lemmas.Shared
import Verif.Spec.Numbers

/-! # Rounding to the nearest number -/

namespace Toon
namespace B64

theorem roundDiv_exact (q : Nat) {d : Nat} (hd : 0 < d) : roundDiv (q * d) d = q := by
  unfold roundDiv
  simp only [Nat.mul_div_cancel q hd, Nat.mul_mod_left]
  rw [if_pos (by omega)]

theorem ofUnits_exact (x : B64) (hf : x.isFin = true) {m : Nat} (hm : 0 < m) :
    ofUnits x.neg (x.units * m) m = x := by
  obtain ⟨neg, ⟨ex, hex⟩, ⟨mant, hmant⟩⟩ := x
  simp only [isFin, bne_iff_ne, ne_eq] at hf
  unfold ofUnits
  simp only [Nat.mul_div_cancel _ hm]
  simp only [units, sig, shift]
  by_cases h0 : ex = 0
  · subst h0
    simp only [if_true, Nat.zero_sub, Nat.pow_zero, Nat.mul_one]
    rw [if_pos (by omega), Nat.pow_zero, Nat.mul_one, roundDiv_exact _ hm]
    unfold assemble
    rw [if_pos hmant]
    have h2 : Fin.ofNat (2 ^ 52) mant = ⟨mant, hmant⟩ :=
      Fin.ext (by rw [Fin.val_ofNat, Nat.mod_eq_of_lt hmant])
    rw [h2]
    rfl
  · simp only [h0, if_false]
    have hq1 : 2 ^ 52 ≤ 2 ^ 52 + mant := by omega
    have hq2 : 2 ^ 52 + mant < 2 ^ 53 := by omega
    have key : (if (2 ^ 52 + mant) * 2 ^ (ex - 1) < 2 ^ 53 then 0 else Nat.log2 ((2 ^ 52 + mant) * 2 ^ (ex - 1)) - 52) = ex - 1 := by
      have hlog : Nat.log2 ((2 ^ 52 + mant) * 2 ^ (ex - 1)) = 52 + (ex - 1) := by
        rw [Nat.log2_eq_iff (by
          have : 0 < 2 ^ (ex - 1) := Nat.two_pow_pos _
          exact Nat.ne_of_gt (Nat.mul_pos (by omega) this))]
        constructor
        · rw [Nat.pow_add]; exact Nat.mul_le_mul_right _ hq1
        · rw [show 52 + (ex - 1) + 1 = 53 + (ex - 1) by omega, Nat.pow_add]
          exact Nat.mul_lt_mul_of_pos_right hq2 (Nat.two_pow_pos _)
      split
      · rename_i h
        by_cases h1 : ex = 1
        · omega
        · exfalso
          have : 2 ^ 1 ≤ 2 ^ (ex - 1) := Nat.pow_le_pow_right (by omega) (by omega)
          have := Nat.mul_le_mul hq1 this
          omega
      · omega
    rw [key]
    rw [show (2 ^ 52 + mant) * 2 ^ (ex - 1) * m = (2 ^ 52 + mant) * (m * 2 ^ (ex - 1)) by
      rw [Nat.mul_assoc, Nat.mul_comm m]]
    rw [roundDiv_exact _ (Nat.mul_pos hm (Nat.two_pow_pos _))]
    unfold assemble
    rw [if_neg (by omega), if_pos hq2, if_pos (by omega)]
    have h1 : Fin.ofNat 2048 (ex - 1 + 1) = ⟨ex, hex⟩ :=
      Fin.ext (by rw [Fin.val_ofNat, Nat.mod_eq_of_lt (by omega)]; show ex - 1 + 1 = ex; omega)
    have h2 : Fin.ofNat (2 ^ 52) (2 ^ 52 + mant - 2 ^ 52) = ⟨mant, hmant⟩ :=
      Fin.ext (by rw [Fin.val_ofNat, Nat.add_sub_cancel_left, Nat.mod_eq_of_lt hmant])
    rw [h1, h2]

theorem units_zeroB (neg : Bool) : (zeroB neg).units = 0 := by
  unfold units sig zeroB
  simp

theorem roundDiv_scale (n : Nat) {d m : Nat} (hm : 0 < m) : roundDiv (n * m) (d * m) = roundDiv n d := by
  unfold roundDiv
  simp only [Nat.mul_div_mul_right _ _ hm, Nat.mul_mod_mul_right]
  have e1 : (2 * (n % d * m) < d * m) = (2 * (n % d) < d) := by
    rw [← Nat.mul_assoc]
    exact propext (Nat.mul_lt_mul_right hm)
  have e2 : (2 * (n % d * m) > d * m) = (2 * (n % d) > d) := by
    rw [← Nat.mul_assoc]
    exact propext (Nat.mul_lt_mul_right hm)
  simp only [e1, e2]

theorem ofUnits_scale (neg : Bool) (n d : Nat) {m : Nat} (hm : 0 < m) : ofUnits neg (n * m) (d * m) = ofUnits neg n d := by
  unfold ofUnits
  simp only [Nat.mul_div_mul_right _ _ hm]
  rw [Nat.mul_right_comm, roundDiv_scale _ hm]

theorem roundDiv_near (n : Nat) {d : Nat} (hd : 0 < d) : 2 * (roundDiv n d * d - n) ≤ d ∧ 2 * (n - roundDiv n d * d) ≤ d := by
  unfold roundDiv
  dsimp only
  have h1 := Nat.div_add_mod n d
  have h2 := Nat.mod_lt n hd
  have h3 : n / d * d = d * (n / d) := Nat.mul_comm _ _
  have h4 : (n / d + 1) * d = d * (n / d) + d := by rw [Nat.add_mul, Nat.one_mul, h3]
  split
  · rw [h3]; omega
  · split
    · rw [h4]; omega
    · split
      · rw [h3]; omega
      · rw [h4]; omega

theorem roundDiv_mono {n d q : Nat} (hd : 0 < d) : (q * d ≤ n → q ≤ roundDiv n d) ∧ (n < q * d → roundDiv n d ≤ q) := by
  have key : roundDiv n d = n / d ∨ roundDiv n d = n / d + 1 := by
    unfold roundDiv
    dsimp only
    split
    · exact .inl rfl
    · split
      · exact .inr rfl
      · split
        · exact .inl rfl
        · exact .inr rfl
  constructor
  · intro h
    have := (Nat.le_div_iff_mul_le hd).mpr h
    rcases key with h | h <;> omega
  · intro h
    have := (Nat.div_lt_iff_lt_mul hd).mpr h
    rcases key with h | h <;> omega

/-- The rounded quotient is the nearest whole number, ties to even. -/
theorem roundDiv_nearest (n : Nat) {d : Nat} (hd : 0 < d) (q : Nat) :
    apart (roundDiv n d * d) n ≤ apart (q * d) n ∧
      (apart (roundDiv n d * d) n = apart (q * d) n → q ≠ roundDiv n d → roundDiv n d % 2 = 0) := by
  have h1 := Nat.div_add_mod n d
  have h2 := Nat.mod_lt n hd
  have h3 : n / d * d = d * (n / d) := Nat.mul_comm _ _
  have h4 : (n / d + 1) * d = d * (n / d) + d := by rw [Nat.add_mul, Nat.one_mul, h3]
  have hq : q = n / d ∨ q = n / d + 1 ∨ q * d + d ≤ d * (n / d) ∨ d * (n / d) + 2 * d ≤ q * d := by
    rcases Nat.lt_trichotomy q (n / d) with h | h | h
    · refine .inr (.inr (.inl ?_))
      have := Nat.mul_le_mul_right d (show q + 1 ≤ n / d from h)
      rw [Nat.add_mul, Nat.one_mul, h3] at this
      exact this
    · exact .inl h
    · by_cases h5 : q = n / d + 1
      · exact .inr (.inl h5)
      · refine .inr (.inr (.inr ?_))
        have := Nat.mul_le_mul_right d (show n / d + 2 ≤ q by omega)
        rw [Nat.add_mul, h3] at this
        exact this
  unfold roundDiv apart
  dsimp only
  generalize hQ : n / d = Q at *
  generalize hR : n % d = R at *
  generalize d * Q = X at *
  split
  · rw [h3]
    rcases hq with rfl | rfl | h | h
    · rw [h3]; omega
    · rw [h4]; omega
    · omega
    · omega
  · split
    · rw [h4]
      rcases hq with rfl | rfl | h | h
      · rw [h3]; omega
      · rw [h4]; omega
      · omega
      · omega
    · split
      · rw [h3]
        rcases hq with rfl | rfl | h | h
        · rw [h3]; omega
        · rw [h4]; omega
        · omega
        · omega
      · rw [h4]
        rcases hq with rfl | rfl | h | h
        · rw [h3]; omega
        · rw [h4]; omega
        · omega
        · omega

/-- What is assembled from a significand and an exponent. -/
theorem assemble_spec (neg : Bool) {q k : Nat} (hq : q ≤ 2 ^ 53) (hk : 0 < k → 2 ^ 52 ≤ q) :
    (assemble neg q k).neg = neg ∧
    ((2 ^ 53 * 2 ^ 2045 ≤ q * 2 ^ k ∧ assemble neg q k = infB neg) ∨
     (q * 2 ^ k < 2 ^ 53 * 2 ^ 2045 ∧ (assemble neg q k).isFin = true ∧ (assemble neg q k).units = q * 2 ^ k ∧
      (assemble neg q k).mant.val % 2 = q % 2)) := by
  have hpow : ∀ {a b : Nat}, a ≤ b → 2 ^ a ≤ 2 ^ b := fun h => Nat.pow_le_pow_right (by decide) h
  unfold assemble
  split
  · rename_i h
    have hk0 : k = 0 := by
      rcases Nat.eq_zero_or_pos k with h0 | h0
      · exact h0
      · have := hk h0; omega
    subst hk0
    refine ⟨rfl, .inr ⟨?_, rfl, ?_, ?_⟩⟩
    · have := hpow (show 0 ≤ 2045 by omega)
      generalize 2 ^ 2045 = x at *
      calc q * 2 ^ 0 < 2 ^ 53 * 1 := by omega
        _ ≤ 2 ^ 53 * x := Nat.mul_le_mul_left _ this
    · have h4 : (Fin.ofNat (2 ^ 52) q).val = q := by rw [Fin.val_ofNat, Nat.mod_eq_of_lt h]
      unfold units sig shift
      simp only [h4]
      simp
    · have h4 : (Fin.ofNat (2 ^ 52) q).val = q := by rw [Fin.val_ofNat, Nat.mod_eq_of_lt h]
      rw [h4]
  · split
    · rename_i h1 h2
      split
      · rename_i h
        refine ⟨rfl, .inr ⟨?_, ?_, ?_, ?_⟩⟩
        · calc q * 2 ^ k < 2 ^ 53 * 2 ^ k := Nat.mul_lt_mul_of_pos_right h2 (Nat.two_pow_pos _)
            _ ≤ 2 ^ 53 * 2 ^ 2045 := Nat.mul_le_mul_left _ (hpow (by omega))
        · have h3 : (Fin.ofNat 2048 (k + 1)).val = k + 1 := by rw [Fin.val_ofNat, Nat.mod_eq_of_lt (by omega)]
          simp only [isFin, h3, bne_iff_ne, ne_eq]
          omega
        · unfold units sig shift
          have h3 : (Fin.ofNat 2048 (k + 1)).val = k + 1 := by rw [Fin.val_ofNat, Nat.mod_eq_of_lt (by omega)]
          have h4 : (Fin.ofNat (2 ^ 52) (q - 2 ^ 52)).val = q - 2 ^ 52 := by rw [Fin.val_ofNat, Nat.mod_eq_of_lt (by omega)]
          simp only [h3, h4]
          rw [if_neg (by omega), show 2 ^ 52 + (q - 2 ^ 52) = q by omega, Nat.add_sub_cancel]
        · have h4 : (Fin.ofNat (2 ^ 52) (q - 2 ^ 52)).val = q - 2 ^ 52 := by rw [Fin.val_ofNat, Nat.mod_eq_of_lt (by omega)]
          simp only [h4]
          omega
      · rename_i h
        refine ⟨rfl, .inl ⟨?_, rfl⟩⟩
        calc 2 ^ 53 * 2 ^ 2045 = 2 ^ 52 * 2 ^ 2046 := by rw [← Nat.pow_add, ← Nat.pow_add]
          _ ≤ q * 2 ^ k := Nat.mul_le_mul (by omega) (hpow (by omega))
    · rename_i h1 h2
      have hq53 : q = 2 ^ 53 := by omega
      have e : q * 2 ^ k = 2 ^ 52 * 2 ^ (k + 1) := by rw [hq53, ← Nat.pow_add, ← Nat.pow_add, show 53 + k = 52 + (k + 1) by omega]
      split
      · rename_i h
        refine ⟨rfl, .inr ⟨?_, ?_, ?_, ?_⟩⟩
        · rw [hq53, ← Nat.pow_add, ← Nat.pow_add]
          exact Nat.pow_lt_pow_right (by omega) (by omega)
        · have h3 : (Fin.ofNat 2048 (k + 2)).val = k + 2 := by rw [Fin.val_ofNat, Nat.mod_eq_of_lt (by omega)]
          simp only [isFin, h3, bne_iff_ne, ne_eq]
          omega
        · unfold units sig shift
          have h3 : (Fin.ofNat 2048 (k + 2)).val = k + 2 := by rw [Fin.val_ofNat, Nat.mod_eq_of_lt (by omega)]
          simp only [h3]
          rw [if_neg (by omega), e, show k + 2 - 1 = k + 1 by omega]
          rfl
        · rw [hq53]
          show 0 % 2 = 2 ^ 53 % 2
          decide
      · rename_i h
        refine ⟨rfl, .inl ⟨?_, rfl⟩⟩
        rw [hq53]
        exact Nat.mul_le_mul_left _ (hpow (by omega))

/-- The significand of a finite number is below `2^53`. -/
theorem sig_lt (y : B64) : y.sig < 2 ^ 53 := by
  unfold sig
  have := y.mant.isLt
  split <;> omega

/-- A number that is no multiple of `2^k` is below `2^(52+k)`. -/
theorem units_multiple (y : B64) (k : Nat) : (∃ m, y.units = m * 2 ^ k) ∨ (0 < k ∧ y.units < 2 ^ 52 * 2 ^ k) := by
  by_cases h : k ≤ y.shift
  · refine .inl ⟨y.sig * 2 ^ (y.shift - k), ?_⟩
    unfold units
    rw [Nat.mul_assoc, ← Nat.pow_add, Nat.sub_add_cancel h]
  · refine .inr ⟨by omega, ?_⟩
    unfold units
    have h1 := sig_lt y
    calc y.sig * 2 ^ y.shift < 2 ^ 53 * 2 ^ y.shift := Nat.mul_lt_mul_of_pos_right h1 (Nat.two_pow_pos _)
      _ = 2 ^ (53 + y.shift) := by rw [Nat.pow_add]
      _ ≤ 2 ^ (52 + k) := Nat.pow_le_pow_right (by decide) (by omega)
      _ = 2 ^ 52 * 2 ^ k := by rw [Nat.pow_add]

/-- The binary exponent chosen for a quotient. -/
theorem exponent_spec (n : Nat) {d : Nat} (hd : 0 < d) : ∃ k,
    (if n / d < 2 ^ 53 then 0 else Nat.log2 (n / d) - 52) = k ∧ n < 2 ^ 53 * (d * 2 ^ k) ∧ (0 < k → 2 ^ 52 * (d * 2 ^ k) ≤ n) := by
  by_cases h : n / d < 2 ^ 53
  · refine ⟨0, if_pos h, ?_, fun h => absurd h (by decide)⟩
    have := (Nat.div_lt_iff_lt_mul hd).mp h
    rw [Nat.pow_zero, Nat.mul_one]
    exact this
  · have hne : n / d ≠ 0 := by omega
    obtain ⟨hlo, hhi⟩ := (Nat.log2_eq_iff hne).mp rfl
    have hl : 53 ≤ Nat.log2 (n / d) := (Nat.le_log2 hne).mpr (by omega)
    obtain ⟨k, hk⟩ : ∃ k, Nat.log2 (n / d) = k + 52 := ⟨Nat.log2 (n / d) - 52, by omega⟩
    rw [hk] at hlo hhi
    refine ⟨k, by rw [if_neg h, hk, Nat.add_sub_cancel], ?_, fun _ => ?_⟩
    · have := (Nat.div_lt_iff_lt_mul hd).mp hhi
      rw [show k + 52 + 1 = k + 53 by omega, Nat.pow_add] at this
      calc n < 2 ^ k * 2 ^ 53 * d := this
        _ = 2 ^ 53 * (d * 2 ^ k) := by rw [Nat.mul_comm d, ← Nat.mul_assoc, Nat.mul_comm (2 ^ 53)]
    · have := (Nat.le_div_iff_mul_le hd).mp hlo
      rw [Nat.pow_add] at this
      calc 2 ^ 52 * (d * 2 ^ k) = 2 ^ k * 2 ^ 52 * d := by rw [Nat.mul_comm d, ← Nat.mul_assoc, Nat.mul_comm (2 ^ 52)]
        _ ≤ n := this

set_option exponentiation.threshold 3000 in
theorem units_lt_max (y : B64) (hy : y.isFin = true) : y.units ≤ (2 ^ 53 - 1) * 2 ^ 2045 := by
  unfold units
  have h1 := sig_lt y
  have h2 : y.shift ≤ 2045 := by
    unfold shift
    have := y.ex.isLt
    simp only [isFin, bne_iff_ne, ne_eq] at hy
    omega
  exact Nat.mul_le_mul (by omega) (Nat.pow_le_pow_right (by decide) h2)

/-- A rounded quotient reaches `2^2098` units from the middle between the largest number and `2^2098` on. -/
theorem overflow_iff {n d k q : Nat} (hhi : n < 2 ^ 53 * (d * 2 ^ k)) (hlo : 0 < k → 2 ^ 52 * (d * 2 ^ k) ≤ n)
    (hq2 : q ≤ 2 ^ 53) (hq1 : 0 < k → 2 ^ 52 ≤ q) (hn : 2 * (q * (d * 2 ^ k) - n) ≤ d * 2 ^ k ∧ 2 * (n - q * (d * 2 ^ k)) ≤ d * 2 ^ k)
    (hnear : ∀ m, apart (q * (d * 2 ^ k)) n ≤ apart (m * (d * 2 ^ k)) n ∧
      (apart (q * (d * 2 ^ k)) n = apart (m * (d * 2 ^ k)) n → m ≠ q → q % 2 = 0)) :
    2 ^ 53 * 2 ^ 2045 ≤ q * 2 ^ k ↔ overflowUnits * d ≤ n := by
  have hov : overflowUnits = (2 ^ 54 - 1) * 2 ^ 2044 := by unfold overflowUnits; rfl
  rw [hov]
  have hpow : ∀ {a b : Nat}, a ≤ b → 2 ^ a ≤ 2 ^ b := fun h => Nat.pow_le_pow_right (by decide) h
  have h45 : 2 ^ 2045 = 2 * 2 ^ 2044 := by rw [Nat.pow_succ, Nat.mul_comm]
  rcases Nat.lt_trichotomy k 2045 with hk | hk | hk
  · have h1 : 2 ^ k ≤ 2 ^ 2044 := hpow (by omega)
    have hx : 0 < 2 ^ 2044 := Nat.two_pow_pos _
    constructor
    · intro h
      exfalso
      have := Nat.mul_le_mul hq2 h1
      rw [h45] at h
      generalize 2 ^ 2044 = x at *
      generalize q * 2 ^ k = y at *
      omega
    · intro h
      exfalso
      have h2 : 2 ^ 53 * (d * 2 ^ k) ≤ 2 ^ 53 * (d * 2 ^ 2044) := Nat.mul_le_mul_left _ (Nat.mul_le_mul_left _ h1)
      have h3 : (2 ^ 54 - 1) * 2 ^ 2044 * d = (2 ^ 54 - 1) * (d * 2 ^ 2044) := by rw [Nat.mul_assoc, Nat.mul_comm (2 ^ 2044)]
      rw [h3] at h
      generalize d * 2 ^ 2044 = x at *
      generalize d * 2 ^ k = y at *
      omega
  · subst hk
    have hD : d * 2 ^ 2045 = 2 * (d * 2 ^ 2044) := by rw [h45, Nat.mul_left_comm]
    have h3 : (2 ^ 54 - 1) * 2 ^ 2044 * d = (2 ^ 54 - 1) * (d * 2 ^ 2044) := by rw [Nat.mul_assoc, Nat.mul_comm (2 ^ 2044)]
    rw [h3]
    have hx : 0 < 2 ^ 2045 := Nat.two_pow_pos _
    rw [Nat.mul_le_mul_right_iff hx]
    constructor
    · intro h
      have hq : q = 2 ^ 53 := by omega
      subst hq
      rw [hD] at hn
      generalize d * 2 ^ 2044 = x at *
      omega
    · intro h
      refine Decidable.byContradiction fun hlt => ?_
      have hle : q + 1 ≤ 2 ^ 53 := by omega
      have hup := hn.2
      by_cases heq : q + 1 = 2 ^ 53
      · have := (hnear (q + 1)).2
        obtain rfl : q = 2 ^ 53 - 1 := by omega
        rw [hD] at this hup
        unfold apart at this
        generalize d * 2 ^ 2044 = x at *
        have := this (by omega) (by omega)
        omega
      · have h5 : q * (d * 2 ^ 2045) ≤ (2 ^ 53 - 2) * (d * 2 ^ 2045) := Nat.mul_le_mul_right _ (by omega)
        rw [hD] at h5 hup hlo
        generalize d * 2 ^ 2044 = x at *
        generalize q * (2 * x) = y at *
        have hx0 : 0 < x := by
          rcases Nat.eq_zero_or_pos x with h0 | h0
          · subst h0; rw [hD] at hhi; omega
          · exact h0
        omega
  · have h1 : 2 ^ 2046 ≤ 2 ^ k := hpow (by omega)
    have h46 : 2 ^ 2046 = 4 * 2 ^ 2044 := by rw [Nat.pow_succ, h45]; omega
    have h5 := hlo (by omega)
    have h6 := hq1 (by omega)
    constructor
    · intro _
      have h3 : (2 ^ 54 - 1) * 2 ^ 2044 * d = (2 ^ 54 - 1) * (d * 2 ^ 2044) := by rw [Nat.mul_assoc, Nat.mul_comm (2 ^ 2044)]
      rw [h3]
      have h7 : d * 2 ^ 2046 ≤ d * 2 ^ k := Nat.mul_le_mul_left _ h1
      rw [h46, Nat.mul_left_comm] at h7
      generalize d * 2 ^ 2044 = x at *
      generalize d * 2 ^ k = y at *
      omega
    · intro _
      have := Nat.mul_le_mul h6 h1
      rw [h46] at this
      rw [h45]
      generalize 2 ^ 2044 = x at *
      generalize q * 2 ^ k = y at *
      omega

/-- Quotients are rounded to the nearest number. -/
theorem ofUnits_rounded (neg : Bool) (n : Nat) {d : Nat} (hd : 0 < d) : Rounded neg n d (ofUnits neg n d) := by
  obtain ⟨k, hk, hhi, hlo⟩ := exponent_spec n hd
  have hu : ofUnits neg n d = assemble neg (roundDiv n (d * 2 ^ k)) k := by
    unfold ofUnits
    dsimp only
    rw [hk]
  rw [hu]
  have hd' : 0 < d * 2 ^ k := Nat.mul_pos hd (Nat.two_pow_pos _)
  have hq2 := (roundDiv_mono hd').2 hhi
  have hq1 : 0 < k → 2 ^ 52 ≤ roundDiv n (d * 2 ^ k) := fun h => (roundDiv_mono hd').1 (hlo h)
  obtain ⟨h1, h2⟩ := assemble_spec neg hq2 hq1
  have hnear := roundDiv_nearest n hd'
  generalize hq : roundDiv n (d * 2 ^ k) = q at *
  have hmul : ∀ m : Nat, m * 2 ^ k * d = m * (d * 2 ^ k) := fun m => by rw [Nat.mul_assoc, Nat.mul_comm (2 ^ k)]
  refine ⟨h1, ?_⟩
  rcases h2 with ⟨h3, h4⟩ | ⟨h3, h4, h5, h6⟩
  · left
    refine ⟨?_, h4⟩
    exact (overflow_iff hhi hlo hq2 hq1 (hq ▸ roundDiv_near n hd') hnear).mp h3
  · right
    refine ⟨?_, h4, ?_⟩
    · have := mt (overflow_iff hhi hlo hq2 hq1 (hq ▸ roundDiv_near n hd') hnear).mpr (by omega)
      omega
    · intro y hy
      rw [h5, hmul]
      rcases units_multiple y k with ⟨m, hm⟩ | ⟨hk0, hlt⟩
      · rw [hm, hmul, h6]
        refine ⟨(hnear m).1, fun he hne => (hnear m).2 he ?_⟩
        intro hmq
        exact hne (by rw [hmq])
      · have h7 := hlo hk0
        have h8 := (hnear (2 ^ 52)).1
        have h9 : y.units * d < 2 ^ 52 * (d * 2 ^ k) := by
          rw [← hmul]
          exact Nat.mul_lt_mul_of_pos_right hlt hd
        unfold apart at *
        generalize q * (d * 2 ^ k) = a at *
        generalize 2 ^ 52 * (d * 2 ^ k) = b at *
        generalize y.units * d = c at *
        omega

/-- A finite number is its sign and its magnitude. -/
theorem units_inj {x y : B64} (hx : x.isFin = true) (hy : y.isFin = true) (hn : x.neg = y.neg) (h : x.units = y.units) : x = y := by
  rw [← ofUnits_exact x hx (m := 1) (by decide), ← ofUnits_exact y hy (m := 1) (by decide), hn, h]

theorem ofUnits_neg (neg : Bool) (n : Nat) {d : Nat} (hd : 0 < d) : (ofUnits neg n d).neg = neg := (ofUnits_rounded neg n hd).1

theorem infB_not_fin (neg : Bool) : (infB neg).isFin = false := by cases neg <;> decide +kernel

/-- Finite exactly below the middle between the largest number and the next power of two. -/
theorem ofUnits_fin (neg : Bool) (n : Nat) {d : Nat} (hd : 0 < d) :
    (ofUnits neg n d).isFin = true ↔ n < overflowUnits * d := by
  have h := (ofUnits_rounded neg n hd).2
  generalize ofUnits neg n d = x at h
  generalize overflowUnits * d = m at h ⊢
  rcases h with ⟨h1, rfl⟩ | ⟨h1, h2, _⟩
  · exact ⟨fun h => absurd h (by rw [infB_not_fin]; exact Bool.false_ne_true), fun h => absurd h1 (Nat.not_le.mpr h)⟩
  · exact ⟨fun _ => h1, fun _ => h2⟩

/-- No finite number is nearer. -/
theorem ofUnits_nearest (neg : Bool) (n : Nat) {d : Nat} (hd : 0 < d) (hf : (ofUnits neg n d).isFin = true) (y : B64) (hy : y.isFin = true) :
    apart ((ofUnits neg n d).units * d) n ≤ apart (y.units * d) n := by
  rcases (ofUnits_rounded neg n hd).2 with ⟨_, h2⟩ | ⟨_, _, h⟩
  · rw [h2, infB_not_fin] at hf; simp at hf
  · exact (h y hy).1

/-- Larger quotients are rounded to larger numbers. -/
theorem ofUnits_mono (neg : Bool) {n d n' d' : Nat} (hd : 0 < d) (hd' : 0 < d') (h : n * d' ≤ n' * d)
    (hf : (ofUnits neg n' d').isFin = true) :
    (ofUnits neg n d).isFin = true ∧ (ofUnits neg n d).units ≤ (ofUnits neg n' d').units := by
  have hD : 0 < d * d' := Nat.mul_pos hd hd'
  rw [← ofUnits_scale neg n' d' hd, Nat.mul_comm d' d] at hf
  rw [← ofUnits_scale neg n' d' hd, Nat.mul_comm d' d, ← ofUnits_scale neg n d hd']
  generalize d * d' = D at hD hf ⊢
  generalize n * d' = a at h hf ⊢
  generalize n' * d = b at h hf ⊢
  have hfa : (ofUnits neg a D).isFin = true := by
    rw [ofUnits_fin neg _ hD] at hf ⊢
    exact Nat.lt_of_le_of_lt h hf
  refine ⟨hfa, ?_⟩
  refine Decidable.byContradiction fun hlt => ?_
  have h1 := ofUnits_nearest neg a hD hfa _ hf
  have h2 := ofUnits_nearest neg b hD hf _ hfa
  have h3 : (ofUnits neg b D).units * D < (ofUnits neg a D).units * D := Nat.mul_lt_mul_of_pos_right (by omega) hD
  have hab : a = b := by
    unfold apart at h1 h2
    generalize (ofUnits neg b D).units * D = y at *
    generalize (ofUnits neg a D).units * D = x at *
    omega
  subst hab
  exact absurd h3 (Nat.lt_irrefl _)

/-- Whatever lies between a quotient and the number it is rounded to is rounded to this number. -/
theorem ofUnits_between (x : B64) (hx : x.isFin = true) {n d n' d' : Nat} (hd : 0 < d) (hd' : 0 < d')
    (hr : ofUnits x.neg n d = x)
    (h : (n * d' ≤ n' * d ∧ n' ≤ x.units * d') ∨ (n' * d ≤ n * d' ∧ x.units * d' ≤ n')) : ofUnits x.neg n' d' = x := by
  have hself : ofUnits x.neg x.units 1 = x := by
    have := ofUnits_exact x hx (m := 1) (by decide)
    rwa [Nat.mul_one] at this
  have hfself : (ofUnits x.neg x.units 1).isFin = true := by rw [hself]; exact hx
  rcases h with ⟨h1, h2⟩ | ⟨h1, h2⟩
  · obtain ⟨hf, hu⟩ := ofUnits_mono x.neg hd' (by decide : 0 < 1) (by rw [Nat.mul_one]; exact h2) hfself
    obtain ⟨_, hl⟩ := ofUnits_mono x.neg hd hd' h1 hf
    rw [hself] at hu
    rw [hr] at hl
    exact units_inj hf hx (ofUnits_neg _ _ hd') (by omega)
  · obtain ⟨hf, hu⟩ := ofUnits_mono x.neg hd' hd h1 (by rw [hr]; exact hx)
    obtain ⟨_, hl⟩ := ofUnits_mono x.neg (by decide : 0 < 1) hd' (by rw [Nat.mul_one]; exact h2) hf
    rw [hself] at hl
    rw [hr] at hu
    exact units_inj hf hx (ofUnits_neg _ _ hd') (by omega)

/-- The numerator of a decimal in units. -/
def decNum (D : Nat) (p : Int) : Nat := D * 10 ^ p.toNat * 2 ^ 1074
/-- Its denominator. -/
def decDen (p : Int) : Nat := 10 ^ (-p).toNat

theorem decDen_pos (p : Int) : 0 < decDen p := Nat.pow_pos (by decide)

/-- The shortcuts in reading a decimal change nothing. -/
theorem ofDecimal_eq (neg : Bool) (D : Nat) (p : Int) : ofDecimal neg D p = ofUnits neg (decNum D p) (decDen p) := by
  have hpow : ∀ {a b : Nat}, a ≤ b → 2 ^ a ≤ 2 ^ b := fun h => Nat.pow_le_pow_right (by decide) h
  have tiny : ∀ {n d : Nat}, 0 < d → 2 * n < d → ofUnits neg n d = zeroB neg := by
    intro n d hd h
    have hfin : (ofUnits neg n d).isFin = true := by
      rw [ofUnits_fin neg _ hd]
      have : 1 ≤ overflowUnits := by unfold overflowUnits; exact Nat.mul_pos (by decide) (Nat.two_pow_pos _)
      have := Nat.mul_le_mul_right d this
      generalize overflowUnits * d = x at *
      omega
    have h1 := ofUnits_nearest neg n hd hfin (zeroB false) rfl
    rw [units_zeroB, Nat.zero_mul] at h1
    refine units_inj hfin rfl (ofUnits_neg _ _ hd) ?_
    rw [units_zeroB]
    rcases Nat.eq_zero_or_pos (ofUnits neg n d).units with h2 | h2
    · exact h2
    · exfalso
      have := Nat.mul_le_mul_right d h2
      unfold apart at h1
      generalize (ofUnits neg n d).units * d = x at *
      omega
  unfold ofDecimal decNum decDen
  by_cases hD : D = 0
  · subst hD
    rw [if_pos rfl, Nat.zero_mul, Nat.zero_mul, tiny (Nat.pow_pos (by decide)) (by have := Nat.pow_pos (n := (-p).toNat) (show 0 < 10 by decide); omega)]
  · rw [if_neg hD]
    have hD1 : 1 ≤ D := by omega
    cases p with
    | ofNat p =>
      have e1 : (Int.ofNat p).toNat = p := rfl
      have e2 : (-(Int.ofNat p)).toNat = 0 := by simp
      rw [e1, e2, Nat.pow_zero]
      dsimp only
      split
      · rename_i hp
        rcases (ofUnits_rounded neg (D * 10 ^ p * 2 ^ 1074) (d := 1) (by decide)).2 with ⟨_, h2⟩ | ⟨h1, _⟩
        · exact h2.symm
        · exfalso
          have h3 : 2 ^ 1203 ≤ 10 ^ p := by
            calc 2 ^ 1203 = (2 ^ 3) ^ 401 := by rw [← Nat.pow_mul]
              _ ≤ 10 ^ 401 := Nat.pow_le_pow_left (by decide) _
              _ ≤ 10 ^ p := Nat.pow_le_pow_right (by decide) (by omega)
          have h4 : 2 ^ 1203 * 2 ^ 1074 ≤ D * 10 ^ p * 2 ^ 1074 :=
            Nat.mul_le_mul_right _ (Nat.le_trans h3 (Nat.le_mul_of_pos_left _ hD1))
          have h5 : overflowUnits ≤ 2 ^ 1203 * 2 ^ 1074 := by
            unfold overflowUnits
            calc (2 ^ 54 - 1) * 2 ^ 2044 ≤ 2 ^ 54 * 2 ^ 2044 := Nat.mul_le_mul_right _ (by decide)
              _ = 2 ^ (54 + 2044) := by rw [Nat.pow_add]
              _ ≤ 2 ^ (1203 + 1074) := hpow (by decide)
              _ = 2 ^ 1203 * 2 ^ 1074 := by rw [Nat.pow_add]
          rw [Nat.mul_one] at h1
          exact absurd (Nat.lt_of_lt_of_le h1 (Nat.le_trans h5 h4)) (Nat.lt_irrefl _)
      · rfl
    | negSucc p =>
      have e1 : (Int.negSucc p).toNat = 0 := rfl
      have e2 : (-(Int.negSucc p)).toNat = p + 1 := rfl
      rw [e1, e2, Nat.pow_zero, Nat.mul_one]
      dsimp only
      split
      · rename_i hp
        refine (tiny (Nat.pow_pos (by decide)) ?_).symm
        have h1 : D < 2 ^ (Nat.log2 D + 1) := Nat.lt_log2_self
        calc 2 * (D * 2 ^ 1074) = D * 2 ^ 1075 := by rw [show (2 : Nat) ^ 1075 = 2 ^ 1074 * 2 from Nat.pow_succ .., Nat.mul_comm 2, Nat.mul_assoc]
          _ < 2 ^ (Nat.log2 D + 1) * 2 ^ 1075 := Nat.mul_lt_mul_of_pos_right h1 (Nat.two_pow_pos _)
          _ = 2 ^ (Nat.log2 D + 1 + 1075) := by rw [← Nat.pow_add]
          _ ≤ 2 ^ (3 * (p + 1)) := hpow (by omega)
          _ = (2 ^ 3) ^ (p + 1) := by rw [Nat.pow_mul]
          _ ≤ 10 ^ (p + 1) := Nat.pow_le_pow_left (by decide) _
      · rfl

/-- Reading a decimal rounds it to the nearest number. -/
theorem ofDecimal_rounded (neg : Bool) (D : Nat) (p : Int) : RoundedDecimal neg D p (ofDecimal neg D p) := by
  rw [ofDecimal_eq]
  exact ofUnits_rounded neg _ (decDen_pos p)

end B64
end Toon
