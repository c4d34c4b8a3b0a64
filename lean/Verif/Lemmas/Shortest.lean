import Verif.Lemmas.Float64

/-! # The shortest decimal that reads back -/

namespace Toon
namespace B64

/-- The number of decimal digits. -/
theorem natDigits_bounds {n : Nat} (hn : 0 < n) :
    0 < (natDigits n).length ∧ 10 ^ ((natDigits n).length - 1) ≤ n ∧ n < 10 ^ (natDigits n).length := by
  have key : ∀ fuel m acc, m < fuel → 0 < m → ∃ l, (natDigitsAux fuel m acc).length = l + 1 + acc.length ∧ 10 ^ l ≤ m ∧ m < 10 ^ (l + 1) := by
    intro fuel
    induction fuel with
    | zero => intro m acc h; omega
    | succ fuel ih =>
      intro m acc h hm
      rw [natDigitsAux]
      by_cases h10 : m < 10
      · rw [if_pos h10]
        exact ⟨0, by simp; omega, by omega, by omega⟩
      · rw [if_neg h10]
        obtain ⟨l, h1, h2, h3⟩ := ih (m / 10) (digitChar (m % 10) :: acc) (by omega) (by omega)
        refine ⟨l + 1, ?_, ?_, ?_⟩
        · rw [h1, List.length_cons]; omega
        · rw [Nat.pow_succ]; omega
        · rw [Nat.pow_succ]; omega
  obtain ⟨l, h1, h2, h3⟩ := key (n + 1) n [] (by omega) hn
  have : (natDigits n).length = l + 1 := h1
  rw [this]
  exact ⟨by omega, h2, h3⟩

/-- A decimal over a common power of ten. -/
theorem dec_scale (D : Nat) (e : Int) (K : Nat) (h : 0 ≤ e + K) :
    decNum D e * 10 ^ K = D * 10 ^ (e + K).toNat * 2 ^ 1074 * decDen e := by
  unfold decNum decDen
  have e1 : e.toNat + K = (e + K).toNat + (-e).toNat := by omega
  generalize 2 ^ 1074 = c
  calc D * 10 ^ e.toNat * c * 10 ^ K = D * (10 ^ e.toNat * 10 ^ K) * c := by ac_rfl
    _ = D * (10 ^ (e + K).toNat * 10 ^ (-e).toNat) * c := by rw [← Nat.pow_add, e1, Nat.pow_add]
    _ = _ := by ac_rfl

/-- Comparing two decimals. -/
theorem dec_le {D D' : Nat} {e e' : Int} (K : Nat) (h : 0 ≤ e + K) (h' : 0 ≤ e' + K)
    (hle : D * 10 ^ (e + K).toNat ≤ D' * 10 ^ (e' + K).toNat) : decNum D e * decDen e' ≤ decNum D' e' * decDen e := by
  have h1 := dec_scale D e K h
  have h2 := dec_scale D' e' K h'
  have h3 : D * 10 ^ (e + K).toNat * 2 ^ 1074 ≤ D' * 10 ^ (e' + K).toNat * 2 ^ 1074 := Nat.mul_le_mul_right _ hle
  refine Nat.le_of_mul_le_mul_right ?_ (Nat.pow_pos (n := K) (show 0 < 10 by decide))
  generalize decNum D e = a at *
  generalize decNum D' e' = a' at *
  generalize decDen e = b at *
  generalize decDen e' = b' at *
  generalize D * 10 ^ (e + K).toNat * 2 ^ 1074 = c at *
  generalize D' * 10 ^ (e' + K).toNat * 2 ^ 1074 = c' at *
  rw [Nat.mul_right_comm a, h1, Nat.mul_right_comm a', h2, Nat.mul_right_comm c']
  exact Nat.mul_le_mul_right _ (Nat.mul_le_mul_right _ h3)

/-- The exponent of the leading digit. -/
theorem log10_spec {u : Nat} (hu : 0 < u) :
    -400 ≤ log10 u ∧ decNum 1 (log10 u) ≤ u * decDen (log10 u) ∧ u * decDen (log10 u + 1) < decNum 1 (log10 u + 1) := by
  have hc : (0 : Nat) < 2 ^ 1074 := Nat.two_pow_pos _
  have hbig : (2 : Nat) ^ 1074 ≤ 10 ^ 400 := by
    calc (2 : Nat) ^ 1074 ≤ 2 ^ (3 * 400) := Nat.pow_le_pow_right (by decide) (by decide)
      _ = (2 ^ 3) ^ 400 := by rw [Nat.pow_mul]
      _ ≤ 10 ^ 400 := Nat.pow_le_pow_left (by decide) _
  have hv : 0 < u * 10 ^ 400 / 2 ^ 1074 := Nat.div_pos (Nat.le_trans hbig (Nat.le_mul_of_pos_left _ hu)) hc
  obtain ⟨h0, h1, h2⟩ := natDigits_bounds hv
  have hL : log10 u = ((natDigits (u * 10 ^ 400 / 2 ^ 1074)).length : Int) - 401 := rfl
  generalize (natDigits (u * 10 ^ 400 / 2 ^ 1074)).length = l at *
  rw [Nat.le_div_iff_mul_le hc] at h1
  rw [Nat.div_lt_iff_lt_mul hc] at h2
  generalize log10 u = L at *
  refine ⟨by omega, ?_, ?_⟩
  · have h3 := dec_scale 1 L 400 (by omega)
    refine Nat.le_of_mul_le_mul_right ?_ (Nat.pow_pos (n := 400) (show 0 < 10 by decide))
    rw [h3, show (L + (400 : Nat)).toNat = l - 1 by omega, Nat.one_mul]
    rw [Nat.mul_right_comm u]
    exact Nat.mul_le_mul_right _ h1
  · have h3 := dec_scale 1 (L + 1) 400 (by omega)
    refine Nat.lt_of_mul_lt_mul_right (a := 10 ^ 400) ?_
    rw [h3, show (L + 1 + (400 : Nat)).toNat = l by omega, Nat.one_mul]
    rw [Nat.mul_right_comm u]
    exact Nat.mul_lt_mul_of_pos_right h2 (decDen_pos _)

theorem inTens_num (u : Nat) (e : Int) : (inTens u e).1 = u * decDen e := by
  unfold inTens decDen
  cases e with
  | ofNat p => simp
  | negSucc p => rfl

theorem inTens_den (L u : Nat) (e : Int) : L * (inTens u e).2 = decNum L e := by
  unfold inTens decNum
  cases e with
  | ofNat p =>
    show L * (2 ^ 1074 * 10 ^ p) = L * 10 ^ p * 2 ^ 1074
    rw [Nat.mul_comm (2 ^ 1074), Nat.mul_assoc]
  | negSucc p =>
    show L * 2 ^ 1074 = L * 10 ^ 0 * 2 ^ 1074
    rw [Nat.pow_zero, Nat.mul_one]

theorem inTens_pos (u : Nat) (e : Int) : 0 < (inTens u e).2 := by
  unfold inTens
  cases e with
  | ofNat p => exact Nat.mul_pos (Nat.two_pow_pos _) (Nat.pow_pos (by decide))
  | negSucc p => exact Nat.two_pow_pos _

/-- The whole number of powers of ten in `x`. -/
theorem floor_spec (u : Nat) (e : Int) :
    decNum ((inTens u e).1 / (inTens u e).2) e ≤ u * decDen e ∧ u * decDen e < decNum ((inTens u e).1 / (inTens u e).2 + 1) e := by
  rw [← inTens_den _ u e, ← inTens_den _ u e, ← inTens_num u e]
  have h1 := Nat.div_mul_le_self (inTens u e).1 (inTens u e).2
  have h2 := Nat.lt_mul_of_div_lt (Nat.lt_succ_self ((inTens u e).1 / (inTens u e).2)) (inTens_pos u e)
  exact ⟨h1, h2⟩

theorem decNum_mono {a b : Nat} (e : Int) (h : a ≤ b) : decNum a e ≤ decNum b e :=
  Nat.mul_le_mul_right _ (Nat.mul_le_mul_right _ h)

/-- What is picked is one of the two neighbours, and something is picked if any multiple reads back. -/
theorem pick_cases (x : B64) (e : Int) :
    let lo := (inTens x.units e).1 / (inTens x.units e).2
    (∀ D, pick x e = some D → D = lo ∨ D = lo + 1) ∧
    ((ofDecimal x.neg lo e = x ∨ ofDecimal x.neg (lo + 1) e = x) → ∃ D, pick x e = some D) := by
  intro lo
  have key : ∀ near far : Nat, ((near = lo ∧ far = lo + 1) ∨ (near = lo + 1 ∧ far = lo)) →
      (∀ D, (if ofDecimal x.neg near e = x then some near else if ofDecimal x.neg far e = x then some far else none) = some D → D = lo ∨ D = lo + 1) ∧
      ((ofDecimal x.neg lo e = x ∨ ofDecimal x.neg (lo + 1) e = x) →
        ∃ D, (if ofDecimal x.neg near e = x then some near else if ofDecimal x.neg far e = x then some far else none) = some D) := by
    intro near far h
    constructor
    · intro D hD
      split at hD
      · cases hD; rcases h with ⟨h, _⟩ | ⟨h, _⟩ <;> simp [h]
      · split at hD
        · cases hD; rcases h with ⟨_, h⟩ | ⟨_, h⟩ <;> simp [h]
        · cases hD
    · intro hx
      split
      · exact ⟨_, rfl⟩
      · rename_i h1
        rw [if_pos]
        · exact ⟨_, rfl⟩
        · rcases h with ⟨rfl, rfl⟩ | ⟨rfl, rfl⟩
          · exact hx.resolve_left h1
          · exact hx.resolve_right h1
  have := key (if 2 * ((inTens x.units e).1 % (inTens x.units e).2) < (inTens x.units e).2 then lo else lo + 1)
    (if 2 * ((inTens x.units e).1 % (inTens x.units e).2) < (inTens x.units e).2 then lo + 1 else lo)
    (by split <;> simp)
  unfold pick
  exact this

/-- If a multiple of `10^e` reads back, then one of the two neighbours does. -/
theorem pick_found {x : B64} (hf : x.isFin = true) {e : Int} {D : Nat} (h : ofDecimal x.neg D e = x) : ∃ D', pick x e = some D' := by
  obtain ⟨_, hfound⟩ := pick_cases x e
  apply hfound
  obtain ⟨h1, h2⟩ := floor_spec x.units e
  rw [ofDecimal_eq] at h
  generalize (inTens x.units e).1 / (inTens x.units e).2 = lo at *
  by_cases hlo : D ≤ lo
  · left
    rw [ofDecimal_eq]
    exact ofUnits_between x hf (decDen_pos e) (decDen_pos e) h (.inl ⟨Nat.mul_le_mul_right _ (decNum_mono e hlo), h1⟩)
  · right
    rw [ofDecimal_eq]
    exact ofUnits_between x hf (decDen_pos e) (decDen_pos e) h
      (.inr ⟨Nat.mul_le_mul_right _ (decNum_mono e (by omega)), Nat.le_of_lt h2⟩)

theorem ofDecimal_tens (neg : Bool) (D : Nat) (p : Int) (k : Nat) : ofDecimal neg (D * 10 ^ k) p = ofDecimal neg D (p + k) := by
  induction k generalizing D p with
  | zero => simp
  | succ k ih =>
    rw [Nat.pow_succ, ← Nat.mul_assoc, Nat.mul_comm _ 10, ofDecimal_ten, ih]
    congr 1
    omega

/-- If a decimal with at most `m` digits reads back, then one whose last digit is the `m`-th of `x`. -/
theorem digits_found {x : B64} (hf : x.isFin = true) (hz : x.units ≠ 0) {D : Nat} {p : Int} {m : Nat} (hD : D < 10 ^ m)
    (h : ofDecimal x.neg D p = x) : ∃ D', pick x (lastPlace x.units m) = some D' := by
  have hD0 : D ≠ 0 := by
    rintro rfl
    rw [ofDecimal_zero] at h
    rw [← h] at hz
    exact hz (units_zeroB _)
  have hm : 0 < m := by
    rcases Nat.eq_zero_or_pos m with h0 | h0
    · subst h0; omega
    · exact h0
  obtain ⟨hL, hle, _⟩ := log10_spec (Nat.pos_of_ne_zero hz)
  rw [lastPlace]
  generalize log10 x.units = L at *
  obtain ⟨e, he⟩ : ∃ e : Int, L - ((m : Int) - 1) = e := ⟨_, rfl⟩
  rw [he]
  by_cases hp : e ≤ p
  · obtain ⟨k, rfl⟩ : ∃ k : Nat, p = e + k := ⟨(p - e).toNat, by omega⟩
    rw [← ofDecimal_tens] at h
    exact pick_found hf h
  · -- the decimal is below the leading power of ten
    have h1 : ofDecimal x.neg 1 L = x := by
      rw [ofDecimal_eq] at h ⊢
      refine ofUnits_between x hf (decDen_pos _) (decDen_pos _) h (.inl ⟨?_, hle⟩)
      obtain ⟨K, hK⟩ : ∃ K : Nat, 0 ≤ p + K ∧ 0 ≤ L + K := ⟨(-p).toNat + 400, by omega⟩
      refine dec_le K hK.1 hK.2 ?_
      calc D * 10 ^ (p + K).toNat ≤ 10 ^ m * 10 ^ (p + K).toNat := Nat.mul_le_mul_right _ (Nat.le_of_lt hD)
        _ = 10 ^ (m + (p + K).toNat) := by rw [Nat.pow_add]
        _ ≤ 10 ^ (L + K).toNat := Nat.pow_le_pow_right (by decide) (by omega)
        _ = 1 * 10 ^ (L + K).toNat := by rw [Nat.one_mul]
    refine pick_found hf (D := 1 * 10 ^ (m - 1)) ?_
    rw [ofDecimal_tens, show e + ((m - 1 : Nat) : Int) = L by omega]
    exact h1

/-- The search stops at the first number of digits that succeeds. -/
theorem search_found (x : B64) (fuel n k D : Nat) (hk : k < fuel) (h : pick x (lastPlace x.units (n + k)) = some D) :
    ∃ j, j ≤ k ∧ ∃ D', pick x (lastPlace x.units (n + j)) = some D' ∧ search x fuel n = (D', lastPlace x.units (n + j)) := by
  induction fuel generalizing n k with
  | zero => omega
  | succ fuel ih =>
    rw [search_succ]
    cases h0 : pick x (lastPlace x.units n) with
    | some D' => exact ⟨0, Nat.zero_le _, D', h0, rfl⟩
    | none =>
      cases k with
      | zero => rw [Nat.add_zero, h0] at h; cases h
      | succ k =>
        obtain ⟨j, h1, D', h2, h3⟩ := ih (n + 1) k (by omega) (by rw [Nat.add_assoc, Nat.add_comm 1 k]; exact h)
        refine ⟨j + 1, by omega, D', ?_, ?_⟩
        · rw [Nat.add_assoc, Nat.add_comm 1 j] at h2
          exact h2
        · rw [Nat.add_assoc, Nat.add_comm 1 j] at h3
          exact h3

/-- What is picked has at most as many digits, or is the next power of ten. -/
theorem pick_le {x : B64} (hz : x.units ≠ 0) {m D : Nat} (hm : 0 < m) (h : pick x (lastPlace x.units m) = some D) : D ≤ 10 ^ m := by
  obtain ⟨hL, _, hlt⟩ := log10_spec (Nat.pos_of_ne_zero hz)
  have h1 := (pick_cases x (lastPlace x.units m)).1 D h
  obtain ⟨h2, _⟩ := floor_spec x.units (lastPlace x.units m)
  rw [lastPlace] at h1 h2
  generalize log10 x.units = L at *
  obtain ⟨e, he⟩ : ∃ e : Int, L - ((m : Int) - 1) = e := ⟨_, rfl⟩
  rw [he] at h1 h2
  generalize (inTens x.units e).1 / (inTens x.units e).2 = lo at *
  have hlo : lo < 10 ^ m := by
    refine Decidable.byContradiction fun hge => ?_
    obtain ⟨K, hK⟩ : ∃ K : Nat, 0 ≤ L + 1 + K ∧ 0 ≤ e + K := ⟨(-e).toNat + 400, by omega⟩
    have h3 : decNum 1 (L + 1) * decDen e ≤ decNum lo e * decDen (L + 1) := by
      refine dec_le K hK.1 hK.2 ?_
      rw [show (L + 1 + K).toNat = m + (e + K).toNat by omega, Nat.one_mul, Nat.pow_add]
      exact Nat.mul_le_mul_right _ (by omega)
    have h4 : decNum lo e * decDen (L + 1) ≤ x.units * decDen e * decDen (L + 1) := Nat.mul_le_mul_right _ h2
    have h5 : x.units * decDen (L + 1) * decDen e < decNum 1 (L + 1) * decDen e := Nat.mul_lt_mul_of_pos_right hlt (decDen_pos e)
    rw [Nat.mul_right_comm] at h4
    omega
  omega

/-- Different finite numbers are not close to each other. -/
theorem units_gap (x y : B64) (h : x.units ≠ y.units) : x.units ≤ 2 ^ 53 * apart y.units x.units := by
  have hx := sig_lt x
  have hxu : x.units = x.sig * 2 ^ x.shift := rfl
  rcases units_multiple y x.shift with ⟨m, hm⟩ | ⟨hs, hlt⟩
  · have hne : m ≠ x.sig := by
      intro hmx
      rw [hm, hxu, hmx] at h
      exact h rfl
    have hgap : 2 ^ x.shift ≤ apart (m * 2 ^ x.shift) (x.sig * 2 ^ x.shift) := by
      unfold apart
      rcases Nat.lt_or_gt_of_ne hne with h1 | h1
      · have := Nat.mul_le_mul_right (2 ^ x.shift) (show m + 1 ≤ x.sig from h1)
        rw [Nat.add_mul, Nat.one_mul] at this
        omega
      · have := Nat.mul_le_mul_right (2 ^ x.shift) (show x.sig + 1 ≤ m from h1)
        rw [Nat.add_mul, Nat.one_mul] at this
        omega
    rw [hm, hxu]
    calc x.sig * 2 ^ x.shift ≤ 2 ^ 53 * 2 ^ x.shift := Nat.mul_le_mul_right _ (by omega)
      _ ≤ _ := Nat.mul_le_mul_left _ hgap
  · -- `x` is at least `2^52` steps and `y` is below, with smaller steps
    have hxs : 2 ^ 52 ≤ x.sig := by
      unfold sig
      rw [if_neg]
      · omega
      · unfold shift at hs; omega
    obtain ⟨s, hs'⟩ : ∃ s, x.shift = s + 1 := ⟨x.shift - 1, by omega⟩
    have hy : y.units ≤ (2 ^ 53 - 1) * 2 ^ s := by
      have h1 := sig_lt y
      have hyu : y.units = y.sig * 2 ^ y.shift := rfl
      rcases Nat.lt_or_ge s y.shift with h2 | h2
      · exfalso
        rw [hs'] at hlt
        by_cases hy52 : 2 ^ 52 ≤ y.sig
        · have : 2 ^ 52 * 2 ^ (s + 1) ≤ y.sig * 2 ^ y.shift := Nat.mul_le_mul hy52 (Nat.pow_le_pow_right (by decide) h2)
          omega
        · unfold sig at hy52
          split at hy52
          · unfold shift at h2; omega
          · omega
      · rw [hyu]
        exact Nat.mul_le_mul (by omega) (Nat.pow_le_pow_right (by decide) h2)
    have hxl : 2 ^ 53 * 2 ^ s ≤ x.units := by
      have e : 2 ^ 53 * 2 ^ s = 2 ^ 52 * 2 ^ (s + 1) := by rw [← Nat.pow_add, ← Nat.pow_add, show 53 + s = 52 + (s + 1) by omega]
      rw [hxu, hs', e]
      exact Nat.mul_le_mul_right _ hxs
    unfold apart
    generalize 2 ^ s = c at *
    omega

/-- What is closer than `2^-54` of a number is rounded to it. -/
theorem close_reads (x : B64) (hf : x.isFin = true) {n d : Nat} (hd : 0 < d) (h : 2 ^ 54 * apart n (x.units * d) < x.units * d) :
    ofUnits x.neg n d = x := by
  have hmax : x.units + 2 ^ 2044 ≤ overflowUnits := by
    have h1 := units_lt_max x hf
    unfold overflowUnits
    rw [show (2 : Nat) ^ 2045 = 2 * 2 ^ 2044 by rw [Nat.pow_succ, Nat.mul_comm]] at h1
    generalize 2 ^ 2044 = c at *
    omega
  have hlt : x.units < 2 ^ 54 * 2 ^ 2044 := by
    have h1 : overflowUnits ≤ 2 ^ 54 * 2 ^ 2044 := by
      unfold overflowUnits
      exact Nat.mul_le_mul_right _ (by decide)
    have : 0 < 2 ^ 2044 := Nat.two_pow_pos _
    omega
  have hfin : (ofUnits x.neg n d).isFin = true := by
    rw [ofUnits_fin _ _ hd]
    have h1 := Nat.mul_le_mul_right d hmax
    have h2 := Nat.mul_lt_mul_of_pos_right hlt hd
    rw [Nat.add_mul] at h1
    rw [Nat.mul_assoc] at h2
    unfold apart at h
    generalize overflowUnits * d = o at *
    generalize 2 ^ 2044 * d = c at *
    generalize x.units * d = u at *
    omega
  refine units_inj hfin hf (ofUnits_neg _ _ hd) ?_
  refine Decidable.byContradiction fun hne => ?_
  have h1 := ofUnits_nearest x.neg n hd hfin x hf
  have h2 := Nat.mul_le_mul_right d (units_gap x _ (fun h => hne h.symm))
  have h3 : apart (ofUnits x.neg n d).units x.units * d = apart ((ofUnits x.neg n d).units * d) (x.units * d) := by
    unfold apart
    rw [Nat.add_mul, Nat.sub_mul, Nat.sub_mul]
  rw [Nat.mul_assoc, h3] at h2
  unfold apart at h h1 h2
  generalize (ofUnits x.neg n d).units * d = r at *
  generalize x.units * d = u at *
  omega

/-- 17 digits always suffice. -/
theorem seventeen {x : B64} (hf : x.isFin = true) (hz : x.units ≠ 0) : ∃ D, pick x (lastPlace x.units 17) = some D := by
  obtain ⟨hL, hle, _⟩ := log10_spec (Nat.pos_of_ne_zero hz)
  obtain ⟨h1, h2⟩ := floor_spec x.units (lastPlace x.units 17)
  obtain ⟨_, hfound⟩ := pick_cases x (lastPlace x.units 17)
  apply hfound
  clear hfound
  rw [lastPlace] at h1 h2 ⊢
  generalize log10 x.units = L at *
  obtain ⟨e, he⟩ : ∃ e : Int, L - (((17 : Nat) : Int) - 1) = e := ⟨_, rfl⟩
  rw [he] at h1 h2 ⊢
  generalize (inTens x.units e).1 / (inTens x.units e).2 = lo at *
  have hstep : decNum (lo + 1) e = decNum lo e + decNum 1 e := by
    unfold decNum
    rw [Nat.add_mul, Nat.add_mul]
  have hpos : 0 < decNum 1 e := Nat.mul_pos (Nat.mul_pos (by decide) (Nat.pow_pos (by decide))) (Nat.two_pow_pos _)
  have hbig : 10 ^ 16 * decNum 1 e ≤ x.units * decDen e := by
    have h3 : decNum (10 ^ 16) e = 10 ^ 16 * decNum 1 e := by
      unfold decNum
      rw [Nat.one_mul, Nat.mul_assoc]
    rw [← h3]
    obtain ⟨K, hK⟩ : ∃ K : Nat, 0 ≤ L + K ∧ 0 ≤ e + K := ⟨(-e).toNat + 400, by omega⟩
    have h4 : decNum (10 ^ 16) e * decDen L ≤ decNum 1 L * decDen e := by
      refine dec_le K hK.2 hK.1 ?_
      rw [show (L + K).toNat = 16 + (e + K).toNat by omega, Nat.one_mul, Nat.pow_add]
      exact Nat.le_refl _
    have h5 : decNum 1 L * decDen e ≤ x.units * decDen L * decDen e := Nat.mul_le_mul_right _ hle
    rw [Nat.mul_right_comm] at h5
    exact Nat.le_of_mul_le_mul_right (Nat.le_trans h4 h5) (decDen_pos L)
  rw [hstep] at h2
  have near : 2 * (x.units * decDen e - decNum lo e) ≤ decNum 1 e ∨ 2 * (decNum (lo + 1) e - x.units * decDen e) ≤ decNum 1 e := by
    rw [hstep]
    generalize decNum lo e = a at *
    generalize decNum 1 e = b at *
    generalize x.units * decDen e = u at *
    omega
  rcases near with h | h
  · left
    rw [ofDecimal_eq]
    refine close_reads x hf (decDen_pos e) ?_
    unfold apart
    generalize decNum lo e = a at *
    generalize decNum 1 e = b at *
    generalize x.units * decDen e = u at *
    omega
  · right
    rw [ofDecimal_eq]
    refine close_reads x hf (decDen_pos e) ?_
    rw [hstep] at h ⊢
    unfold apart
    generalize decNum lo e = a at *
    generalize decNum 1 e = b at *
    generalize x.units * decDen e = u at *
    omega

theorem dropZero_lt {r : Nat × Int} {m : Nat} (hm : 0 < m) (h : r.1 ≤ 10 ^ m) : (dropZero r).1 < 10 ^ m := by
  obtain ⟨k, rfl⟩ : ∃ k, m = k + 1 := ⟨m - 1, by omega⟩
  have hk : 0 < 10 ^ k := Nat.pow_pos (by decide)
  rw [Nat.pow_succ] at h ⊢
  unfold dropZero
  split
  · show r.1 / 10 < _
    omega
  · show r.1 < _
    omega

/-- If a decimal with at most `m` digits reads back, then the written one has at most `m` digits. -/
theorem shortest_min {x : B64} (hf : x.isFin = true) (hz : x.units ≠ 0) {D : Nat} {p : Int} {m : Nat}
    (h : ofDecimal x.neg D p = x) (hD : D < 10 ^ m) : x.shortest.1 < 10 ^ m := by
  have key : ∀ k D', k < 17 → pick x (lastPlace x.units (1 + k)) = some D' → x.shortest.1 < 10 ^ (1 + k) := by
    intro k D' hk h
    obtain ⟨j, hj, D'', h1, h2⟩ := search_found x 17 1 k D' hk h
    have h3 : x.shortest = dropZero (search x 17 1) := rfl
    rw [h3, h2]
    refine Nat.lt_of_lt_of_le (dropZero_lt (m := 1 + j) (by omega) ?_) (Nat.pow_le_pow_right (by decide) (by omega))
    exact pick_le hz (by omega) h1
  by_cases hm : m < 18
  · have hD0 : D ≠ 0 := by
      rintro rfl
      rw [ofDecimal_zero] at h
      rw [← h] at hz
      exact hz (units_zeroB _)
    cases m with
    | zero => omega
    | succ m =>
      obtain ⟨D', h1⟩ := digits_found hf hz hD h
      rw [Nat.add_comm m 1] at h1 ⊢
      exact key m D' (by omega) h1
  · obtain ⟨D', h1⟩ := seventeen hf hz
    have := key 16 D' (by decide) h1
    exact Nat.lt_of_lt_of_le this (Nat.pow_le_pow_right (by decide) (by omega))

/-- At most 17 digits are written. -/
theorem shortest_lt {x : B64} (hf : x.isFin = true) (hz : x.units ≠ 0) : x.shortest.1 < 10 ^ 17 := by
  obtain ⟨D', h1⟩ := seventeen hf hz
  obtain ⟨j, hj, D'', h2, h3⟩ := search_found x 17 1 16 D' (by decide) h1
  have h4 : x.shortest = dropZero (search x 17 1) := rfl
  rw [h4, h3]
  exact Nat.lt_of_lt_of_le (dropZero_lt (m := 1 + j) (by omega) (pick_le hz (by omega) h2)) (Nat.pow_le_pow_right (by decide) (by omega))

/-- The written digits do not end in a zero. -/
theorem shortest_last {x : B64} (hf : x.isFin = true) (hz : x.units ≠ 0) : x.shortest.1 % 10 ≠ 0 := by
  intro h0
  have h := shortest_spec x hf hz
  have hpos : 0 < x.shortest.1 := by
    rcases Nat.eq_zero_or_pos x.shortest.1 with h1 | h1
    · rw [h1, ofDecimal_zero] at h
      rw [← h] at hz
      exact absurd (units_zeroB _) hz
    · exact h1
  have h1 : ofDecimal x.neg (x.shortest.1 / 10) (x.shortest.2 + 1) = x := by
    rw [← ofDecimal_ten, Nat.mul_div_cancel' (Nat.dvd_of_mod_eq_zero h0)]
    exact h
  obtain ⟨_, h2, h3⟩ := natDigits_bounds hpos
  have h4 : x.shortest.1 / 10 < 10 ^ ((natDigits x.shortest.1).length - 1) := by
    rename_i h5
    rw [show (natDigits x.shortest.1).length = (natDigits x.shortest.1).length - 1 + 1 by omega, Nat.pow_succ] at h3
    omega
  have h5 := shortest_min hf hz h1 h4
  omega

/-- The nearer of the multiples of `10^e` that read back is picked. -/
theorem pick_near {x : B64} (hf : x.isFin = true) {e : Int} {D M : Nat} (h : pick x e = some D) (hM : ofDecimal x.neg M e = x) :
    apart (decNum D e) (x.units * decDen e) ≤ apart (decNum M e) (x.units * decDen e) := by
  obtain ⟨h1, h2⟩ := floor_spec x.units e
  have hlo : ∀ M, ofDecimal x.neg M e = x → M ≤ (inTens x.units e).1 / (inTens x.units e).2 →
      ofDecimal x.neg ((inTens x.units e).1 / (inTens x.units e).2) e = x := by
    intro M hM hle
    rw [ofDecimal_eq] at hM ⊢
    exact ofUnits_between x hf (decDen_pos e) (decDen_pos e) hM (.inl ⟨Nat.mul_le_mul_right _ (decNum_mono e hle), h1⟩)
  have hhi : ∀ M, ofDecimal x.neg M e = x → ¬ M ≤ (inTens x.units e).1 / (inTens x.units e).2 →
      ofDecimal x.neg ((inTens x.units e).1 / (inTens x.units e).2 + 1) e = x := by
    intro M hM hle
    rw [ofDecimal_eq] at hM ⊢
    exact ofUnits_between x hf (decDen_pos e) (decDen_pos e) hM
      (.inr ⟨Nat.mul_le_mul_right _ (decNum_mono e (by omega)), Nat.le_of_lt h2⟩)
  have hmod : (inTens x.units e).1 % (inTens x.units e).2 = x.units * decDen e - decNum ((inTens x.units e).1 / (inTens x.units e).2) e := by
    rw [← inTens_den _ x.units e, ← inTens_num x.units e]
    have := Nat.div_add_mod (inTens x.units e).1 (inTens x.units e).2
    rw [Nat.mul_comm] at this
    omega
  have hden : decNum ((inTens x.units e).1 / (inTens x.units e).2 + 1) e =
      decNum ((inTens x.units e).1 / (inTens x.units e).2) e + (inTens x.units e).2 := by
    rw [← inTens_den _ x.units e, ← inTens_den _ x.units e, Nat.add_mul, Nat.one_mul]
  have hm1 : M ≤ (inTens x.units e).1 / (inTens x.units e).2 → decNum M e ≤ decNum ((inTens x.units e).1 / (inTens x.units e).2) e := decNum_mono e
  have hm2 : ¬ M ≤ (inTens x.units e).1 / (inTens x.units e).2 →
      decNum ((inTens x.units e).1 / (inTens x.units e).2 + 1) e ≤ decNum M e := fun h => decNum_mono e (by omega)
  have hloM := hlo M hM
  have hhiM := hhi M hM
  clear hlo hhi hM hf
  have h' : (if ofDecimal x.neg (if 2 * ((inTens x.units e).1 % (inTens x.units e).2) < (inTens x.units e).2 then (inTens x.units e).1 / (inTens x.units e).2 else (inTens x.units e).1 / (inTens x.units e).2 + 1) e = x
      then some (if 2 * ((inTens x.units e).1 % (inTens x.units e).2) < (inTens x.units e).2 then (inTens x.units e).1 / (inTens x.units e).2 else (inTens x.units e).1 / (inTens x.units e).2 + 1)
      else if ofDecimal x.neg (if 2 * ((inTens x.units e).1 % (inTens x.units e).2) < (inTens x.units e).2 then (inTens x.units e).1 / (inTens x.units e).2 + 1 else (inTens x.units e).1 / (inTens x.units e).2) e = x
      then some (if 2 * ((inTens x.units e).1 % (inTens x.units e).2) < (inTens x.units e).2 then (inTens x.units e).1 / (inTens x.units e).2 + 1 else (inTens x.units e).1 / (inTens x.units e).2)
      else none) = some D := h
  clear h
  rw [hmod] at h'
  generalize (inTens x.units e).1 / (inTens x.units e).2 = lo at *
  generalize (inTens x.units e).2 = c at *
  generalize hA : decNum lo e = A at *
  generalize hB : decNum (lo + 1) e = B at *
  generalize x.units * decDen e = u at *
  generalize decNum M e = m at *
  have fin : ∀ near far : Nat, (if ofDecimal x.neg near e = x then some near else if ofDecimal x.neg far e = x then some far else none) = some D →
      (near = D ∧ ofDecimal x.neg near e = x) ∨ (far = D ∧ ¬ ofDecimal x.neg near e = x) := by
    intro near far h
    split at h
    · rename_i h1; cases h; exact .inl ⟨rfl, h1⟩
    · rename_i h1
      split at h
      · cases h; exact .inr ⟨rfl, h1⟩
      · cases h
  have hfin := fin _ _ h'
  clear fin h'
  by_cases hc : 2 * (u - A) < c
  · rw [if_pos hc, if_pos hc] at hfin
    rcases hfin with ⟨rfl, _⟩ | ⟨rfl, h3⟩
    · rw [hA]
      by_cases hMl : M ≤ lo
      · have := hm1 hMl
        unfold apart; omega
      · have := hm2 hMl
        unfold apart; omega
    · rw [hB]
      by_cases hMl : M ≤ lo
      · exact absurd (hloM hMl) h3
      · have := hm2 hMl
        unfold apart; omega
  · rw [if_neg hc, if_neg hc] at hfin
    rcases hfin with ⟨rfl, _⟩ | ⟨rfl, h3⟩
    · rw [hB]
      by_cases hMl : M ≤ lo
      · have := hm1 hMl
        unfold apart; omega
      · have := hm2 hMl
        unfold apart; omega
    · rw [hA]
      by_cases hMl : M ≤ lo
      · have := hm1 hMl
        unfold apart; omega
      · exact absurd (hhiM hMl) h3

/-- The value of a decimal does not change with zeros appended. -/
theorem dec_tens (D : Nat) (p : Int) (k : Nat) : decNum (D * 10 ^ k) p * decDen (p + k) = decNum D (p + k) * decDen p := by
  obtain ⟨K, hK⟩ : ∃ K : Nat, 0 ≤ p + K ∧ 0 ≤ p + k + K := ⟨(-p).toNat, by omega⟩
  have e : D * 10 ^ k * 10 ^ (p + K).toNat = D * 10 ^ (p + k + K).toNat := by
    rw [Nat.mul_assoc, ← Nat.pow_add, show k + (p + K).toNat = (p + k + K).toNat by omega]
  exact Nat.le_antisymm (dec_le K hK.1 hK.2 (Nat.le_of_eq e)) (dec_le K hK.2 hK.1 (Nat.le_of_eq e.symm))

/-- At least as near: distances of quotients over different denominators. -/
theorem near_trans {a b c da db dc u : Nat} (hdb : 0 < db) (h1 : apart a (u * da) * db ≤ apart b (u * db) * da)
    (h2 : apart b (u * db) * dc ≤ apart c (u * dc) * db) : apart a (u * da) * dc ≤ apart c (u * dc) * da := by
  refine Nat.le_of_mul_le_mul_right ?_ hdb
  generalize apart a (u * da) = A at *
  generalize apart b (u * db) = B at *
  generalize apart c (u * dc) = C at *
  calc A * dc * db = A * db * dc := by ac_rfl
    _ ≤ B * da * dc := Nat.mul_le_mul_right _ h1
    _ = B * dc * da := by ac_rfl
    _ ≤ C * db * da := Nat.mul_le_mul_right _ h2
    _ = C * da * db := by ac_rfl

theorem apart_mul (a b k : Nat) : apart a b * k = apart (a * k) (b * k) := by
  unfold apart
  rw [Nat.add_mul, Nat.sub_mul, Nat.sub_mul]

/-- The same value is equally near. -/
theorem near_same {a b da db : Nat} (u : Nat) (h : a * db = b * da) : apart a (u * da) * db = apart b (u * db) * da := by
  rw [apart_mul, apart_mul, h, Nat.mul_right_comm u]

/-- Of the decimals with at most as many digits that read back, the nearest one is written. -/
theorem shortest_near {x : B64} (hf : x.isFin = true) (hz : x.units ≠ 0) {D : Nat} {p : Int}
    (h : ofDecimal x.neg D p = x) (hD : ∀ m, x.shortest.1 < 10 ^ m → D < 10 ^ m) :
    apart (decNum x.shortest.1 x.shortest.2) (x.units * decDen x.shortest.2) * decDen p ≤
      apart (decNum D p) (x.units * decDen p) * decDen x.shortest.2 := by
  obtain ⟨D', h1⟩ := seventeen hf hz
  obtain ⟨j, _, M, h2, h3⟩ := search_found x 17 1 16 D' (by decide) h1
  have h4 : x.shortest = dropZero (search x 17 1) := rfl
  have hDm : D < 10 ^ (1 + j) := hD _ (by rw [h4, h3]; exact dropZero_lt (by omega) (pick_le hz (by omega) h2))
  clear h1 hD
  -- the picked decimal and the written one have the same value
  have hval : decNum x.shortest.1 x.shortest.2 * decDen (lastPlace x.units (1 + j)) = decNum M (lastPlace x.units (1 + j)) * decDen x.shortest.2 := by
    rw [h4, h3]
    generalize lastPlace x.units (1 + j) = e
    unfold dropZero
    split
    · rename_i h0
      have h0' : M % 10 = 0 := h0
      have := dec_tens (M / 10) e 1
      rw [Nat.pow_one, Nat.div_mul_cancel (Nat.dvd_of_mod_eq_zero h0')] at this
      exact this.symm
    · rfl
  have hbest : ∀ N, ofDecimal x.neg N (lastPlace x.units (1 + j)) = x →
      apart (decNum M (lastPlace x.units (1 + j))) (x.units * decDen (lastPlace x.units (1 + j))) ≤
        apart (decNum N (lastPlace x.units (1 + j))) (x.units * decDen (lastPlace x.units (1 + j))) := fun N => pick_near hf h2
  obtain ⟨hL, hle, _⟩ := log10_spec (Nat.pos_of_ne_zero hz)
  have he : lastPlace x.units (1 + j) = log10 x.units - j := by rw [lastPlace]; omega
  generalize lastPlace x.units (1 + j) = e at *
  generalize log10 x.units = L at *
  refine near_trans (decDen_pos e) (Nat.le_of_eq (near_same _ hval)) ?_
  by_cases hp : e ≤ p
  · obtain ⟨k, rfl⟩ : ∃ k : Nat, p = e + k := ⟨(p - e).toNat, by omega⟩
    have := hbest (D * 10 ^ k) (by rw [ofDecimal_tens]; exact h)
    refine near_trans (decDen_pos e) (Nat.mul_le_mul_right _ this) (Nat.le_of_eq (near_same _ (dec_tens D e k)))
  · -- the decimal is below the leading power of ten
    obtain ⟨K, hK⟩ : ∃ K : Nat, 0 ≤ p + K ∧ 0 ≤ L + K := ⟨(-p).toNat + 400, by omega⟩
    have hbelow : decNum D p * decDen L ≤ decNum 1 L * decDen p := by
      refine dec_le K hK.1 hK.2 ?_
      calc D * 10 ^ (p + K).toNat ≤ 10 ^ (1 + j) * 10 ^ (p + K).toNat := Nat.mul_le_mul_right _ (Nat.le_of_lt hDm)
        _ = 10 ^ (1 + j + (p + K).toNat) := (Nat.pow_add _ _ _).symm
        _ ≤ 10 ^ (L + K).toNat := Nat.pow_le_pow_right (by decide) (by omega)
        _ = 1 * 10 ^ (L + K).toNat := by rw [Nat.one_mul]
    have h1 : ofDecimal x.neg 1 L = x := by
      rw [ofDecimal_eq] at h ⊢
      exact ofUnits_between x hf (decDen_pos _) (decDen_pos _) h (.inl ⟨hbelow, hle⟩)
    have hten : ofDecimal x.neg (1 * 10 ^ j) e = x := by
      rw [ofDecimal_tens, show e + (j : Int) = L by omega]
      exact h1
    have h5 := hbest _ hten
    refine near_trans (decDen_pos e) (Nat.mul_le_mul_right _ h5) ?_
    have h6 := dec_tens 1 e j
    rw [show e + (j : Int) = L by omega] at h6
    refine near_trans (decDen_pos L) (Nat.le_of_eq (near_same _ h6)) ?_
    rw [apart_mul, apart_mul]
    have h7 : decNum 1 L * decDen p ≤ x.units * decDen L * decDen p := Nat.mul_le_mul_right _ hle
    rw [Nat.mul_right_comm x.units (decDen p)]
    generalize decNum 1 L * decDen p = A at *
    generalize decNum D p * decDen L = B at *
    generalize x.units * decDen L * decDen p = U at *
    unfold apart
    omega

/-- A quotient is rounded to one number only. -/
theorem rounded_unique {neg : Bool} {n d : Nat} (hd : 0 < d) {x y : B64} (hx : Rounded neg n d x) (hy : Rounded neg n d y) : x = y := by
  have key : ∀ x y : B64, x.isFin = true → y.isFin = true → x.units < y.units → x.mant.val % 2 = 0 → y.mant.val % 2 = 0 →
      ∃ z : B64, z.isFin = true ∧ x.units < z.units ∧ z.units < y.units := by
    intro x y hxf hyf hlt hxe hye
    have hm := x.mant.isLt
    have hm' : x.mant.val + 1 < 2 ^ 52 := by omega
    have hz : (⟨x.neg, x.ex, ⟨x.mant.val + 1, hm'⟩⟩ : B64).units = (x.sig + 1) * 2 ^ x.shift := by
      unfold units sig shift
      split <;> rfl
    refine ⟨⟨x.neg, x.ex, ⟨x.mant.val + 1, hm'⟩⟩, hxf, ?_, ?_⟩
    · rw [hz, Nat.add_mul, Nat.one_mul]
      have : 0 < 2 ^ x.shift := Nat.two_pow_pos _
      have e : x.units = x.sig * 2 ^ x.shift := rfl
      omega
    · have hle : (x.sig + 1) * 2 ^ x.shift ≤ y.units := by
        rcases units_multiple y x.shift with ⟨m, hm⟩ | ⟨h0, h1⟩
        · rw [hm] at hlt ⊢
          have e : x.units = x.sig * 2 ^ x.shift := rfl
          rw [e] at hlt
          exact Nat.mul_le_mul_right _ (Nat.lt_of_mul_lt_mul_right hlt)
        · exfalso
          have hxs : 2 ^ 52 ≤ x.sig := by
            unfold sig
            rw [if_neg]
            · omega
            · unfold shift at h0; omega
          have := Nat.mul_le_mul_right (2 ^ x.shift) hxs
          have e : x.units = x.sig * 2 ^ x.shift := rfl
          omega
      refine Nat.lt_of_le_of_ne (by rw [hz]; exact hle) fun heq => ?_
      have := units_inj (x := ⟨y.neg, x.ex, ⟨x.mant.val + 1, hm'⟩⟩) (y := y) hxf hyf rfl (by rw [← heq]; rfl)
      rw [← this] at hye
      have hye' : (x.mant.val + 1) % 2 = 0 := hye
      omega
  obtain ⟨hxn, hx⟩ := hx
  obtain ⟨hyn, hy⟩ := hy
  rcases hx with ⟨ho, hx⟩ | ⟨hl, hxf, hx⟩
  · rcases hy with ⟨_, hy⟩ | ⟨hl, _⟩
    · rw [hx, hy]
    · exact absurd hl (Nat.not_lt_of_le ho)
  · rcases hy with ⟨ho, _⟩ | ⟨_, hyf, hy⟩
    · exact absurd hl (Nat.not_lt_of_le ho)
    · refine units_inj hxf hyf (hxn.trans hyn.symm) ?_
      refine Decidable.byContradiction fun hne => ?_
      have h1 := (hx y hyf).1
      have h2 := (hy x hxf).1
      have heq : apart (x.units * d) n = apart (y.units * d) n := Nat.le_antisymm h1 h2
      have hxe := (hx y hyf).2 heq (fun h => hne h.symm)
      have hye := (hy x hxf).2 heq.symm hne
      have fin : ∀ z : B64, z.isFin = true → (x.units < z.units ∧ z.units < y.units) ∨ (y.units < z.units ∧ z.units < x.units) → False := by
        intro z hzf hz
        have h3 := (hx z hzf).1
        have mul : ∀ a b : Nat, a < b → a * d < b * d := fun a b h => Nat.mul_lt_mul_of_pos_right h hd
        rcases hz with ⟨h4, h5⟩ | ⟨h4, h5⟩
        · have := mul _ _ h4
          have := mul _ _ h5
          unfold apart at *
          omega
        · have := mul _ _ h4
          have := mul _ _ h5
          unfold apart at *
          omega
      rcases Nat.lt_or_gt_of_ne hne with h | h
      · obtain ⟨z, hz, h3, h4⟩ := key x y hxf hyf h hxe hye
        exact fin z hz (.inl ⟨h3, h4⟩)
      · obtain ⟨z, hz, h3, h4⟩ := key y x hyf hxf h hye hxe
        exact fin z hz (.inr ⟨h3, h4⟩)

theorem roundedDecimal_iff (neg : Bool) (D : Nat) (p : Int) (x : B64) : RoundedDecimal neg D p x ↔ ofDecimal neg D p = x := by
  constructor
  · intro h
    exact rounded_unique (decDen_pos p) (ofDecimal_rounded neg D p) h
  · rintro rfl
    exact ofDecimal_rounded neg D p

end B64
end Toon
