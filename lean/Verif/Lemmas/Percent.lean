import Verif.Lemmas.Float64
import Verif.Model.Stderr

/-! # The relative error of the arithmetic behind the percentage -/

namespace Toon
namespace B64

/-- A quotient that is neither tiny nor huge is rounded with relative error at most `2^-53`. -/
theorem ofUnits_near (n : Nat) {d : Nat} (hd : 0 < d) (h1 : 2 ^ 53 ≤ n / d) (h2 : n / d < 2 ^ 2000) :
    2 ^ 53 * ((ofUnits false n d).units * d - n) ≤ n ∧ 2 ^ 53 * (n - (ofUnits false n d).units * d) ≤ n := by
  have hne : n / d ≠ 0 := by have : 0 < 2 ^ 53 := by decide
                             omega
  obtain ⟨hlo, hhi⟩ := (Nat.log2_eq_iff hne).mp rfl
  have hl : 53 ≤ Nat.log2 (n / d) := (Nat.le_log2 hne).mpr h1
  have hl' : Nat.log2 (n / d) < 2000 := (Nat.log2_lt hne).mpr h2
  obtain ⟨k, hk⟩ : ∃ k, Nat.log2 (n / d) = k + 52 := ⟨Nat.log2 (n / d) - 52, by omega⟩
  have hu : ofUnits false n d = assemble false (roundDiv n (d * 2 ^ k)) k := by
    unfold ofUnits
    dsimp only
    rw [if_neg (by omega), hk, Nat.add_sub_cancel]
  rw [hk] at hlo hhi
  have hd' : 0 < d * 2 ^ k := Nat.mul_pos hd (Nat.two_pow_pos _)
  have hn1 : 2 ^ 52 * (d * 2 ^ k) ≤ n := by
    have := (Nat.le_div_iff_mul_le hd).mp hlo
    rw [Nat.pow_add] at this
    calc 2 ^ 52 * (d * 2 ^ k) = 2 ^ k * 2 ^ 52 * d := by rw [Nat.mul_comm d, ← Nat.mul_assoc, Nat.mul_comm (2 ^ 52)]
      _ ≤ n := this
  have hn2 : n < 2 ^ 53 * (d * 2 ^ k) := by
    have := (Nat.div_lt_iff_lt_mul hd).mp hhi
    rw [show k + 52 + 1 = k + 53 by omega, Nat.pow_add] at this
    calc n < 2 ^ k * 2 ^ 53 * d := this
      _ = 2 ^ 53 * (d * 2 ^ k) := by rw [Nat.mul_comm d, ← Nat.mul_assoc, Nat.mul_comm (2 ^ 53)]
  have hq1 := (roundDiv_mono hd').1 hn1
  have hq2 := (roundDiv_mono hd').2 hn2
  have hunits : (ofUnits false n d).units = roundDiv n (d * 2 ^ k) * 2 ^ k := by
    rw [hu]
    generalize roundDiv n (d * 2 ^ k) = q at hq1 hq2
    unfold assemble
    rw [if_neg (by omega)]
    split
    · rename_i hq
      rw [if_pos (by omega)]
      unfold units sig shift
      have h3 : (Fin.ofNat 2048 (k + 1)).val = k + 1 := by rw [Fin.val_ofNat, Nat.mod_eq_of_lt (by omega)]
      have h4 : (Fin.ofNat (2 ^ 52) (q - 2 ^ 52)).val = q - 2 ^ 52 := by rw [Fin.val_ofNat, Nat.mod_eq_of_lt (by omega)]
      simp only [h3, h4]
      rw [if_neg (by omega), show 2 ^ 52 + (q - 2 ^ 52) = q by omega, Nat.add_sub_cancel]
    · rename_i hq
      rw [if_pos (by omega)]
      unfold units sig shift
      have h3 : (Fin.ofNat 2048 (k + 2)).val = k + 2 := by rw [Fin.val_ofNat, Nat.mod_eq_of_lt (by omega)]
      simp only [h3]
      rw [if_neg (by omega), show q = 2 ^ 53 by omega, show k + 2 - 1 = k + 1 by omega]
      show (2 ^ 52 + 0) * 2 ^ (k + 1) = 2 ^ 53 * 2 ^ k
      have hx : 2 ^ (k + 1) = 2 ^ k * 2 := Nat.pow_succ ..
      rw [hx]
      generalize 2 ^ k = x
      omega
  obtain ⟨hr1, hr2⟩ := roundDiv_near n hd'
  have he : (ofUnits false n d).units * d = roundDiv n (d * 2 ^ k) * (d * 2 ^ k) := by
    rw [hunits, Nat.mul_assoc, Nat.mul_comm (2 ^ k)]
  rw [he]
  generalize roundDiv n (d * 2 ^ k) * (d * 2 ^ k) = x at hr1 hr2 ⊢
  generalize d * 2 ^ k = y at hr1 hr2 hn1
  omega

/-- Integers below `2^53` are represented exactly. -/
theorem ofNat_units {n : Nat} (h : n < 2 ^ 53) : (ofNat n).units = n * 2 ^ 1074 := by
  by_cases h0 : n = 0
  · subst h0; decide +kernel
  have hdiv : n * 2 ^ 1074 / 1 = n * 2 ^ 1074 := Nat.div_one _
  have hpos : 0 < n := by omega
  have hne : n * 2 ^ 1074 ≠ 0 := Nat.ne_of_gt (Nat.mul_pos hpos (Nat.two_pow_pos _))
  have h1 : 2 ^ 53 ≤ n * 2 ^ 1074 := by
    calc 2 ^ 53 ≤ 2 ^ 1074 := Nat.pow_le_pow_right (by decide) (by decide)
      _ = 1 * 2 ^ 1074 := (Nat.one_mul _).symm
      _ ≤ n * 2 ^ 1074 := Nat.mul_le_mul_right _ hpos
  have hl : Nat.log2 (n * 2 ^ 1074) = Nat.log2 n + 1074 := by
    rw [Nat.log2_eq_iff hne]
    obtain ⟨a, b⟩ := (Nat.log2_eq_iff (show n ≠ 0 by omega)).mp rfl
    constructor
    · rw [Nat.pow_add]; exact Nat.mul_le_mul_right _ a
    · rw [show Nat.log2 n + 1074 + 1 = Nat.log2 n + 1 + 1074 by omega, Nat.pow_add]
      exact Nat.mul_lt_mul_of_pos_right b (Nat.two_pow_pos _)
  have hlog : Nat.log2 n < 53 := (Nat.log2_lt (by omega)).mpr h
  obtain ⟨j, hj⟩ : ∃ j, j + Nat.log2 n = 52 := ⟨52 - Nat.log2 n, by omega⟩
  have hsplit : n * 2 ^ 1074 = n * 2 ^ j * (1 * 2 ^ (Nat.log2 n + 1074 - 52)) := by
    have e : (2 : Nat) ^ 1074 = 2 ^ j * 2 ^ (Nat.log2 n + 1074 - 52) := by
      rw [← Nat.pow_add]
      exact congrArg (fun x => (2 : Nat) ^ x) (show 1074 = j + (Nat.log2 n + 1074 - 52) by omega)
    rw [Nat.one_mul, Nat.mul_assoc, ← e]
  have hu : ofNat n = assemble false (n * 2 ^ j) (Nat.log2 n + 1074 - 52) := by
    have hr : roundDiv (n * 2 ^ 1074) (1 * 2 ^ (Nat.log2 n + 1074 - 52)) = n * 2 ^ j := by
      rw [hsplit, roundDiv_exact _ (by rw [Nat.one_mul]; exact Nat.two_pow_pos _)]
    unfold ofNat ofUnits
    generalize n * 2 ^ 1074 = m at hdiv h1 hl hr
    dsimp only
    rw [hdiv, if_neg (by omega), hl, hr]
  obtain ⟨a, b⟩ := (Nat.log2_eq_iff (show n ≠ 0 by omega)).mp rfl
  have hq1 : 2 ^ 52 ≤ n * 2 ^ j := by
    rw [show 52 = Nat.log2 n + j by omega, Nat.pow_add]; exact Nat.mul_le_mul_right _ a
  have hq2 : n * 2 ^ j < 2 ^ 53 := by
    rw [show 53 = Nat.log2 n + 1 + j by omega, Nat.pow_add]; exact Nat.mul_lt_mul_of_pos_right b (Nat.two_pow_pos _)
  rw [hu, hsplit, Nat.one_mul]
  generalize n * 2 ^ j = q at hq1 hq2
  obtain ⟨k, hk⟩ : ∃ k, Nat.log2 n + 1074 - 52 = k := ⟨_, rfl⟩
  rw [hk]
  unfold assemble
  rw [if_neg (by omega), if_pos hq2, if_pos (by omega)]
  unfold units sig shift
  have h3 : (Fin.ofNat 2048 (k + 1)).val = k + 1 := by rw [Fin.val_ofNat, Nat.mod_eq_of_lt (by omega)]
  have h4 : (Fin.ofNat (2 ^ 52) (q - 2 ^ 52)).val = q - 2 ^ 52 := by rw [Fin.val_ofNat, Nat.mod_eq_of_lt (by omega)]
  simp only [h3, h4]
  rw [if_neg (by omega), show 2 ^ 52 + (q - 2 ^ 52) = q by omega, Nat.add_sub_cancel]

theorem mul_near {m x y z c : Nat} (h : m * (x * c - y * c) ≤ z * c) (hc : 0 < c) : m * (x - y) ≤ z := by
  rw [← Nat.sub_mul, ← Nat.mul_assoc] at h
  exact Nat.le_of_mul_le_mul_right h hc

/-- The tenths of a percent that are printed. -/
def savedTenths (diff json : Nat) : Nat := roundDiv ((savedPercent diff json).units * 10) (2 ^ 1074)

theorem savedPercent_near {diff json : Nat} (h0 : 0 < diff) (h1 : diff ≤ json) (h2 : json < 2 ^ 40) :
    2 * (1000 * diff - savedTenths diff json * json) ≤ json ∧ 2 * (savedTenths diff json * json - 1000 * diff) ≤ json := by
  have hpos : 0 < json := by omega
  have hud := ofNat_units (show diff < 2 ^ 53 by omega)
  have huj := ofNat_units (show json < 2 ^ 53 by omega)
  have huc := ofNat_units (show 100 < 2 ^ 53 by omega)
  have hU : 2 ^ 100 ≤ 2 ^ 1074 := Nat.pow_le_pow_right (by decide) (by decide)
  have hV : 2 ^ 1074 * 2 ^ 7 < 2 ^ 2000 := by
    rw [← Nat.pow_add]
    exact Nat.pow_lt_pow_right (by decide) (by decide)
  unfold savedTenths savedPercent
  rw [if_pos hpos]
  unfold divide times
  rw [hud, huj, huc]
  have near := @ofUnits_near
  have rnear := @roundDiv_near
  generalize (2 : Nat) ^ 1074 = U at *
  generalize (2 : Nat) ^ 2000 = V at *
  have hUpos : 0 < U := by omega
  have hdiv1 : diff * U * U / (json * U) = diff * U / json := Nat.mul_div_mul_right _ _ hUpos
  have b1 : 2 ^ 60 ≤ diff * U / json := by
    rw [Nat.le_div_iff_mul_le hpos]
    calc 2 ^ 60 * json ≤ 2 ^ 60 * 2 ^ 40 := Nat.mul_le_mul_left _ (by omega)
      _ = 2 ^ 100 := by decide
      _ ≤ U := hU
      _ = 1 * U := (Nat.one_mul _).symm
      _ ≤ diff * U := Nat.mul_le_mul_right _ h0
  have b2 : diff * U / json ≤ U := by
    apply Nat.div_le_of_le_mul
    exact Nat.mul_le_mul_right _ h1
  obtain ⟨n1, n2⟩ := near (diff * U * U) (Nat.mul_pos hpos hUpos) (by rw [hdiv1]; omega) (by rw [hdiv1]; omega)
  generalize (ofUnits false (diff * U * U) (json * U)).units = r at n1 n2 ⊢
  rw [← Nat.mul_assoc] at n1 n2
  replace n1 := mul_near n1 hUpos
  replace n2 := mul_near n2 hUpos
  have hr1 : 2 ^ 53 ≤ r * 100 * U / U := by
    rw [Nat.mul_div_cancel _ hUpos]
    have : 2 ^ 60 * json ≤ diff * U := (Nat.le_div_iff_mul_le hpos).mp b1
    by_cases hr : 2 ^ 53 ≤ r
    · omega
    · exfalso
      have h3 : r * json ≤ 2 ^ 53 * json := Nat.mul_le_mul_right _ (by omega)
      have h4 : 2 ^ 53 * json < 2 ^ 60 * json := Nat.mul_lt_mul_of_pos_right (by decide) hpos
      generalize r * json = A at *
      generalize diff * U = B at *
      omega
  have hr2 : r * 100 * U / U < V := by
    rw [Nat.mul_div_cancel _ hUpos]
    have h3 : r * json ≤ (U + U / 16) * json := by
      have h4 : diff * U ≤ json * U := Nat.mul_le_mul_right _ h1
      have h5 : json * (2 ^ 53 * (U / 16)) ≥ json * U := Nat.mul_le_mul_left _ (by omega)
      have h6 : json * (2 ^ 53 * (U / 16)) = 2 ^ 53 * (json * (U / 16)) := by
        rw [← Nat.mul_assoc, Nat.mul_comm json, Nat.mul_assoc]
      rw [Nat.add_mul, Nat.mul_comm U json, Nat.mul_comm (U / 16) json]
      generalize r * json = A at *
      generalize diff * U = B at *
      generalize json * U = C at *
      generalize json * (U / 16) = D at *
      omega
    have := Nat.le_of_mul_le_mul_right h3 hpos
    omega
  have e1 : r * (100 * U) = r * 100 * U := (Nat.mul_assoc _ _ _).symm
  rw [e1]
  obtain ⟨n3, n4⟩ := near (r * 100 * U) hUpos hr1 hr2
  generalize (ofUnits false (r * 100 * U) U).units = s at n3 n4 ⊢
  replace n3 := mul_near n3 hUpos
  replace n4 := mul_near n4 hUpos
  obtain ⟨n5, n6⟩ := rnear (s * 10) hUpos
  generalize roundDiv (s * 10) U = t at n5 n6 ⊢
  have m3 := Nat.mul_le_mul_right json n3
  have m4 := Nat.mul_le_mul_right json n4
  have m5 := Nat.mul_le_mul_right json n5
  have m6 := Nat.mul_le_mul_right json n6
  rw [Nat.mul_assoc, Nat.sub_mul] at m3 m4 m5 m6
  have hB : diff * U ≤ 2 ^ 40 * U := Nat.mul_le_mul_right _ (by omega)
  have f1 : r * 100 * json = 100 * (r * json) := by rw [Nat.mul_comm r, Nat.mul_assoc]
  have f2 : s * 10 * json = 10 * (s * json) := by rw [Nat.mul_comm s, Nat.mul_assoc]
  have f3 : t * U * json = t * json * U := by rw [Nat.mul_assoc, Nat.mul_comm U, Nat.mul_assoc]
  have f4 : U * json = json * U := Nat.mul_comm _ _
  rw [f1] at m3 m4
  rw [f2, f3, f4] at m5 m6
  have f5 : 1000 * diff * U = 1000 * (diff * U) := Nat.mul_assoc _ _ _
  have close : ∀ x y : Nat, 2 * (x * U - y * U) < json * U + U → 2 * (x - y) ≤ json := by
    intro x y h
    rw [← Nat.sub_mul, ← Nat.mul_assoc, show json * U + U = (json + 1) * U by rw [Nat.add_mul, Nat.one_mul]] at h
    have := Nat.lt_of_mul_lt_mul_right h
    omega
  constructor
  · apply close
    rw [f5]
    generalize t * json * U = X at *
    generalize json * U = E at *
    generalize s * json = C at *
    generalize r * json = A at *
    generalize diff * U = B at *
    omega
  · apply close
    rw [f5]
    generalize t * json * U = X at *
    generalize json * U = E at *
    generalize s * json = C at *
    generalize r * json = A at *
    generalize diff * U = B at *
    omega

end B64
end Toon
