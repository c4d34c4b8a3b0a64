import Verif.Lemmas.Shortest
import Verif.Lemmas.Percent
import Verif.Lemmas.Layout
import Verif.Lemmas.Tokens
import Verif.Model.Numbers
import Verif.Spec.Numbers

/-! # Number texts and integers -/

namespace Toon
namespace B64

theorem takeWhile_digits {a b : Str} (ha : ∀ c ∈ a, c.isDigit = true) (hb : ∀ c, b.head? = some c → c.isDigit = false) :
    (a ++ b).takeWhile Char.isDigit = a ∧ (a ++ b).dropWhile Char.isDigit = b := by
  induction a with
  | nil =>
    cases b with
    | nil => exact ⟨rfl, rfl⟩
    | cons c b =>
      have := hb c rfl
      simp [this]
  | cons x a ih =>
    have hx := ha x (by simp)
    have := ih (fun c hc => ha c (by simp [hc]))
    simp [hx, this]

theorem all_digits {ds : Str} (h : Digits ds) : (!ds.isEmpty && ds.all Char.isDigit) = true := by
  obtain ⟨h1, h2⟩ := h
  simp only [Bool.and_eq_true, Bool.not_eq_true', List.isEmpty_eq_false_iff, List.all_eq_true]
  exact ⟨h1, h2⟩

/-- The exponent part. -/
theorem parseExp_text {exp : Str} {e : Int}
    (h : (exp = [] ∧ e = 0) ∨ ∃ c sg ds, exp = c :: (sg ++ ds) ∧ (c = 'e' ∨ c = 'E') ∧ Digits ds ∧
        (((sg = [] ∨ sg = ['+']) ∧ e = digitsVal ds) ∨ (sg = ['-'] ∧ e = -digitsVal ds))) :
    parseExp exp = some e ∧ (∀ c, exp.head? = some c → c = 'e' ∨ c = 'E') := by
  rcases h with ⟨rfl, rfl⟩ | ⟨c, sg, ds, rfl, hc, hd, hsg⟩
  · exact ⟨rfl, by simp⟩
  refine ⟨?_, by intro c' h'; simp at h'; rw [← h']; exact hc⟩
  have hc' : (c == 'e' || c == 'E') = true := by rcases hc with rfl | rfl <;> rfl
  have hne : ∀ d r, ds = d :: r → d ≠ '+' ∧ d ≠ '-' := by
    rintro d r rfl
    have := hd.2 d (by simp)
    constructor <;> rintro rfl <;> simp at this
  unfold parseExp
  dsimp only
  rw [if_pos hc']
  rcases hsg with ⟨rfl | rfl, rfl⟩ | ⟨rfl, rfl⟩
  · rw [List.nil_append]
    split
    · exact absurd rfl (hne _ _ rfl).1
    · exact absurd rfl (hne _ _ rfl).2
    · rw [if_pos (all_digits hd)]
  · rw [List.cons_append, List.nil_append]
    exact if_pos (all_digits hd)
  · rw [List.cons_append, List.nil_append]
    exact if_pos (all_digits hd)

/-- A number text is read as the rounded decimal. -/
theorem parse_decimal {s : Str} {neg : Bool} {D : Nat} {p : Int} (h : DecimalText s neg D p) : parse s = some (ofDecimal neg D p) := by
  obtain ⟨int, frac, exp, fs, e, rfl, ⟨hi0, hi⟩, _, hfrac, hexp, rfl, rfl⟩ := h
  obtain ⟨he, hhead⟩ := parseExp_text hexp
  have hend : ∀ c, exp.head? = some c → c.isDigit = false := by
    intro c hc
    rcases hhead c hc with rfl | rfl <;> rfl
  have habs : parseAbs neg (int ++ (frac ++ exp)) = some (ofDecimal neg (digitsVal (int ++ fs)) (e - fs.length)) := by
    rcases hfrac with ⟨rfl, rfl⟩ | ⟨rfl, hf0, hf⟩
    · rw [List.nil_append]
      obtain ⟨h1, h2⟩ := takeWhile_digits hi hend
      unfold parseAbs
      dsimp only
      rw [h1, h2, if_neg (by simpa using hi0)]
      split
      · rcases hhead '.' rfl with h | h <;> cases h
      · rw [he, List.append_nil]
        simp
    · obtain ⟨h1, h2⟩ := takeWhile_digits (b := '.' :: fs ++ exp) hi (by intro c hc; simp at hc; subst hc; rfl)
      obtain ⟨h3, h4⟩ := takeWhile_digits hf hend
      unfold parseAbs
      dsimp only
      rw [List.cons_append] at h1 h2
      rw [List.cons_append, h1, h2, if_neg (by simpa using hi0)]
      show (if (List.takeWhile Char.isDigit (fs ++ exp)).isEmpty = true then none
        else (parseExp (List.dropWhile Char.isDigit (fs ++ exp))).map fun e =>
          ofDecimal neg (digitsVal (int ++ List.takeWhile Char.isDigit (fs ++ exp))) (e - (List.takeWhile Char.isDigit (fs ++ exp)).length)) = _
      rw [h3, h4, if_neg (by simpa using hf0), he]
      rfl
  cases neg with
  | true => exact habs
  | false =>
    have : ∀ c, (int ++ (frac ++ exp)).head? = some c → c ≠ '-' := by
      cases int with
      | nil => exact absurd rfl hi0
      | cons c int =>
        intro c' hc'
        simp at hc'
        subst hc'
        rintro rfl
        exact absurd (hi '-' (by simp)) (by decide)
    rw [if_neg (by decide), List.nil_append]
    generalize int ++ (frac ++ exp) = t at *
    unfold parse
    split
    · exact absurd rfl (this _ rfl)
    · exact habs

/-- The number texts. -/
theorem grammar_decimal (s : Str) : NumGrammar s ↔ ∃ neg D p, DecimalText s neg D p := by
  constructor
  · rintro ⟨sign, int, frac, exp, rfl, hsign, hint, hlead, hfrac, hexp⟩
    obtain ⟨fs, hfs⟩ : ∃ fs, (frac = [] ∧ fs = []) ∨ (frac = '.' :: fs ∧ Digits fs) := by
      rcases hfrac with rfl | ⟨ds, rfl, hd⟩
      · exact ⟨[], .inl ⟨rfl, rfl⟩⟩
      · exact ⟨ds, .inr ⟨rfl, hd⟩⟩
    obtain ⟨e, he⟩ : ∃ e : Int, (exp = [] ∧ e = 0) ∨ ∃ c sg ds, exp = c :: (sg ++ ds) ∧ (c = 'e' ∨ c = 'E') ∧ Digits ds ∧
        (((sg = [] ∨ sg = ['+']) ∧ e = digitsVal ds) ∨ (sg = ['-'] ∧ e = -digitsVal ds)) := by
      rcases hexp with rfl | ⟨c, sg, ds, rfl, hc, hsg, hd⟩
      · exact ⟨0, .inl ⟨rfl, rfl⟩⟩
      · rcases hsg with rfl | rfl | rfl
        · exact ⟨_, .inr ⟨c, _, ds, rfl, hc, hd, .inl ⟨.inl rfl, rfl⟩⟩⟩
        · exact ⟨_, .inr ⟨c, _, ds, rfl, hc, hd, .inl ⟨.inr rfl, rfl⟩⟩⟩
        · exact ⟨_, .inr ⟨c, _, ds, rfl, hc, hd, .inr ⟨rfl, rfl⟩⟩⟩
    rcases hsign with rfl | rfl
    · exact ⟨false, _, _, int, frac, exp, fs, e, rfl, hint, hlead, hfs, he, rfl, rfl⟩
    · exact ⟨true, _, _, int, frac, exp, fs, e, rfl, hint, hlead, hfs, he, rfl, rfl⟩
  · rintro ⟨neg, D, p, int, frac, exp, fs, e, rfl, hint, hlead, hfrac, hexp, _, _⟩
    refine ⟨if neg then ['-'] else [], int, frac, exp, rfl, by cases neg <;> simp, hint, hlead, ?_, ?_⟩
    · rcases hfrac with ⟨h, _⟩ | ⟨h, hd⟩
      · exact .inl h
      · exact .inr ⟨fs, h, hd⟩
    · rcases hexp with ⟨h, _⟩ | ⟨c, sg, ds, h, hc, hd, hsg⟩
      · exact .inl h
      · refine .inr ⟨c, sg, ds, h, hc, ?_, hd⟩
        rcases hsg with ⟨h | h, _⟩ | ⟨h, _⟩ <;> simp [h]

/-! ## Integers -/

theorem ofNat_top : (ofNat (2 ^ 53)).units = 2 ^ 53 * 2 ^ 1074 := by
  obtain ⟨x, hx⟩ : ∃ x : B64, x = ⟨false, 1076, 0⟩ := ⟨_, rfl⟩
  have hs : x.sig = 2 ^ 52 := by rw [hx]; decide +kernel
  have hk : x.shift = 1075 := by rw [hx]; rfl
  have hf : x.isFin = true := by rw [hx]; rfl
  have hn : x.neg = false := by rw [hx]
  have hu : x.units = 2 ^ 53 * 2 ^ 1074 := by
    rw [units, hs, hk, Nat.pow_succ (n := 2) (m := 1074), Nat.mul_comm (2 ^ 1074), ← Nat.mul_assoc]
  have h := ofUnits_exact x hf (m := 1) (by decide)
  rw [hn, hu, Nat.mul_one] at h
  rw [ofNat, h]
  exact hu

def withNeg (neg : Bool) (x : B64) : B64 := ⟨neg, x.ex, x.mant⟩

theorem units_withNeg (neg : Bool) (x : B64) : (withNeg neg x).units = x.units := rfl

theorem ofUnits_same (neg : Bool) {n : Nat} (x : B64) (hu : x.units = n) (hf : x.isFin = true) : (ofUnits neg n 1).units = n := by
  have h1 := ofUnits_exact (withNeg neg x) hf (m := 1) (by decide)
  rw [units_withNeg, hu, Nat.mul_one] at h1
  have h2 : (withNeg neg x).neg = neg := rfl
  rw [h2] at h1
  rw [h1, units_withNeg, hu]

/-- Integers up to `2^53` are represented exactly. -/
theorem ofUnits_int (neg : Bool) {n : Nat} (h : n ≤ 2 ^ 53) :
    (ofUnits neg (n * 2 ^ 1074) 1).units = n * 2 ^ 1074 ∧ (ofUnits neg (n * 2 ^ 1074) 1).isFin = true := by
  have hu : (ofNat n).units = n * 2 ^ 1074 := by
    by_cases h1 : n = 2 ^ 53
    · rw [h1]; exact ofNat_top
    · exact ofNat_units (by omega)
  have hlt : n * 2 ^ 1074 < overflowUnits * 1 := by
    rw [Nat.mul_one]
    unfold overflowUnits
    calc n * 2 ^ 1074 ≤ 2 ^ 53 * 2 ^ 1074 := Nat.mul_le_mul_right _ h
      _ < (2 ^ 54 - 1) * 2 ^ 1074 := Nat.mul_lt_mul_of_pos_right (by decide) (Nat.two_pow_pos _)
      _ ≤ (2 ^ 54 - 1) * 2 ^ 2044 := Nat.mul_le_mul_left _ (Nat.pow_le_pow_right (by decide) (by decide))
  have hfin : ∀ neg, (ofUnits neg (n * 2 ^ 1074) 1).isFin = true := fun neg => (ofUnits_fin neg _ (by decide)).mpr hlt
  refine ⟨?_, hfin neg⟩
  have hf0 : (ofNat n).isFin = true := by rw [ofNat]; exact hfin false
  exact ofUnits_same neg (ofNat n) hu hf0

theorem decNum_nat (D k : Nat) : decNum D (k : Int) = D * 10 ^ k * 2 ^ 1074 := rfl

theorem decNum_zero (D : Nat) : decNum D ((0 : Nat) : Int) = D * 2 ^ 1074 := by
  rw [decNum_nat, Nat.pow_zero, Nat.mul_one D]

theorem decDen_nat (k : Nat) : decDen (k : Int) = 1 := by
  unfold decDen
  rw [show (-(k : Int)).toNat = 0 by omega, Nat.pow_zero]

/-- The shortest decimal of an integer below `2^53` is that integer. -/
theorem shortest_int {x : B64} (hf : x.isFin = true) {n : Nat} (h0 : 0 < n) (hn : n < 2 ^ 53) (hu : x.units = n * 2 ^ 1074) :
    ∃ k : Nat, x.shortest.2 = k ∧ x.shortest.1 * 10 ^ k = n := by
  have hz : x.units ≠ 0 := by
    rw [hu]
    exact Nat.ne_of_gt (Nat.mul_pos h0 (Nat.two_pow_pos _))
  have hself : ofUnits x.neg (n * 2 ^ 1074) 1 = x := by
    have := ofUnits_exact x hf (m := 1) (by decide)
    rw [hu, Nat.mul_one (n * 2 ^ 1074)] at this
    exact this
  have hread : ofDecimal x.neg n ((0 : Nat) : Int) = x := by
    rw [ofDecimal_eq, decNum_zero, decDen_nat]
    exact hself
  obtain ⟨hl0, hl1, hl2⟩ := natDigits_bounds h0
  obtain ⟨hL, _, hlt⟩ := log10_spec (Nat.pos_of_ne_zero hz)
  generalize hl : (natDigits n).length = l at *
  have hl17 : l ≤ 16 := by
    refine Decidable.byContradiction fun h => ?_
    have : 10 ^ 16 ≤ 10 ^ (l - 1) := Nat.pow_le_pow_right (by decide) (by omega)
    omega
  have hLl : (l : Int) - 1 ≤ log10 x.units := by
    refine Decidable.byContradiction fun h => ?_
    have h1 : decNum 1 (log10 x.units + 1) * decDen ((0 : Nat) : Int) ≤ decNum n ((0 : Nat) : Int) * decDen (log10 x.units + 1) := by
      refine dec_le 400 (by omega) (by omega) ?_
      have e : (((0 : Nat) : Int) + (400 : Nat)).toNat = 400 := rfl
      rw [Nat.one_mul, e]
      generalize log10 x.units = L at *
      clear hu hself hread hlt
      generalize (400 : Nat) = K at *
      calc 10 ^ (L + 1 + (K : Nat)).toNat ≤ 10 ^ (l - 1 + K) := Nat.pow_le_pow_right (by decide) (by omega)
        _ = 10 ^ (l - 1) * 10 ^ K := Nat.pow_add _ _ _
        _ ≤ n * 10 ^ K := Nat.mul_le_mul hl1 (Nat.le_refl _)
    rw [decNum_zero, decDen_nat, Nat.mul_one (decNum 1 _), ← hu] at h1
    exact absurd hlt (Nat.not_lt_of_le h1)
  obtain ⟨M, hM⟩ := digits_found hf hz hl2 hread
  obtain ⟨i, rfl⟩ : ∃ i, l = 1 + i := ⟨l - 1, by omega⟩
  obtain ⟨j, hj, D', h2, h3⟩ := search_found x 17 1 i M (by omega) hM
  have hnn : 0 ≤ lastPlace x.units (1 + j) := by
    unfold lastPlace
    generalize log10 x.units = L at *
    clear hu hself hread hlt
    omega
  obtain ⟨e, he⟩ : ∃ e : Nat, lastPlace x.units (1 + j) = e := ⟨_, (Int.toNat_of_nonneg hnn).symm⟩
  rw [he] at h2 h3
  have hback := pick_spec h2
  rw [ofDecimal_eq, decNum_nat, decDen_nat] at hback
  have hval : D' * 10 ^ e = n := by
    have hpos : (0 : Nat) < 2 ^ 1074 := Nat.two_pow_pos _
    by_cases hle : D' * 10 ^ e ≤ 2 ^ 53
    · have := (ofUnits_int x.neg hle).1
      rw [hback, hu] at this
      exact (Nat.eq_of_mul_eq_mul_right hpos this).symm
    · exfalso
      have h4 : 2 ^ 53 * 2 ^ 1074 * 1 ≤ D' * 10 ^ e * 2 ^ 1074 * 1 := by
        exact Nat.mul_le_mul_right _ (Nat.mul_le_mul_right _ (by omega))
      have h5 := (ofUnits_mono x.neg (by decide) (by decide) h4 (by rw [hback]; exact hf)).2
      rw [hback, hu, (ofUnits_int x.neg (Nat.le_refl _)).1] at h5
      have := Nat.le_of_mul_le_mul_right h5 hpos
      omega
  have h4 : x.shortest = dropZero (search x 17 1) := rfl
  rw [h4, h3]
  unfold dropZero
  split
  · rename_i h5
    have h5' : D' % 10 = 0 := h5
    refine ⟨e + 1, rfl, ?_⟩
    show D' / 10 * 10 ^ (e + 1) = n
    rw [Nat.pow_succ, Nat.mul_comm (10 ^ e), ← Nat.mul_assoc, Nat.div_mul_cancel (Nat.dvd_of_mod_eq_zero h5'), hval]
  · exact ⟨e, rfl, hval⟩

theorem natDigits_tens {D : Nat} (hD : 0 < D) (k : Nat) : natDigits D ++ List.replicate k '0' = natDigits (D * 10 ^ k) := by
  have key : ∀ m, 0 < m → natDigits (m * 10) = natDigits m ++ ['0'] := by
    intro m hm
    unfold natDigits
    rw [natDigitsAux_toDigits _ _ (by omega), natDigitsAux_toDigits _ _ (by omega), Nat.toDigits_of_base_le (by decide) (by omega),
      Nat.mul_div_cancel _ (by decide), Nat.mul_mod_left]
    rfl
  induction k with
  | zero => simp
  | succ k ih =>
    rw [List.replicate_succ', ← List.append_assoc, ih, Nat.pow_succ, ← Nat.mul_assoc, key]
    exact Nat.mul_pos hD (Nat.pow_pos (by decide))

theorem ofInt_spec {z : Int} (h : z.natAbs ≤ 2 ^ 53) :
    (ofInt z).units = z.natAbs * 2 ^ 1074 ∧ (ofInt z).isFin = true ∧ (ofInt z).neg = decide (z < 0) :=
  ⟨(ofUnits_int _ h).1, (ofUnits_int _ h).2, ofUnits_neg _ _ (by decide)⟩

theorem fmt_int {x : B64} (hf : x.isFin = true) {n : Nat} (h0 : 0 < n) (hn : n < 2 ^ 53) (hu : x.units = n * 2 ^ 1074) :
    fmt x.shortest.1 x.shortest.2 = natDigits n := by
  obtain ⟨k, h1, h2⟩ := shortest_int hf h0 hn hu
  rw [h1]
  have hD : 0 < x.shortest.1 := by
    rcases Nat.eq_zero_or_pos x.shortest.1 with h | h
    · rw [h, Nat.zero_mul] at h2; omega
    · exact h
  show natDigits x.shortest.1 ++ List.replicate k '0' = _
  rw [natDigits_tens hD, h2]

theorem intToString (z : Int) : (toString z).toList = (if z < 0 then ['-'] else []) ++ natDigits z.natAbs := by
  rw [natDigits_toString]
  cases z with
  | ofNat n =>
    have : ¬ (Int.ofNat n < 0) := by simp
    rw [if_neg this]
    rfl
  | negSucc n =>
    rw [if_pos (by omega)]
    show (("-" : String) ++ toString (n + 1)).toList = _
    rw [String.toList_append]
    rfl

/-- Integers up to `2^53` are written in decimal. -/
theorem display_int {z : Int} (h : z.natAbs ≤ 2 ^ 53) : display (ofInt z) = (toString z).toList := by
  by_cases hbig : z.natAbs = 2 ^ 53
  · have : z = 2 ^ 53 ∨ z = -(2 ^ 53) := by omega
    rcases this with rfl | rfl <;> decide +kernel
  by_cases h0 : z = 0
  · subst h0; decide +kernel
  obtain ⟨hu, hf, hneg⟩ := ofInt_spec h
  have hz : (ofInt z).units ≠ 0 := by
    rw [hu]
    exact Nat.ne_of_gt (Nat.mul_pos (by omega) (Nat.two_pow_pos _))
  rw [display_eq hf hz, fmt_int hf (by omega) (by omega) hu, hneg, intToString]
  by_cases hneg : z < 0 <;> simp [hneg]

theorem ofInt_inj {z w : Int} (hz : z.natAbs ≤ 2 ^ 53) (hw : w.natAbs ≤ 2 ^ 53) (h : ofInt z = ofInt w) : z = w := by
  obtain ⟨hu, _, hneg⟩ := ofInt_spec hz
  obtain ⟨hu', _, hneg'⟩ := ofInt_spec hw
  rw [h] at hu hneg
  rw [hu] at hu'
  have := Nat.eq_of_mul_eq_mul_right (Nat.two_pow_pos 1074) hu'
  rw [hneg] at hneg'
  simp only [decide_eq_decide] at hneg'
  omega

end B64
end Toon
