import Verif.Lemmas.Float64
import Verif.Spec.JsonNum

/-! A lawful number printer for JSON over the concrete binary64 model: `Display`, with `.0` appended to
integers (as `serde_json` prints integral numbers below 1e16). -/

namespace Toon

namespace B64

/-- A number as `serde_json` prints it (simplification: never an exponent). -/
def jsonText (x : B64) : Str := if '.' ∈ x.display then x.display else x.display ++ ['.', '0']

theorem ofDecimal_tenth (neg : Bool) (D : Nat) : ofDecimal neg (D * 10) (0 - 1) = ofDecimal neg D 0 := by
  unfold ofDecimal
  by_cases h : D = 0
  · simp [h]
  · rw [if_neg (by omega), if_neg h]
    have e : (0 - 1 : Int) = .negSucc 0 := rfl
    have e' : (0 : Int) = .ofNat 0 := rfl
    rw [e, e']
    simp only [Nat.zero_add, Nat.pow_zero, Nat.pow_one, Nat.mul_one]
    rw [if_neg (by omega), if_neg (by omega), Nat.mul_right_comm]
    have := ofUnits_scale neg (D * 2 ^ 1074) 1 (m := 10) (by omega)
    rw [Nat.one_mul] at this
    exact this

theorem parseAbs_dotZero (neg : Bool) {ip : Str} (hne : ip ≠ []) (h : ∀ c ∈ ip, c.isDigit = true) :
    parseAbs neg (ip ++ ['.', '0']) = parseAbs neg ip := by
  rw [parseAbs_int neg hne h, parseAbs_frac neg hne h (fp := ['0']) (by simp) (by intro c hc; simp at hc; subst hc; decide)]
  have : digitsVal (ip ++ ['0']) = digitsVal ip * 10 := digitsVal_append_zeros ip 1
  rw [this]
  exact congrArg some (ofDecimal_tenth neg (digitsVal ip))

/-- The digits of a finite number after the sign. -/
theorem display_abs {x : B64} (hf : x.isFin = true) :
    ∃ s, display x = (if x.neg then ['-'] else []) ++ s ∧ parseAbs x.neg s = some x ∧ PlainAbs s := by
  by_cases hz : x.units = 0
  · refine ⟨['0'], ?_, ?_, ?_⟩
    · rw [display, if_neg (by rw [hf]; decide), if_pos hz]
      cases x.neg <;> rfl
    · rw [parseAbs_int x.neg (by simp) (by intro c hc; simp at hc; subst hc; decide)]
      have : digitsVal ['0'] = 0 := by decide
      rw [this]
      have hx : x = zeroB x.neg := by
        have := zero_unique (x := { x with neg := false }) hz rfl
        obtain ⟨neg, ex, mant⟩ := x
        simp only [zeroB, mk.injEq] at this ⊢
        exact ⟨trivial, this.2.1, this.2.2⟩
      simp only [ofDecimal, if_true]
      exact congrArg some hx.symm
    · exact ⟨['0'], [], rfl, by simp, by intro c hc; simp at hc; subst hc; decide, Or.inl rfl, Or.inl rfl⟩
  · exact ⟨_, display_eq hf hz, shortest_parse x hf hz⟩

theorem numGrammar_of_plain {s : Str} (h : PlainAbs s) (neg : Bool) : NumGrammar ((if neg then ['-'] else []) ++ s) := by
  obtain ⟨ip, frac, rfl, h1, h2, h3, h4⟩ := h
  refine ⟨if neg then ['-'] else [], ip, frac, [], by simp, ?_, ⟨h1, h2⟩, h3, ?_, Or.inl rfl⟩
  · cases neg <;> simp
  · rcases h4 with h4 | ⟨ds, h4, h5, h6⟩
    · exact Or.inl h4
    · exact Or.inr ⟨ds, h4, h5, h6⟩

theorem parse_signed {s : Str} (h : PlainAbs s) (neg : Bool) : parse ((if neg then ['-'] else []) ++ s) = parseAbs neg s := by
  cases neg with
  | true => exact parse_neg s
  | false => exact parse_pos h

theorem jsonText_spec {x : B64} (hf : x.isFin = true) : NumGrammar (jsonText x) ∧ parse (jsonText x) = some x := by
  obtain ⟨s, h1, h2, h3⟩ := display_abs hf
  unfold jsonText
  rw [h1]
  by_cases hd : '.' ∈ (if x.neg then ['-'] else []) ++ s
  · rw [if_pos hd]
    exact ⟨numGrammar_of_plain h3 _, by rw [parse_signed h3, h2]⟩
  · rw [if_neg hd]
    obtain ⟨ip, frac, rfl, h4, h5, h6, h7⟩ := h3
    have hfrac : frac = [] := by
      rcases h7 with h7 | ⟨ds, rfl, _⟩
      · exact h7
      · exact absurd (by simp) hd
    subst hfrac
    rw [List.append_nil] at h2 ⊢
    have hp : PlainAbs (ip ++ ['.', '0']) :=
      ⟨ip, ['.', '0'], rfl, h4, h5, h6, Or.inr ⟨['0'], rfl, by simp, by intro c hc; simp at hc; subst hc; decide⟩⟩
    rw [List.append_assoc]
    exact ⟨numGrammar_of_plain hp _, by rw [parse_signed hp, parseAbs_dotZero _ h4 h5, h2]⟩

end B64

instance : JsonNum B64 where
  text := B64.jsonText

instance : LawfulJsonNum B64 where
  text_grammar _ h := (B64.jsonText_spec h).1
  parse_text _ h := (B64.jsonText_spec h).2

end Toon
