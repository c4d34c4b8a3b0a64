import Verif.Lemmas.Integers
import Verif.Props.Tokens
import Verif.Props.Grammar
import Verif.Props.Options
import Verif.Props.Reindent
import Verif.Lemmas.Dec

/-!
# C67, C68: numbers

On the concrete model of IEEE binary64.  `Rounded`, `DecimalText` and `ShortestDecimal` are in `Verif/Spec/Numbers.lean`.
-/

namespace Toon
open B64

/-! ## Reading -/

/-- C67.  The specification determines the result: a quotient is rounded to exactly one number. -/
theorem C67_rounded_unique (neg : Bool) (D : Nat) (p : Int) : ∃ x, RoundedDecimal neg D p x ∧ ∀ y, RoundedDecimal neg D p y → y = x :=
  ⟨ofDecimal neg D p, ofDecimal_rounded neg D p, fun y h => ((roundedDecimal_iff neg D p y).mp h).symm⟩

/-- C67.  A token is read as a number exactly when it is the text of a decimal that is rounded to a finite number; the
result is this number, with negative zero replaced by zero. -/
theorem C67_read (t : Str) (x : B64) :
    parsePrimitiveToken t = .ok (.num x) ↔
      ∃ neg D p y, DecimalText (trim t) neg D p ∧ RoundedDecimal neg D p y ∧ y.isFin = true ∧
        x = if y.units = 0 then zeroB false else y := by
  rw [C21_number_token, grammar_decimal]
  have key : ∀ y : B64, y.isFin = true →
      (if F64.isZero y && F64.isNeg y then (F64.zero : B64) else y) = if y.units = 0 then zeroB false else y := by
    intro y hy
    show (if (y.isFin && y.units == 0) && y.neg then zeroB false else y) = _
    rw [hy]
    by_cases hz : y.units = 0
    · cases hn : y.neg with
      | true => simp [hz]
      | false => simp [hz]; exact zero_unique hz hn
    · simp [hz]
  constructor
  · rintro ⟨⟨neg, D, p, hd⟩, y, hp, hf, rfl⟩
    have : parse (trim t) = some y := hp
    rw [parse_decimal hd] at this
    cases this
    exact ⟨neg, D, p, _, hd, ofDecimal_rounded neg D p, hf, key _ hf⟩
  · rintro ⟨neg, D, p, y, hd, hr, hf, rfl⟩
    rw [roundedDecimal_iff] at hr
    refine ⟨⟨neg, D, p, hd⟩, y, ?_, hf, (key y hf).symm⟩
    show parse (trim t) = some y
    rw [parse_decimal hd, hr]

/-- C67.  A document that consists of the text of a decimal, with any options: the rounded number (negative zero becomes
zero), or the text itself as a string if the decimal is beyond the range of finite numbers. -/
theorem C67_document (opts : DecOpts) (s : Str) (neg : Bool) (D : Nat) (p : Int) (x : B64) (hd : DecimalText s neg D p)
    (hx : RoundedDecimal neg D p x) :
    decode opts s = .ok (.prim (if x.isFin then .num (if x.units = 0 then zeroB false else x) else .str s)) := by
  have hg : NumGrammar s := (grammar_decimal s).mpr ⟨neg, D, p, hd⟩
  have htrim : trim s = s := trim_eq_self (grammar_edge hg)
  have hnot : ∀ c, c.isDigit = false → c ∉ ['-', '+', '.', 'e', 'E'] → c ∉ s := by
    intro c h1 h2 h3
    rcases grammar_chars hg h3 with h | h
    · rw [h1] at h; cases h
    · exact h2 h
  have htok : TokenMeans s (if x.isFin then Prim.num (if x.units = 0 then zeroB false else x) else .str s) := by
    rw [roundedDecimal_iff] at hx
    by_cases hf : x.isFin = true
    · rw [if_pos hf]
      have h1 := (C67_read s _).mpr ⟨neg, D, p, x, by rw [htrim]; exact hd, (roundedDecimal_iff _ _ _ _).mpr hx, hf, rfl⟩
      obtain ⟨_, y, h2, h3, h4⟩ := (C21_number_token s _).mp h1
      rw [htrim] at h2
      rw [h4]
      exact .number hg h2 h3
    · rw [if_neg hf]
      have hq : s.head? ≠ some '"' := fun h => (grammar_notWs hg (List.mem_of_mem_head? h)).2 rfl
      have hlit : ∀ w : Str, ('t' ∈ w ∨ 'f' ∈ w ∨ 'n' ∈ w) → s ≠ w := by
        rintro w h rfl
        rcases h with h | h | h
        · exact hnot 't' (by decide) (by decide) h
        · exact hnot 'f' (by decide) (by decide) h
        · exact hnot 'n' (by decide) (by decide) h
      refine .bare (grammar_ne_nil hg) hq (hlit _ (by decide)) (hlit _ (by decide)) (hlit _ (by decide)) ?_
      intro _ y hy
      have hy' : parse s = some y := hy
      rw [parse_decimal hd, hx] at hy'
      cases hy'
      show x.isFin = false
      simpa using hf
  have hhead : ∀ c, s.head? = some c → isWs c = false := fun c h => (grammar_notWs hg (List.mem_of_mem_head? h)).1
  have hscan : ScansTo opts.indent opts.strict 0 [s] [⟨0 / opts.indent, s, 0 + 1⟩] [] := by
    refine .line (spaces := 0) ?_ ?_ ?_ (.nil _)
    · intro hb
      obtain ⟨c, hc⟩ : ∃ c, c ∈ s := List.exists_mem_of_ne_nil _ (grammar_ne_nil hg)
      exact absurd (hb c hc) (by rw [(grammar_notWs hg hc).1]; decide)
    · intro h; exact absurd (hhead _ h) (by decide)
    · intro _; exact ⟨fun h => absurd (hhead _ h) (by decide), Nat.zero_mod _⟩
  have hev : decodeStream opts.indent opts.strict (splitOn '\n' s) =
      .ok [.prim (if x.isFin then Prim.num (if x.units = 0 then zeroB false else x) else .str s)] := by
    rw [splitOn_of_not_mem (hnot '\n' (by decide) (by decide))]
    exact (C58_events _ _ _ _).mpr ⟨.prim _, ⟨_, _, _, hscan, .prim (.inr (hnot ':' (by decide) (by decide))) (by rw [htrim]; exact htok)⟩, rfl⟩
  rw [decode, decodeFromLines, hev]
  cases opts.expand <;> rfl

/-! ## Writing -/

theorem encode_number (opts : EncOpts) {x : B64} (hf : x.isFin = true) (hz : x.units ≠ 0) :
    encode opts (.prim (.num x)) = display x := by
  have h1 : F64.isFinite x = true := hf
  have h2 : F64.isZero x = false := by
    show (x.isFin && x.units == 0) = false
    simp [hz]
  have h3 : F64.display x = display x := rfl
  have h4 : (display x).isEmpty = false := by
    obtain ⟨sign, ip, frac, h, _, hne, _⟩ := display_plain hf hz
    rw [h]
    simp [hne]
  simp [encode, encodeLines, normalize, normPrim, h1, h2, encodeJsonValue, encodeValue, encodePrimitive, formatNumber, h3]
  have h5 : ¬ display x = [] := by simpa using h4
  rw [if_neg h5]
  simp [renderLine, joinWith]

/-- C67.  A finite number other than zero is written as the shortest decimal that is rounded to it: without exponent, with
at most 17 significant digits, the last of them not zero. -/
theorem C67_write (opts : EncOpts) (x : B64) (hf : x.isFin = true) (hz : x.units ≠ 0) :
    ∃ D p, ShortestDecimal x D p ∧ D < 10 ^ 17 ∧ D % 10 ≠ 0 ∧
      DecimalText (encode opts (.prim (.num x))) x.neg (D * 10 ^ p.toNat) (min p 0) ∧
      'e' ∉ encode opts (.prim (.num x)) ∧ 'E' ∉ encode opts (.prim (.num x)) := by
  have henc : encode opts (.prim (.num x)) = (if x.neg then ['-'] else []) ++ fmt x.shortest.1 x.shortest.2 := by
    rw [encode_number opts hf hz, display_eq hf hz]
  have hs := shortest_spec x hf hz
  have hlast := shortest_last hf hz
  refine ⟨x.shortest.1, x.shortest.2, ⟨(roundedDecimal_iff _ _ _ _).mpr hs, ?_⟩, shortest_lt hf hz, hlast, ?_⟩
  · intro D' p' h
    rw [roundedDecimal_iff] at h
    refine ⟨fun m hm => shortest_min hf hz h hm, fun hm => ?_⟩
    exact shortest_near hf hz h hm
  · rw [henc]
    generalize x.shortest.1 = D at *
    generalize x.shortest.2 = p at *
    have hD : D ≠ 0 := by rintro rfl; exact hlast rfl
    have hplain := plain_sign (fmt_plain hD p) x.neg
    have hnot : ∀ c : Char, c = 'e' ∨ c = 'E' → c ∉ (if x.neg = true then ['-'] else []) ++ fmt D p := by
      intro c hc hm
      obtain ⟨sign, ip, frac, h, h1, _, h2, _, h3⟩ := hplain
      have hd : c.isDigit = false ∧ c ≠ '-' ∧ c ≠ '.' := by rcases hc with rfl | rfl <;> decide
      rw [h] at hm
      simp only [List.mem_append] at hm
      rcases hm with (hm | hm) | hm
      · rcases h1 with rfl | rfl
        · cases hm
        · simp at hm; exact hd.2.1 hm
      · rw [h2 c hm] at hd; cases hd.1
      · rcases h3 with rfl | ⟨ds, rfl, _, h3⟩
        · cases hm
        · simp only [List.mem_cons] at hm
          rcases hm with hm | hm
          · exact hd.2.2 hm
          · rw [h3 c hm] at hd; cases hd.1
    refine ⟨?_, hnot 'e' (.inl rfl), hnot 'E' (.inr rfl)⟩
    cases p with
    | ofNat p =>
      have hfmt : fmt D (.ofNat p) = natDigits (D * 10 ^ p) := natDigits_tens (Nat.pos_of_ne_zero hD) p
      have hpos : 0 < D * 10 ^ p := Nat.mul_pos (Nat.pos_of_ne_zero hD) (Nat.pow_pos (by decide))
      refine ⟨fmt D (.ofNat p), [], [], [], 0, by simp, ⟨?_, ?_⟩, .inr ?_, .inl ⟨rfl, rfl⟩, .inl ⟨rfl, rfl⟩, ?_, ?_⟩
      · rw [hfmt]; exact natDigits_ne_nil _
      · rw [hfmt]; exact fun c hc => natDigits_mem hc
      · rw [hfmt]
        obtain ⟨d, hd, hd0, hd1⟩ := natDigits_head hpos
        rw [hd]
        intro h
        simp only [Option.some.injEq] at h
        have h3 := digitChar_toNat hd1
        rw [h] at h3
        have : ('0' : Char).toNat = 48 := by decide
        omega
      · rw [hfmt, List.append_nil, digitsVal_natDigits]; rfl
      · simp; omega
    | negSucc p =>
      obtain ⟨ip, fp, h, h1, h2, h3, h4, h5, h6⟩ := fmt_negSucc D p
      refine ⟨ip, '.' :: fp, [], fp, 0, by rw [h]; simp, ⟨h1, h2⟩, h6 hD, .inr ⟨rfl, ?_, h4⟩, .inl ⟨rfl, rfl⟩, ?_, ?_⟩
      · intro h; rw [h] at h3; cases h3
      · rw [h5]; simp
      · rw [h3]; omega

/-- C67.  Zero, of either sign, is written `0`. -/
theorem C67_zero (opts : EncOpts) (x : B64) (hf : x.isFin = true) (hz : x.units = 0) : encode opts (.prim (.num x)) = ['0'] := by
  have h1 : F64.isFinite x = true := hf
  have h2 : F64.isZero x = true := by
    show (x.isFin && x.units == 0) = true
    simp [hz, hf]
  have h3 : F64.isZero (F64.zero : B64) = true := by decide +kernel
  simp [encode, encodeLines, normalize, normPrim, h1, h2, encodeJsonValue, encodeValue, encodePrimitive, formatNumber, h3, renderLine, joinWith]

/-! ## Integers -/

/-- C67.  An integer is converted to the nearest number. -/
theorem C67_from_integer (z : Int) (x : B64) : fromInt z = .prim (.num x) ↔ Rounded (z < 0) (z.natAbs * 2 ^ 1074) 1 x := by
  have h := ofUnits_rounded (z < 0) (z.natAbs * 2 ^ 1074) (d := 1) (by decide)
  constructor
  · intro h'
    have : ofInt z = x := by injection h' with h'; injection h'
    rw [← this]
    exact h
  · intro h'
    rw [fromInt, show ofInt z = x from rounded_unique (by decide) h h']

/-- C67.  Every integer up to `2^53` is kept exactly: it is written in decimal digits, the digits are read back as the same
number, and different integers are different numbers. -/
theorem C67_integers (z : Int) (h : z.natAbs ≤ 2 ^ 53) :
    (∀ opts, encode opts (fromInt z) = (toString z).toList) ∧
    (∀ opts, decode opts (toString z).toList = .ok (fromInt z)) ∧
    (∀ w : Int, w.natAbs ≤ 2 ^ 53 → fromInt w = fromInt z → w = z) := by
  obtain ⟨hu, hf, hneg⟩ := ofInt_spec h
  refine ⟨fun opts => ?_, fun opts => ?_, fun w hw he => ?_⟩
  · rw [fromInt]
    by_cases h0 : z = 0
    · subst h0
      exact C67_zero opts _ hf (by rw [hu]; simp)
    · rw [encode_number opts hf, display_int h]
      rw [hu]
      exact Nat.ne_of_gt (Nat.mul_pos (by omega) (Nat.two_pow_pos _))
  · have hd : DecimalText (toString z).toList (decide (z < 0)) z.natAbs 0 := by
      refine ⟨natDigits z.natAbs, [], [], [], 0, ?_, ⟨natDigits_ne_nil _, fun c hc => natDigits_mem hc⟩, ?_, .inl ⟨rfl, rfl⟩,
        .inl ⟨rfl, rfl⟩, ?_, rfl⟩
      · rw [intToString]
        by_cases hz : z < 0 <;> simp [hz]
      · by_cases h0 : z = 0
        · subst h0; exact .inl (by decide)
        · right
          obtain ⟨d, hd, hd0, hd1⟩ := natDigits_head (n := z.natAbs) (by omega)
          rw [hd]
          intro h
          simp only [Option.some.injEq] at h
          have h3 := digitChar_toNat hd1
          rw [h] at h3
          have : ('0' : Char).toNat = 48 := by decide
          omega
      · rw [List.append_nil, digitsVal_natDigits]
    have hr : RoundedDecimal (decide (z < 0)) z.natAbs 0 (ofInt z) := by
      rw [roundedDecimal_iff, show (0 : Int) = ((0 : Nat) : Int) from rfl, ofDecimal_eq, decNum_zero, decDen_nat]
      rfl
    rw [C67_document opts _ _ _ _ _ hd hr, if_pos hf]
    by_cases h0 : z = 0
    · subst h0
      rw [if_pos (by rw [hu]; simp)]
      rw [fromInt, zero_unique (x := ofInt 0) (by rw [hu]; simp) (by rw [hneg]; rfl)]
    · rw [if_neg]
      · rfl
      · rw [hu]
        exact Nat.ne_of_gt (Nat.mul_pos (by omega) (Nat.two_pow_pos _))
  · have : ofInt w = ofInt z := by injection he with he; injection he
    exact ofInt_inj hw h this

/-- **C67 (beyond `2^53`).**  The bound is sharp: `2^53` and `2^53 + 1` become the same number, also when read from TOON
text; the largest `i64` is written with another value. -/
theorem C67_integers_sharp :
    fromInt (2 ^ 53 + 1) = fromInt (2 ^ 53) ∧
    (∀ opts, encode opts (fromInt (2 ^ 53 + 1)) = "9007199254740992".toList) ∧
    (∀ opts, decode opts "9007199254740993".toList = .ok (fromInt (2 ^ 53))) ∧
    (∀ opts, encode opts (fromInt (2 ^ 63 - 1)) = "9223372036854776000".toList) := by
  have h1 : fromInt (2 ^ 53 + 1) = fromInt (2 ^ 53) := by
    rw [fromInt, fromInt, show ofInt (2 ^ 53 + 1) = ofInt (2 ^ 53) by decide +kernel]
  refine ⟨h1, fun opts => ?_, fun opts => ?_, fun opts => ?_⟩
  · rw [h1, (C67_integers _ (by decide)).1]
    decide +kernel
  · have hd : DecimalText "9007199254740993".toList false 9007199254740993 0 :=
      ⟨"9007199254740993".toList, [], [], [], 0, rfl, ⟨by decide, by decide⟩, .inr (by decide), .inl ⟨rfl, rfl⟩, .inl ⟨rfl, rfl⟩,
        by decide +kernel, rfl⟩
    have hr : RoundedDecimal false 9007199254740993 0 (ofInt (2 ^ 53)) := by
      rw [roundedDecimal_iff]
      decide +kernel
    obtain ⟨hu, hf, _⟩ := ofInt_spec (z := 2 ^ 53) (by decide)
    rw [C67_document opts _ _ _ _ _ hd hr, if_pos hf, if_neg]
    · rfl
    · rw [hu]
      exact Nat.ne_of_gt (Nat.mul_pos (by decide) (Nat.two_pow_pos _))
  · have hf : (ofInt (2 ^ 63 - 1)).isFin = true := by decide +kernel
    have hz : (ofInt (2 ^ 63 - 1)).units ≠ 0 := by decide +kernel
    rw [fromInt, encode_number opts hf hz]
    decide +kernel

/-! ## Numbers in JavaScript options -/

/-- The number is NaN, negative or below one. -/
def BelowOne (x : B64) : Prop := (x.isFin = false ∧ x.mant.val ≠ 0) ∨ x.neg = true ∨ (x.isFin = true ∧ x.units < 2 ^ 1074)

/-- C68.  NaN, negative numbers and numbers below one count as 0. -/
theorem C68_below_one (width : Nat) (hw : 0 < width) (x : B64) : BelowOne x ↔ toUsize width x = 0 := by
  have hbig : 2 ^ 1 ≤ 2 ^ width := Nat.pow_le_pow_right (by decide) hw
  have hc : (0 : Nat) < 2 ^ 1074 := Nat.two_pow_pos _
  unfold BelowOne toUsize
  cases hn : x.neg with
  | true => simp
  | false =>
    cases hf : x.isFin with
    | true =>
      rw [if_neg (by decide), if_pos rfl]
      have h1 := @Nat.div_eq_zero_iff x.units (2 ^ 1074)
      generalize 2 ^ 1074 = c at *
      constructor
      · rintro (h | h | ⟨_, h⟩)
        · cases h.1
        · cases h
        · have := h1.mpr (.inr h); omega
      · intro h
        have : x.units / c = 0 := by omega
        rcases h1.mp this with h | h
        · omega
        · exact .inr (.inr ⟨rfl, h⟩)
    | false =>
      rw [if_neg (by decide), if_neg (by decide)]
      by_cases hm : x.mant.val = 0
      · rw [if_pos hm]
        simp [hm]
        omega
      · rw [if_neg hm]
        simp [hm]

/-- C68.  Other finite numbers lose their fraction; beyond the largest `usize` they count as this. -/
theorem C68_truncated (width : Nat) (x : B64) (hn : x.neg = false) (hf : x.isFin = true) (n : Nat) :
    toUsize width x = n ↔
      (n < 2 ^ width - 1 ∧ n * 2 ^ 1074 ≤ x.units ∧ x.units < (n + 1) * 2 ^ 1074) ∨ (n = 2 ^ width - 1 ∧ n * 2 ^ 1074 ≤ x.units) := by
  have hc : (0 : Nat) < 2 ^ 1074 := Nat.two_pow_pos _
  have h1 : ∀ m, m ≤ x.units / 2 ^ 1074 ↔ m * 2 ^ 1074 ≤ x.units := fun m => Nat.le_div_iff_mul_le hc
  unfold toUsize
  rw [hn, hf, if_neg (by decide), if_pos rfl, ← h1 n]
  have h2 := h1 (n + 1)
  generalize x.units / 2 ^ 1074 = q at *
  generalize (n + 1) * 2 ^ 1074 = b at *
  omega

/-- C68.  Integers keep their value. -/
theorem C68_integer (width n : Nat) (h : n ≤ 2 ^ 53) (hw : n < 2 ^ width) : toUsize width (ofInt n) = n := by
  obtain ⟨hu, hf, hneg⟩ := ofInt_spec (z := (n : Int)) (by omega)
  have hu' : (ofInt n).units = n * 2 ^ 1074 := hu
  have hn : (ofInt n).neg = false := by rw [hneg]; simp
  rw [C68_truncated width _ hn hf, hu']
  have hc : (0 : Nat) < 2 ^ 1074 := Nat.two_pow_pos _
  rw [Nat.add_mul, Nat.one_mul]
  generalize n * 2 ^ 1074 = a at *
  generalize 2 ^ 1074 = c at *
  omega

section
variable [JsonNum B64]

/-- C68.  Options given as integers below `2^32`, in WebAssembly, have the effect of the Rust options. -/
theorem C68_js_integers (rd : Str → Option B64) (json toon : Str) (get : Str → JsValue B64) (i d : Nat) (c : Char) (s : Str)
    (fold expand strict : Bool) (hi : get "indent".toList = .num (ofInt i)) (hi' : i < 2 ^ 32)
    (hf : get "flattenDepth".toList = .num (ofInt d)) (hf' : d < 2 ^ 32)
    (hd : get "delimiter".toList = .str (c :: s))
    (hk : get "keyFolding".toList = .str (if fold then "safe".toList else "off".toList))
    (hs : get "strict".toList = .bool strict)
    (he : get "expandPaths".toList = .str (if expand then "safe".toList else "off".toList)) :
    encodeWithOptions rd (toUsize 32) json (.object get) =
      (hostFromStr rd json).map (fun v => encode ⟨i, c, fold, d⟩ (fromHost v)) ∧
    decodeWithOptions (toUsize 32) toon (.object get) =
      (decode ⟨i, strict, expand⟩ toon).map (fun v : Json B64 => serdeWrite false 0 (toHost v)) := by
  have h := C55_js_given rd (toUsize 32) json toon get _ _ c s fold expand strict hi hd hk hf hs he
  rw [C68_integer 32 i (by omega) hi', C68_integer 32 d (by omega) hf'] at h
  exact h

/-- **C68 (writing with an indent below one).**  With an `indent` that is NaN, negative or below one, the text written for a
value with nesting cannot be read back to this value, whatever the options of the reader. -/
theorem C68_js_indent_written (rd : Str → Option B64) (width : Nat) (hw : 0 < width) (json toon : Str) (get : Str → JsValue B64) (x : B64) (hx : BelowOne x)
    (hi : get "indent".toList = .num x) (hk : get "keyFolding".toList ≠ .str "safe".toList)
    (hd : ∀ c s, get "delimiter".toList = .str (c :: s) → GoodDelim c)
    (h : encodeWithOptions rd (toUsize width) json (.object get) = .ok toon) :
    ∃ value, hostFromStr rd json = .ok value ∧
      ∀ (j : Nat) (strict : Bool), Writable true (fromHost value) → DistinctKeys (fromHost value) →
        ((∃ w, decode ⟨j, strict, false⟩ toon = .ok w ∧ w ≃ normalize (fromHost value)) ↔ Shallow (fromHost value)) := by
  unfold encodeWithOptions parseEncodeOptions at h
  cases hv : hostFromStr rd json with
  | error e => rw [hv] at h; cases h
  | ok value =>
    rw [hv] at h
    refine ⟨value, rfl, fun j strict hwr hdk => ?_⟩
    dsimp only at h
    rw [hi] at h
    simp only [JsValue.asF64, Option.map_some, (C68_below_one width hw x).mp hx] at h
    injection h with h
    rw [← h, encodeWith]
    apply C65_zero_written _ j strict (fromHost value) _ _ _ hwr hdk
    · rfl
    · show GoodDelim (Option.getD _ ',')
      cases hdl : get "delimiter".toList with
      | str t =>
        cases t with
        | nil => exact (by decide : GoodDelim ',')
        | cons c s => exact hd c s hdl
      | _ => exact (by decide : GoodDelim ',')
    · show Option.getD _ false = false
      cases hkf : get "keyFolding".toList with
      | str t =>
        show (parseMode t).getD false = false
        unfold parseMode
        split
        · rfl
        · split
          · rename_i h1; rw [hkf, h1] at hk; exact absurd rfl hk
          · rfl
      | _ => rfl

/-- **C68 (reading with an indent below one).**  What is read has no nesting. -/
theorem C68_js_indent_read (width : Nat) (hw : 0 < width) (toon json : Str) (get : Str → JsValue B64) (x : B64) (hx : BelowOne x)
    (hi : get "indent".toList = .num x) (he : get "expandPaths".toList ≠ .str "safe".toList)
    (h : decodeWithOptions (toUsize width) toon (.object get) = .ok json) :
    ∃ v : Json B64, Shallow v ∧ json = serdeWrite false 0 (toHost v) := by
  unfold decodeWithOptions parseDecodeOptions at h
  dsimp only at h
  rw [hi] at h
  simp only [JsValue.asF64, Option.map_some, (C68_below_one width hw x).mp hx] at h
  have hx : ((get "expandPaths".toList).asString.bind parseMode).getD false = false := by
    cases hkf : get "expandPaths".toList with
    | str t =>
      show (parseMode t).getD false = false
      unfold parseMode
      split
      · rfl
      · split
        · rename_i h1; rw [hkf, h1] at he; exact absurd rfl he
        · rfl
    | _ => rfl
  unfold tryDecode resolveDecodeOptions at h
  cases hd : decode (F := B64) ⟨0, (get "strict".toList).asBool.getD true, false⟩ toon with
  | error e =>
    simp only [Option.getD_some, hx, hd] at h
    cases h
  | ok v =>
    simp only [Option.getD_some, hx, hd] at h
    injection h with h
    exact ⟨v, C65_zero_read _ _ _ hd, h.symm⟩

end

/-! ## Concrete cases -/

namespace NumbersExample

/-- `-12.50e-3` is `-1250 * 10^-5`. -/
theorem text : DecimalText "-12.50e-3".toList true 1250 (-5) :=
  ⟨"12".toList, ".50".toList, "e-3".toList, "50".toList, -3, rfl, ⟨by decide, by decide⟩, .inr (by decide), .inr ⟨rfl, by decide, by decide⟩,
    .inr ⟨'e', ['-'], ['3'], rfl, .inl rfl, ⟨by decide, by decide⟩, .inr ⟨rfl, by decide⟩⟩, by decide, by decide⟩

/-- The number nearest to -0.0125. -/
def x : B64 := ⟨true, 1016, 2702159776422298⟩

theorem rounded : RoundedDecimal true 1250 (-5) x := (roundedDecimal_iff _ _ _ _).mpr (by decide +kernel)

example : decode (F := B64) ⟨2, true, false⟩ "-12.50e-3".toList = .ok (.prim (.num x)) := by
  rw [C67_document _ _ _ _ _ _ text rounded]; decide +kernel

/-- It is written `-0.0125`, without the exponent. -/
example (opts : EncOpts) : encode opts (.prim (.num x)) = "-0.0125".toList := by
  rw [encode_number opts (by decide +kernel) (by decide +kernel)]; decide +kernel

/-- Halfway between two numbers: to the even significand. -/
example : RoundedDecimal false 9007199254740993 0 ⟨false, 1076, 0⟩ ∧ RoundedDecimal false 9007199254740995 0 ⟨false, 1076, 2⟩ :=
  ⟨(roundedDecimal_iff _ _ _ _).mpr (by decide +kernel), (roundedDecimal_iff _ _ _ _).mpr (by decide +kernel)⟩

/-- The first decimal of its length that is infinite. -/
example : RoundedDecimal false 17976931348623159 292 (infB false) ∧ RoundedDecimal false 17976931348623158 292 ⟨false, 2046, 2 ^ 52 - 1⟩ :=
  ⟨(roundedDecimal_iff _ _ _ _).mpr (by decide +kernel), (roundedDecimal_iff _ _ _ _).mpr (by decide +kernel)⟩

/-- `2^-24`: the shortest decimals have 16 digits; of those the nearest is written. -/
example (opts : EncOpts) : encode opts (.prim (.num (⟨false, 999, 0⟩ : B64))) = "0.00000005960464477539063".toList := by
  rw [encode_number opts (by decide +kernel) (by decide +kernel)]; decide +kernel

/-- Large numbers have zeros instead of an exponent. -/
example (opts : EncOpts) : encode opts (.prim (.num (⟨false, 1099, 0⟩ : B64))) = "75557863725914320000000".toList := by
  rw [encode_number opts (by decide +kernel) (by decide +kernel)]; decide +kernel

example (opts : EncOpts) : encode opts (fromInt (-9007199254740992)) = "-9007199254740992".toList := by
  rw [(C67_integers _ (by decide)).1]; decide +kernel

/-- NaN, -1 and 0.5 are below one; 2.9 counts as 2. -/
example : BelowOne ⟨false, 2047, 1⟩ ∧ BelowOne ⟨true, 1023, 0⟩ ∧ BelowOne ⟨false, 1022, 0⟩ :=
  ⟨.inl (by decide), .inr (.inl rfl), .inr (.inr (by decide +kernel))⟩
example : toUsize 32 ⟨false, 1024, 2026619832316723⟩ = 2 ∧ toUsize 32 ⟨false, 1055, 0⟩ = 2 ^ 32 - 1 ∧ toUsize 32 (infB false) = 2 ^ 32 - 1 := by
  decide +kernel

end NumbersExample

end Toon
