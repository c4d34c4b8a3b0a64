import Verif.Lemmas.ShallowRows
import Verif.Props.RoundTrip
import Verif.Props.Fold
import Verif.Props.Cli
import Verif.Lemmas.Dec
import Verif.Lemmas.Float64

/-!
# C65: reading a text with another indentation unit than it was written with

In strict mode the unit decides only whether a text is accepted, never what it means.  The writer does not have this
safety: with unit 0 it drops the nesting.
-/

namespace Toon

section
variable {F : Type} [F64 F] [LawfulF64 F]

/-- C65.  For every text: strict decoding with two indentation units gives the same events, where both succeed. -/
theorem C65_events (i j : Nat) (source : List Str) (evs evs' : List (Ev F)) (h : decodeStream i true source = .ok evs)
    (h' : decodeStream j true source = .ok evs') : evs = evs' := by
  obtain ⟨t, h1, rfl⟩ := (C58_events _ _ _ _).mp h
  obtain ⟨t', h2, rfl⟩ := (C58_events _ _ _ _).mp h'
  rw [textMeans_reindent h1 h2]

/-- C65.  For every text, with or without path expansion: strict decoding with two indentation units gives the same
value, where both succeed. -/
theorem C65_value (i j : Nat) (expand : Bool) (text : Str) (v w : Json F) (h : decode ⟨i, true, expand⟩ text = .ok v)
    (h' : decode ⟨j, true, expand⟩ text = .ok w) : v = w := by
  cases expand with
  | false =>
    obtain ⟨t, h1, rfl⟩ := (C58_value ⟨i, true, false⟩ rfl text v).mp h
    obtain ⟨t', h2, rfl⟩ := (C58_value ⟨j, true, false⟩ rfl text w).mp h'
    rw [textMeans_reindent h1 h2]
  | true =>
    obtain ⟨t, h1, rfl, _⟩ := C58_expanded ⟨i, true, true⟩ rfl text v h
    obtain ⟨t', h2, rfl, _⟩ := C58_expanded ⟨j, true, true⟩ rfl text w h'
    rw [textMeans_reindent h1 h2]

/-- C65.  A written text read strictly with another unit: an error, or the value that was written. -/
theorem C65_safe (opts : EncOpts) (j : Nat) (v w : Json F) (hi : 0 < opts.indent) (hd : GoodDelim opts.delim)
    (hf : opts.fold = false) (hw : Writable true v) (hk : DistinctKeys v)
    (h : decode ⟨j, true, false⟩ (encode opts v) = .ok w) : w ≃ normalize v := by
  obtain ⟨w', h1, h2⟩ := C01_round_trip_all_numbers opts true v hi hd hf hw hk
  rw [C65_value j opts.indent false _ w w' h h1]
  exact h2

/-- C65, with folded keys: an error, or the leaves of the value that was written. -/
theorem C65_safe_folded (opts : EncOpts) (j : Nat) (v w : Json F) (hi : 0 < opts.indent) (hd : GoodDelim opts.delim)
    (hw : Writable true v) (hk : DistinctKeys v) (h : decode ⟨j, true, false⟩ (encode opts v) = .ok w) :
    (dotLeaves w).Perm (dotLeaves (normalize v)) := by
  obtain ⟨w', h1, h2⟩ := C24_leaves opts true v hi hd hw hk
  rw [C65_value j opts.indent false _ w w' h h1]
  exact h2

/-- C65.  Exactly which written texts are accepted: the same unit, no nesting at all, or a unit that divides the one of
the writer and no array of anything but primitives. -/
theorem C65_accepted (opts : EncOpts) (j : Nat) (v : Json F) (hi : 0 < opts.indent) (hd : GoodDelim opts.delim)
    (hf : opts.fold = false) (hw : Writable true v) (hk : DistinctKeys v) :
    (∃ w : Json F, decode ⟨j, true, false⟩ (encode opts v) = .ok w) ↔
      j = opts.indent ∨ Shallow v ∨ (j ∣ opts.indent ∧ PrimArrays v) := by
  obtain ⟨w₀, h0, he⟩ := C01_round_trip_all_numbers opts true v hi hd hf hw hk
  obtain ⟨t₀, ht₀, rfl⟩ := (C58_value ⟨opts.indent, true, false⟩ rfl _ w₀).mp h0
  obtain ⟨l, hl, hrows, hok⟩ := written_rows hd v
  rw [hf] at hl
  have meaning : (∃ w : Json F, decode ⟨j, true, false⟩ (encode opts v) = .ok w) ↔
      ∃ t : ETree F, TextMeans j true (encodeLines opts v) t := by
    constructor
    · rintro ⟨w, hw⟩
      obtain ⟨t, ht, _⟩ := (C58_value ⟨j, true, false⟩ rfl _ w).mp hw
      exact ⟨t, (textMeans_encode hd v j true t).mp ht⟩
    · rintro ⟨t, ht⟩
      exact ⟨t.json, (C58_value ⟨j, true, false⟩ rfl _ _).mpr ⟨t, (textMeans_encode hd v j true t).mpr ht, rfl⟩⟩
  have ht₀' := (textMeans_encode hd v opts.indent true t₀).mp ht₀
  rw [meaning, hrows]
  rw [hrows] at ht₀'
  have hpa : PrimArrays v → PrimArrays t₀.json := fun h => equiv_primArrays he.symm ((primArrays_normalize v).mpr h)
  have flat : Shallow v → ∃ t : ETree F, TextMeans j true ((l.documentRows opts.delim).map (rowText opts.indent)) t := by
    intro hs
    obtain ⟨ls, hsc⟩ := scans_flat (i := opts.indent) (l.documentRows opts.delim) hok
      (fun r hr => by rw [rows_shallow hl ((shallow_normalize v).mpr hs) _ r hr]; simp) 0
    obtain ⟨ls', bs', r', h1, h2⟩ := ht₀'
    have e := (scansTo_iff _ _ _ _ _ _).mpr (hsc opts.indent true)
    rw [(scansTo_iff _ _ _ _ _ _).mpr h1] at e
    simp only [Except.ok.injEq, Prod.mk.injEq] at e
    obtain ⟨rfl, rfl⟩ := e
    exact ⟨t₀, ls', [], r', hsc j true, h2⟩
  constructor
  · rintro ⟨t, ht⟩
    by_cases hij : j = opts.indent
    · exact Or.inl hij
    by_cases hsh : Shallow v
    · exact Or.inr (Or.inl hsh)
    right; right
    have htt := textMeans_reindent ht ht₀'
    subst htt
    obtain ⟨ls, bs, r', h1, h2⟩ := ht
    have hp := scans_rows hok h1
    obtain ⟨r, hr, hr1⟩ := rows_nested hl (fun h => hsh ((shallow_normalize v).mp h)) opts.delim
    have hdiv : j ∣ opts.indent := by
      have := pointwise_left hp (P := fun r => opts.indent * r.1 % j = 0) (fun a b h => h.2.2 rfl) r hr
      rw [hr1, Nat.mul_one] at this
      exact Nat.dvd_of_mod_eq_zero this
    refine ⟨hdiv, ?_⟩
    obtain ⟨m, hm⟩ := hdiv
    have hj : 0 < j := by
      rcases Nat.eq_zero_or_pos j with rfl | h
      · simp at hm; omega
      · exact h
    have hm2 : 2 ≤ m := by
      rcases m with _ | _ | m
      · simp at hm; omega
      · simp at hm; exact absurd hm.symm hij
      · omega
    have hdep : ∀ l ∈ ls, ∃ d, l.depth = m * d :=
      pointwise_all hp (P := fun _ => True) (fun a b _ h _ => ⟨a.1, by rw [h.2.1, hm, Nat.mul_assoc, Nat.mul_div_cancel_left _ hj]⟩)
        (fun _ _ => trivial)
    exact (primArrays_normalize v).mp (equiv_primArrays he (document_sparse hm2 hdep h2))
  · rintro (rfl | hs | ⟨⟨m, hm⟩, hp⟩)
    · exact ⟨t₀, ht₀'⟩
    · exact flat hs
    · have hj : 0 < j := by
        rcases Nat.eq_zero_or_pos j with rfl | h
        · simp at hm; omega
        · exact h
      by_cases hm2 : 2 ≤ m
      · cases v with
        | prim p => exact flat trivial
        | arr items => rw [PrimArrays] at hp; exact flat hp
        | obj es =>
          obtain ⟨ls, bs, r', h1, h2⟩ := ht₀'
          have hy : ∀ l ∈ ls, l.content.head? ≠ some '-' := by
            have h3 := (primArrays_normalize _).mpr hp
            refine pointwise_all (scans_rows hok h1) (P := fun r => r.2.head? ≠ some '-') (fun a b _ h h' => by rw [h.1]; exact h') ?_
            rw [normalize, PrimArrays] at h3
            rw [normalize, DocumentLayout] at hl
            cases hl with
            | object hl => exact entriesRows_hyphen _ hl h3 _ _
          obtain ⟨r'', h3⟩ := document_scaled hm2 hy (hpa hp) h2
          rw [hm] at h1
          have h4 := scans_scaled hm2 hj h1
          rw [← hm] at h4
          exact ⟨t₀, _, _, _, h4, h3⟩
      · have : m = 1 := by
          rcases m with _ | _ | m
          · simp at hm; omega
          · rfl
          · omega
        subst this
        have : j = opts.indent := by omega
        subst this
        exact ⟨t₀, ht₀'⟩

/-! ## Indentation unit 0 -/

/-- C65.  Decoding with unit 0, strict or not, gives values without nesting only, whatever the text. -/
theorem C65_zero_read (strict : Bool) (text : Str) (v : Json F) (h : decode ⟨0, strict, false⟩ text = .ok v) : Shallow v := by
  obtain ⟨t, ⟨ls, bs, r, h1, h2⟩, rfl⟩ := (C58_value ⟨0, strict, false⟩ rfl text v).mp h
  refine document_flat ?_ h2
  have : ∀ {n : Nat} {source : List Str} {ls : List Line} {bs : List Nat}, ScansTo 0 strict n source ls bs → ∀ l ∈ ls, l.depth = 0 := by
    intro n source ls bs h
    induction h with
    | nil => simp
    | blank _ _ ih => exact ih
    | line _ _ _ _ ih =>
      intro l hl
      rcases List.mem_cons.mp hl with rfl | hl
      · exact Nat.div_zero _
      · exact ih l hl
  exact this h1

/-- C65.  A text written with unit 0 gives the value back, with whatever unit it is read, strictly or not, exactly if the
value has no nesting. -/
theorem C65_zero_written (opts : EncOpts) (j : Nat) (strict : Bool) (v : Json F) (hi : opts.indent = 0) (hd : GoodDelim opts.delim)
    (hf : opts.fold = false) (hw : Writable true v) (hk : DistinctKeys v) :
    (∃ w, decode ⟨j, strict, false⟩ (encode opts v) = .ok w ∧ w ≃ normalize v) ↔ Shallow v := by
  obtain ⟨l, hl, hrows, hok⟩ := written_rows hd v
  rw [hf] at hl
  have hz : ∀ r ∈ l.documentRows opts.delim, opts.indent * r.1 = 0 := fun r _ => by rw [hi]; simp
  constructor
  · rintro ⟨w, h1, h2⟩
    obtain ⟨t, ht, rfl⟩ := (C58_value ⟨j, strict, false⟩ rfl _ w).mp h1
    obtain ⟨ls, bs, r, h3, h4⟩ := (textMeans_encode hd v j strict t).mp ht
    rw [hrows] at h3
    have h5 : ∀ l ∈ ls, l.depth = 0 := pointwise_all (scans_rows hok h3) (P := fun r => opts.indent * r.1 = 0)
      (fun a b _ h h' => by rw [h.2.1, h', Nat.zero_div]) hz
    exact (shallow_normalize v).mp (equiv_shallow h2 (document_flat h5 h4))
  · intro hs
    obtain ⟨w, h1, h2⟩ := C01_round_trip_all_numbers { opts with indent := 1 } strict v (by simp) hd hf hw hk
    refine ⟨w, ?_, h2⟩
    obtain ⟨t, ht, rfl⟩ := (C58_value ⟨1, strict, false⟩ rfl _ w).mp h1
    refine (C58_value ⟨j, strict, false⟩ rfl _ _).mpr ⟨t, (textMeans_encode hd v j strict t).mpr ?_, rfl⟩
    obtain ⟨ls, bs, r, h3, h4⟩ := (textMeans_encode (opts := { opts with indent := 1 }) hd v 1 strict t).mp ht
    obtain ⟨l', hl', hrows', _⟩ := written_rows (opts := { opts with indent := 1 }) hd v
    rw [hf] at hl'
    have : l' = l := value_unique _ hl' hl
    subst this
    have hrr : (l'.documentRows opts.delim).map (rowText 1) = (l'.documentRows opts.delim).map (rowText opts.indent) := by
      apply List.map_congr_left
      intro r hr
      rw [rowText, rowText, rows_shallow hl ((shallow_normalize v).mpr hs) _ r hr]; simp
    rw [hrows'] at h3
    dsimp only at h3
    rw [hrr] at h3
    obtain ⟨ls', hsc⟩ := scans_flat (i := opts.indent) (l'.documentRows opts.delim) hok hz 0
    have e := (scansTo_iff _ _ _ _ _ _).mpr (hsc 1 strict)
    rw [(scansTo_iff _ _ _ _ _ _).mpr h3] at e
    simp only [Except.ok.injEq, Prod.mk.injEq] at e
    obtain ⟨rfl, rfl⟩ := e
    rw [hrows]
    exact ⟨ls, [], r, hsc j strict, h4⟩

/-! ## The command line

`--indent` is the unit of the text that is read and of the JSON that is printed. -/

/-- C65.  `toon --decode --indent 0`, the only way to ask for JSON on one line, prints values without nesting only. -/
theorem C65_cli_zero [JsonNum F] [LawfulJsonNum F] (args : Args) (toon json : Str) (hi : args.indent = 0) (hx : args.expandPaths = false)
    (h : runDecode F args toon = .ok json) : ∃ v : Json F, Shallow v ∧ JsonDoc exactNumber v json := by
  obtain ⟨h1, h2⟩ := C54_run_decode (F := F) args toon
  cases hd : decode (F := F) args.decOpts toon with
  | error e => rw [h1 e hd] at h; simp at h
  | ok v =>
    obtain ⟨json', h3, h4⟩ := h2 v hd
    rw [h] at h3
    simp only [Except.ok.injEq] at h3
    subst h3
    refine ⟨v, ?_, (h4 v).mpr rfl⟩
    have he : args.decOpts = ⟨0, !args.noStrict, false⟩ := by unfold Args.decOpts; rw [hi, hx]
    rw [he] at hd
    exact C65_zero_read _ _ v hd

/-- C65.  `toon --decode --indent n` on a text that was written with the default unit 2: for other `n` it fails, unless
the value has no nesting, or `n` is 1 and all arrays are arrays of primitives. -/
theorem C65_cli [JsonNum F] [LawfulJsonNum F] (args : Args) (opts : EncOpts) (v : Json F) (hi : opts.indent = 2) (hd : GoodDelim opts.delim)
    (hf : opts.fold = false) (hw : Writable true v) (hk : DistinctKeys v) (hs : args.noStrict = false) (hx : args.expandPaths = false) :
    (∃ json, runDecode F args (encode opts v) = .ok json) ↔
      args.indent = 2 ∨ Shallow v ∨ (args.indent = 1 ∧ PrimArrays v) := by
  have he : args.decOpts = ⟨args.indent, true, false⟩ := by unfold Args.decOpts; rw [hs, hx]; rfl
  have h1 := C65_accepted opts args.indent v (by omega) hd hf hw hk
  have h2 := C54_run_decode (F := F) args (encode opts v)
  rw [he] at h2
  have h3 : (∃ json, runDecode F args (encode opts v) = .ok json) ↔
      ∃ w : Json F, decode ⟨args.indent, true, false⟩ (encode opts v) = .ok w := by
    constructor
    · rintro ⟨json, hj⟩
      cases hd : decode (F := F) ⟨args.indent, true, false⟩ (encode opts v) with
      | error e => rw [h2.1 e hd] at hj; simp at hj
      | ok w => exact ⟨w, rfl⟩
    · rintro ⟨w, hw⟩
      obtain ⟨json, hj, _⟩ := h2.2 w hw
      exact ⟨json, hj⟩
  rw [h3, h1, hi]
  constructor
  · rintro (h | h | ⟨h, hp⟩)
    · exact Or.inl h
    · exact Or.inr (Or.inl h)
    · have hle := Nat.le_of_dvd (by omega) h
      rcases Nat.lt_or_ge args.indent 2 with hlt | hge
      · rcases Nat.eq_zero_or_pos args.indent with h0 | h0
        · rw [h0] at h; simp at h
        · exact Or.inr (Or.inr ⟨by omega, hp⟩)
      · exact Or.inl (by omega)
  · rintro (h | h | ⟨h, hp⟩)
    · exact Or.inl h
    · exact Or.inr (Or.inl h)
    · exact Or.inr (Or.inr ⟨by rw [h]; exact Nat.one_dvd _, hp⟩)

end

/-! ## What lax mode and unit 0 do -/

/-- Finding F27.  Lax decoding with another unit gives another value, without an error. -/
theorem C65_lax_differs :
    decode (F := B64) ⟨2, false, false⟩ "a:\n  b: x".toList = .ok (.obj [("a".toList, .obj [("b".toList, .prim (.str "x".toList))])]) ∧
    decode (F := B64) ⟨4, false, false⟩ "a:\n  b: x".toList = .ok (.obj [("a".toList, .obj []), ("b".toList, .prim (.str "x".toList))]) ∧
    decode (F := B64) ⟨2, false, false⟩ "[1]:\n  - a[1]:\n      - b: x".toList =
      .ok (.arr [.obj [("a".toList, .arr [.obj [("b".toList, .prim (.str "x".toList))]])]]) ∧
    decode (F := B64) ⟨1, false, false⟩ "[1]:\n  - a[1]:\n      - b: x".toList = .ok (.arr []) := by
  refine ⟨by decide +kernel, by decide +kernel, by decide +kernel, by decide +kernel⟩

/-- A nested value, and what becomes of it when it is written with unit 0 (finding F4). -/
def zeroExample : Json B64 := .obj [("a".toList, .obj [("b".toList, .prim (.str "x".toList))])]

theorem C65_zero_loses :
    (∀ opts : EncOpts, opts.indent = 0 → opts.delim = ',' → opts.fold = false → ∀ j strict w,
      decode ⟨j, strict, false⟩ (encode opts zeroExample) = .ok w → ¬ w ≃ zeroExample) ∧
    decode (F := B64) ⟨0, true, false⟩ "a:\nb: x".toList = .ok (.obj [("a".toList, .obj []), ("b".toList, .prim (.str "x".toList))]) := by
  refine ⟨?_, by decide +kernel⟩
  intro opts hi hd hf j strict w h1 h2
  have hw : Writable true zeroExample := by
    simp [zeroExample, Writable, WritableEntries]
    decide
  have := (C65_zero_written opts j strict zeroExample hi (by rw [hd]; decide) hf hw (by simp [zeroExample, DistinctKeys, DistinctKeysEntries])).mp
    ⟨w, h1, by have : normalize zeroExample = zeroExample := rfl
               rw [this]; exact h2⟩
  have h3 := this ("a".toList, .obj [("b".toList, .prim (.str "x".toList))]) (by simp)
  simp [OneLine] at h3

/-! ## Non-vacuity -/

/-- Written with unit 4 and read with unit 2: nested objects are read, a list is refused. -/
example : decode (F := B64) ⟨2, true, false⟩ "a:\n    b: x\nc[2]: y,z".toList = decode ⟨4, true, false⟩ "a:\n    b: x\nc[2]: y,z".toList ∧
    (∃ v : Json B64, decode ⟨2, true, false⟩ "a:\n    b: x\nc[2]: y,z".toList = .ok v) ∧
    decode (F := B64) ⟨2, true, false⟩ "a[1]:\n    - [1]: x".toList = .error (.countMismatch 1 .listItems 0) ∧
    (∃ v : Json B64, decode ⟨4, true, false⟩ "a[1]:\n    - [1]: x".toList = .ok v) ∧
    decode (F := B64) ⟨4, true, false⟩ "a:\n  b: x".toList = .error (.badIndent 2 4 2) := by
  refine ⟨by decide +kernel, ⟨.obj [("a".toList, .obj [("b".toList, .prim (.str "x".toList))]),
    ("c".toList, .arr [.prim (.str "y".toList), .prim (.str "z".toList)])], by decide +kernel⟩, by decide +kernel,
    ⟨.obj [("a".toList, .arr [.arr [.prim (.str "x".toList)]])], by decide +kernel⟩, by decide +kernel⟩

/-- The conditions of `C65_accepted` on a value: nested, with an array of primitives, and its negations. -/
example : ¬ Shallow zeroExample ∧ PrimArrays zeroExample ∧
    ¬ PrimArrays (.obj [("a".toList, .arr [.arr []])] : Json B64) ∧
    Shallow (.obj [("a".toList, .arr [.prim .null]), ("b".toList, .obj [])] : Json B64) := by
  refine ⟨fun h => ?_, by simp [zeroExample, PrimArrays, PrimArraysEntries], ?_, ?_⟩
  · have h3 := h ("a".toList, .obj [("b".toList, .prim (.str "x".toList))]) (by simp)
    simp [OneLine] at h3
  · simp only [PrimArrays, PrimArraysEntries, arePrims_all]
    rintro ⟨h, _⟩
    obtain ⟨p, hp⟩ := h (.arr []) (by simp)
    simp at hp
  · intro e he
    simp only [List.mem_cons, List.not_mem_nil, or_false] at he
    rcases he with rfl | rfl
    · exact Or.inr (Or.inl ⟨[.null], rfl⟩)
    · exact Or.inr (Or.inr rfl)

end Toon
