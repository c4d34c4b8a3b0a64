import Verif.Lemmas.Host
import Verif.Lemmas.Cli
import Verif.Lemmas.JsonRead
import Verif.Lemmas.JsonFloat64
import Verif.Props.RoundTrip
import Verif.Props.Events
import Verif.Props.Strict
import Verif.Props.Fold
import Verif.Props.JsonOutput

/-!
# C42: the host JSON type; C43: the command line; C54: JSON text to TOON and back
-/

namespace Toon

section
variable {F : Type} [F64 F]

/-! ## C42 -/

/-- C42.  Converting an object to the host type: every key once, in the order of first occurrence, with the
conversion of its last value. -/
theorem C42_object (es : List (Str × Json F)) :
    ∃ hs, toHost (.obj es) = .obj hs ∧ hs.map Prod.fst = firstKeys (es.map Prod.fst) ∧
      ∀ k, lookupKey k hs = (lastValue k es).map toHost := by
  refine ⟨lastEntries (lastWinsEntries (finiteOrNullEntries es)), by rw [toHost_eq, finiteOrNull, lastWins], ?_, ?_⟩
  · rw [keys_lastEntries, keys_lastWinsEntries, keys_finite]
  · intro k
    rw [lookup_lastEntries, lastWinsEntries_finite, lastValue_map]

/-- C42, for the whole value: NaN and infinities become `null`, of duplicate keys the last value stays at
the first position. -/
theorem C42_value (v : Json F) : toHost v = lastWins (finiteOrNull v) := toHost_eq v

/-- C42.  The converted value has distinct keys in every object. -/
theorem C42_distinct (v : Json F) : DistinctKeys (toHost v) := by
  rw [toHost_eq]
  exact distinct_lastWins _

/-- C42.  The conversion is the identity exactly on values with distinct keys and finite numbers. -/
theorem C42_identity (v : Json F) : toHost v = v ↔ DistinctKeys v ∧ AllPrims FinitePrim v := by
  constructor
  · intro h
    have h2 := allPrims_lastWins (allPrims_finiteOrNull v)
    rw [← toHost_eq, h] at h2
    exact ⟨h ▸ C42_distinct v, h2⟩
  · rintro ⟨hk, hf⟩
    rw [toHost_eq, finiteOrNull_id v hf, lastWins_id v hk]

/-- C42.  The conversion back only normalises numbers: NaN and infinities to `null`, negative zero to zero.
Both ways together are the identity on values with distinct keys and plain numbers. -/
theorem C42_back (v : Json F) : fromHost v = normalize v := fromHost_eq v

theorem C42_round_trip [LawfulF64 F] (v : Json F) (hk : DistinctKeys v) (hn : PlainNumbers v) :
    fromHost (toHost v) = v := by
  rw [(C42_identity v).2 ⟨hk, finite_of_plain hn⟩, fromHost_eq, normalize_normal ((normal_iff v).2 hn)]

omit [F64 F] in
/-- C42.  Reading JSON text into the host type: the value the text denotes, with the last value of
duplicate members at the first position; an error for text that is not JSON or nested more than 127
deep. -/
theorem C42_from_text (rd : Str → Option F) (s : Str) (h : Json F) :
    hostFromStr rd s = .ok h ↔ ∃ v, JsonDoc rd v s ∧ height v < 128 ∧ h = lastWins v := by
  unfold hostFromStr
  constructor
  · intro hh
    cases hr : readJson rd s with
    | none => simp [hr] at hh
    | some v =>
      simp only [hr] at hh
      by_cases hd : height v < 128
      · rw [if_pos hd] at hh
        simp only [Except.ok.injEq] at hh
        exact ⟨v, (readJson_iff v s).1 hr, hd, by rw [← hh, hostBuild_eq]⟩
      · rw [if_neg hd] at hh; simp at hh
  · rintro ⟨v, h1, h2, rfl⟩
    rw [(readJson_iff v s).2 h1]
    simp only [if_pos h2, hostBuild_eq]

end

/-- C42, a case with duplicate keys at two levels, NaN and negative zero. -/
example : toHost (.obj [(['a'], .prim (.num (⟨false, 2047, 1⟩ : B64))), (['b'], .obj [(['c'], .prim .null), (['c'], .prim (.num ⟨true, 0, 0⟩))]),
      (['a'], .prim (.bool true))]) =
    .obj [(['a'], .prim (.bool true)), (['b'], .obj [(['c'], .prim (.num ⟨true, 0, 0⟩))])] := by decide +kernel
example : fromHost (.arr [.prim (.num (⟨true, 0, 0⟩ : B64)), .prim (.num ⟨false, 2047, 0⟩)]) =
    .arr [.prim (.num ⟨false, 0, 0⟩), .prim .null] := by decide +kernel
example : toHost RoundTripExample.value = RoundTripExample.value :=
  (C42_identity _).2 ⟨RoundTripExample.distinct, finite_of_plain RoundTripExample.plain⟩

/-! ## C54 -/

section
variable {F : Type} [F64 F] [LawfulF64 F] [JsonNum F] [LawfulJsonNum F]

/-- What `toon_to_json` and `decode_pretty` print denotes the decoded value with the last value of duplicate keys
at the first position. -/
theorem C54_toon_to_json (toon : Str) (v : Json F) (h : decode defaultDec toon = .ok v) :
    ∃ compact pretty, toonToJson F toon = .ok compact ∧ decodePretty F toon = .ok pretty ∧
      (∀ w : Json F, JsonDoc exactNumber w compact ↔ w = lastWins v) ∧
      (∀ w : Json F, JsonDoc exactNumber w pretty ↔ w = lastWins v) := by
  have hp := finite_of_plain (C20_plain_numbers defaultDec toon v h)
  have key : ∀ b : Bool, ∀ w : Json F, JsonDoc exactNumber w (serdeWrite b 0 (toHost v)) ↔ w = lastWins v := by
    intro b w
    have hd : JsonDoc exactNumber (lastWins v) (serdeWrite b 0 (toHost v)) := by
      rw [serdeWrite_eq, toHost_eq, finiteOrNull_id v hp]
      have hl := layout_isJson (rd := exactNumber) goodStr_serdeString jsonNumber_reads (serdeIndent b) 0 (lastWins v)
      rw [finiteOrNull_id _ (allPrims_lastWins hp)] at hl
      exact ⟨[], _, [], by simp, by intro c h; simp at h, hl, by intro c h; simp at h⟩
    constructor
    · intro h2; exact jsonDoc_unique h2 hd
    · rintro rfl; exact hd
  refine ⟨_, _, ?_, ?_, key false, key true⟩
  · unfold toonToJson; rw [h]
  · unfold decodePretty; rw [h]

/-- C54 (library).  Take any JSON text, denoting `v` and nested less than 128 deep.  `json_to_toon` succeeds; if the
value (with the last of duplicate members) is writable, `toon_to_json` of the result succeeds, and what it
prints denotes that value, up to the order of keys, with NaN, infinities and negative zero normalised. -/
theorem C54_library (rd : Str → Option F) (s : Str) (v : Json F) (hs : JsonDoc rd v s) (hh : height v < 128)
    (hw : Writable true (lastWins v)) :
    ∃ toon json w, jsonToToon rd s = .ok toon ∧ toonToJson F toon = .ok json ∧
      JsonDoc exactNumber w json ∧ w ≃ normalize (lastWins v) := by
  have h1 : jsonToToon rd s = .ok (encode defaultEnc (normalize (lastWins v))) := by
    unfold jsonToToon
    rw [(C42_from_text rd s _).2 ⟨v, hs, hh, rfl⟩, ← fromHost_eq]
  have hk := distinct_lastWins v
  obtain ⟨w, h2, h3⟩ := C01_round_trip_all_numbers defaultEnc true (normalize (lastWins v)) (by decide) (by decide) rfl
    ((writable_normalize _ _).2 hw) ((distinct_normalize _).2 hk)
  rw [normalize_normal (normal_normalize _)] at h3
  obtain ⟨json, _, h4, _, h5, _⟩ := C54_toon_to_json _ w h2
  refine ⟨_, json, w, h1, h4, (h5 w).2 ?_, h3⟩
  rw [lastWins_id w ((distinct_equiv h3).2 ((distinct_normalize _).2 hk))]

/-- C54 (library), for a text without duplicate members and with plain numbers. -/
theorem C54_library_plain (rd : Str → Option F) (s : Str) (v : Json F) (hs : JsonDoc rd v s) (hh : height v < 128)
    (hk : DistinctKeys v) (hn : PlainNumbers v) (hw : Writable true v) :
    ∃ toon json w, jsonToToon rd s = .ok toon ∧ toonToJson F toon = .ok json ∧
      JsonDoc exactNumber w json ∧ w ≃ v := by
  obtain ⟨toon, json, w, h1, h2, h3, h4⟩ := C54_library rd s v hs hh (by rw [lastWins_id v hk]; exact hw)
  rw [lastWins_id v hk, normalize_normal ((normal_iff v).2 hn)] at h4
  exact ⟨toon, json, w, h1, h2, h3, h4⟩

end
end Toon
