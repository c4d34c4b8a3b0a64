import Verif.Spec.Utf8
import Verif.Lemmas.Utf8Decode
import Verif.Lemmas.Dec
import Verif.Lemmas.Float64

/-! # C44: searching bytes and slicing at byte offsets -/

namespace Toon

/-! ## What the byte-level model means -/

/-- C44.  `Utf8.bytes` is the UTF-8 encoding of Lean's strings. -/
theorem C44_bytes (s : Str) : Utf8.bytes s = utf8Bytes s := by
  unfold Utf8.bytes utf8Bytes
  rw [String.toByteArray_ofList, List.utf8Encode, List.data_toByteArray]

/-- C44.  `&s[i..j]` gives the text between the two offsets when these are character boundaries in order, ... -/
theorem C44_slice (s : Str) (i j : Nat) (t : Str) : Utf8.sliceRange s i j = .ok t ↔
    ∃ a c, s = a ++ t ++ c ∧ (utf8Bytes a).length = i ∧ (utf8Bytes (a ++ t)).length = j := by
  simp only [← C44_bytes]
  constructor
  · intro h
    unfold Utf8.sliceRange at h
    split at h
    · rename_i hij
      split at h
      · rename_i a b _ h1 h2
        unfold Utf8.sliceTo at h
        split at h
        · rename_i t' c h3
          cases h
          obtain ⟨rfl, h4⟩ := Utf8.splitAt_some h1
          obtain ⟨rfl, h5⟩ := Utf8.splitAt_some h3
          refine ⟨a, c, by simp, h4, ?_⟩
          have := Utf8.len_append a t
          unfold Utf8.len at this h4 h5
          omega
        · cases h
      · cases h
    · cases h
  · rintro ⟨a, c, rfl, h1, h2⟩
    have hl := Utf8.len_append a t
    have h1' : Utf8.len a = i := h1
    have h2' : Utf8.len (a ++ t) = j := h2
    unfold Utf8.sliceRange
    rw [if_pos (by omega)]
    have e1 : Utf8.splitAt (a ++ t ++ c) i = some (a, t ++ c) := by
      rw [List.append_assoc, ← h1']; exact Utf8.splitAt_append a (t ++ c)
    have e2 : Utf8.splitAt (a ++ t ++ c) j = some (a ++ t, c) := by
      rw [← h2']; exact Utf8.splitAt_append (a ++ t) c
    rw [e1, e2]
    dsimp only
    rw [show j - i = Utf8.len t by omega, Utf8.sliceTo, Utf8.splitAt_append]

/-- C44.  ... and panics otherwise. -/
theorem C44_slice_panics (s : Str) (i j : Nat) : Utf8.sliceRange s i j = .error .panic ↔
    ¬ (i ≤ j ∧ CharBoundary s i ∧ CharBoundary s j) := by
  have hb : ∀ k, (Utf8.splitAt s k).isSome ↔ CharBoundary s k := by
    intro k
    unfold CharBoundary
    simp only [← C44_bytes]
    constructor
    · intro h
      obtain ⟨p, hp⟩ := Option.isSome_iff_exists.mp h
      obtain ⟨a, b⟩ := p
      obtain ⟨h1, h2⟩ := Utf8.splitAt_some hp
      exact ⟨a, b, h1, h2⟩
    · rintro ⟨a, b, rfl, rfl⟩
      have := Utf8.splitAt_append a b
      unfold Utf8.len at this
      rw [this]; rfl
  rw [← hb, ← hb]
  unfold Utf8.sliceRange
  by_cases hij : i ≤ j
  · rw [if_pos hij]
    cases h1 : Utf8.splitAt s i with
    | none => simp
    | some p =>
      obtain ⟨a, b⟩ := p
      cases h2 : Utf8.splitAt s j with
      | none => simp
      | some q =>
        obtain ⟨a', b'⟩ := q
        simp only [Option.isSome_some, hij, and_self, not_true_eq_false, iff_false]
        obtain ⟨e1, l1⟩ := Utf8.splitAt_some h1
        obtain ⟨e2, l2⟩ := Utf8.splitAt_some h2
        have hpre : a.length ≤ a'.length := by
          apply Nat.le_of_not_lt
          intro hlt
          have hp : a' <+: a := by
            have p1 : a' <+: s := ⟨b', e2.symm⟩
            have p2 : a <+: s := ⟨b, e1.symm⟩
            exact List.prefix_of_prefix_length_le p1 p2 (Nat.le_of_lt hlt)
          obtain ⟨d, hd⟩ := hp
          have h3 := congrArg Utf8.len hd
          rw [Utf8.len_append] at h3
          have : d = [] := by
            cases d with
            | nil => rfl
            | cons c d =>
              have := Utf8.enc_length_pos c
              rw [Utf8.len_cons] at h3; omega
          subst this
          have := congrArg List.length hd
          simp at this; omega
        have hp : a <+: a' := List.prefix_of_prefix_length_le ⟨b, e1.symm⟩ ⟨b', e2.symm⟩ hpre
        obtain ⟨d, rfl⟩ := hp
        have hb' : b = d ++ b' := by
          have : a ++ b = a ++ (d ++ b') := by rw [← e1, e2, List.append_assoc]
          exact List.append_cancel_left this
        subst hb'
        rw [Utf8.len_append] at l2
        rw [show j - i = Utf8.len d by omega, Utf8.sliceTo, Utf8.splitAt_append]
        simp
  · rw [if_neg hij]
    simp [hij]

/-! ## Searching -/

/-- C44.  The byte search for the closing quote finds the same quote character as the search over characters. -/
theorem C44_closing_quote (s : Str) (hq : s.head? = some '"') (i : Nat) :
    Utf8.findClosingQuote s 0 = some i ↔
      ∃ a b, s = a ++ '"' :: b ∧ (utf8Bytes a).length = i ∧ findClosingQuote s 0 = some a.length := by
  rw [Utf8.findClosingQuote_eq hq, Option.map_eq_some_iff]
  simp only [← C44_bytes]
  constructor
  · rintro ⟨k, hk, rfl⟩
    obtain ⟨hg, _⟩ := Utf8.findClosingQuote_get hk
    have hlt := Utf8.get_lt hg
    have hv : s[k] = '"' := (List.getElem?_eq_some_iff.mp hg).2
    refine ⟨s.take k, s.drop (k + 1), ?_, rfl, ?_⟩
    · rw [← hv, ← List.drop_eq_getElem_cons hlt, List.take_append_drop]
    · rw [hk, List.length_take]; congr 1; omega
  · rintro ⟨a, b, rfl, rfl, h⟩
    exact ⟨a.length, h, by simp [Utf8.off, Utf8.len]⟩

/-- C44.  The byte search for a character outside quotes finds the same character as the search over characters. -/
theorem C44_unquoted_char (s : Str) (t : Char) (i : Nat) :
    Utf8.findUnquotedChar s t = some i ↔
      ∃ a b, s = a ++ b ∧ (utf8Bytes a).length = i ∧ findUnquotedChar s t = some a.length := by
  rw [Utf8.findUnquotedChar_eq, Option.map_eq_some_iff]
  simp only [← C44_bytes]
  constructor
  · rintro ⟨k, hk, rfl⟩
    have hlt := Utf8.findUnquotedChar_lt hk
    refine ⟨s.take k, s.drop k, (List.take_append_drop k s).symm, rfl, ?_⟩
    rw [hk, List.length_take]; congr 1; omega
  · rintro ⟨a, b, rfl, rfl, h⟩
    exact ⟨a.length, h, by simp [Utf8.off, Utf8.len]⟩

/-- C44.  The byte test for number-like texts (which decides about quoting) is the test over characters. -/
theorem C44_numeric_like (s : Str) : Utf8.isNumericLike s = isNumericLike s := Utf8.isNumericLike_eq s

/-! ## Decoding -/

section
variable {F : Type} [F64 F]

/-- C44.  Decoding with byte offsets ends as decoding with character positions does, for every text and all options. -/
theorem C44_decode (opts : DecOpts) (text : Str) :
    Utf8.decode (F := F) opts text = Utf8.lift (decode opts text) :=
  Utf8.decodeFromLines_eq opts (splitOn '\n' text)

/-- C44.  Decoding never panics by slicing at a wrong offset. -/
theorem C44_no_panic (opts : DecOpts) (text : Str) : Utf8.decode (F := F) opts text ≠ .error .panic := by
  rw [C44_decode]
  cases decode (F := F) opts text <;> simp [Utf8.lift]

/-- C44, decoding to events: the same, from any list of lines. -/
theorem C44_stream (indent : Nat) (strict : Bool) (lines : List Str) :
    Utf8.decodeStream (F := F) indent strict lines = Utf8.lift (decodeStream indent strict lines) ∧
      Utf8.decodeStream (F := F) indent strict lines ≠ .error .panic := by
  rw [Utf8.decodeStream_eq]
  refine ⟨rfl, ?_⟩
  cases decodeStream (F := F) indent strict lines <;> simp [Utf8.lift]

end

/-! ## Examples -/

namespace Utf8Example

/-- A key with a two-byte character and an escaped four-byte one, a length, and a value. -/
def line : Str := "\"é\\😀\"[2]: ü,→".toList

/-- Byte and character positions differ, and the byte after the backslash is inside no ASCII character. -/
example : Utf8.findClosingQuote line 0 = some 8 ∧ findClosingQuote line 0 = some 4 := by decide +kernel

example : Utf8.bytes "é".toList = [0xC3, 0xA9] := by decide +kernel

/-- Offsets inside a character do panic in this model. -/
example : Utf8.sliceFrom "é".toList 1 = .error .panic ∧ Utf8.sliceRange "aé→".toList 1 3 = .ok "é".toList ∧
    Utf8.sliceRange "aé→".toList 1 4 = .error .panic ∧ Utf8.sliceRange "aé→".toList 3 1 = .error .panic := by
  decide +kernel

/-- A text with multi-byte characters in keys, columns, rows, quoted cells and list items, decoded both ways. -/
def text : Str := "clé: ü\nπ[2]{\"ñ\",→}:\n  \"😀:\",1\n  é,x\nl[1]:\n  - ключ: \"→\"".toList

example : (Utf8.decodeStream (F := B64) 2 true (splitOn '\n' text)).toOption =
      (decodeStream (F := B64) 2 true (splitOn '\n' text)).toOption ∧
    (decodeStream (F := B64) 2 true (splitOn '\n' text)).toOption.isSome = true := by
  decide +kernel

end Utf8Example

end Toon
