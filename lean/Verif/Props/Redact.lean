import Verif.Lemmas.Redact
import Verif.Lemmas.FoldOff
import Verif.Props.Misread

/-!
# C92: what a replacer hides stays hidden

`Spec/Redact.lean` has the replacer, the value with the entries hidden, and what it means that two values differ only in what is
hidden.
-/

namespace Toon

section
variable {F : Type} [F64 F] [LawfulF64 F]

/-- C92.  Encoding with the replacer ends, and the lines are those of the value with the entries hidden, at any depth, in arrays
too. -/
theorem C92_text (opts : EncOpts) (hide : Str → Option (Option (Prim F))) (v : Json F) (x : List Str × Unit) :
    (∃ fuel, encodeLinesWith opts (stateless (redactor hide)) fuel v () = some x) ↔ x = (encodeLines opts (redacted hide v), ()) := by
  have hap : ∀ n, applyReplacer (stateless (redactor hide)) n (normalize v) () =
      transformChildren (stateless (redactor hide)) n [] (normalize v) () := by
    intro n
    simp only [applyReplacer, show stateless (redactor hide) [] (normalize v) [] () = (some (normalize v), ()) from rfl,
      normalize_normal (normal_normalize v)]
  have h1 : ∀ n, height v < n → encodeLinesWith opts (stateless (redactor hide)) n v () =
      some (encodeLines opts (redacted hide v), ()) := by
    intro n hn
    rw [encodeLinesWith, hap, redact_children hide v n [] hn]
    rfl
  constructor
  · rintro ⟨n, h⟩
    have h2 := h1 (max n (height v + 1)) (by omega)
    rw [encodeLinesWith, hap] at h h2
    split at h
    · simp at h
    · rename_i a he
      rw [transformChildren_mono _ (Nat.le_max_left n (height v + 1)) he] at h2
      rw [← Option.some.injEq, ← h, ← h2]
  · rintro rfl
    exact ⟨_, h1 (height v + 1) (by omega)⟩

/-- C92.  Values that differ only in what is hidden have the same text: nothing can be told about the values of masked entries,
nor whether there are dropped entries. -/
theorem C92_hidden (opts : EncOpts) (hide : Str → Option (Option (Prim F))) {v w : Json F} (h : SameBut hide v w) (x : List Str × Unit) :
    (∃ fuel, encodeLinesWith opts (stateless (redactor hide)) fuel v () = some x) ↔
      ∃ fuel, encodeLinesWith opts (stateless (redactor hide)) fuel w () = some x := by
  rw [C92_text, C92_text, redacted_alike h]

/-- C92.  In what is read from the text no object, at any depth, has a dropped key, if that key can be written without quotes. -/
theorem C92_gone (opts : EncOpts) (strict : Bool) (hide : Str → Option (Option (Prim F))) (v : Json F) (hi : 0 < opts.indent)
    (hd : GoodDelim opts.delim) (hf : opts.fold = false) (hs : Sized (redacted hide v)) (fuel : Nat) (lines : List Str)
    (hl : encodeLinesWith opts (stateless (redactor hide)) fuel v () = some (lines, ())) (w : Json F)
    (h : decodeFromLines { indent := opts.indent, strict := strict, expand := false } lines = .ok w) :
    AllKeys (fun k => ¬ (hide k = some none ∧ bareKey k = true)) w := by
  have h1 := (C92_text opts hide v _).mp ⟨fuel, hl⟩
  simp only [Prod.mk.injEq, and_true] at h1
  rw [h1, ← decode_encode_lines hd, C91_outcome opts strict _ hi hd hf hs] at h
  refine readsBack_keys ?_ true _ _ ((allKeys_normalize _ _).mpr (AllKeys.imp ?_ _ (allKeys_redacted hide v))) h
  · rintro k s e hk hm ⟨_, hb⟩
    obtain ⟨more, hmore⟩ := (C91_misread strict k s e hk hm).1
    rw [bareKey_eq] at hb
    exact validKey_not_mem hb (c := ':') (by decide) (by rw [hmore]; simp)
  · rintro k hk ⟨h, _⟩
    exact hk h

end

/-! ## Examples -/

private def secrets : Str → Option (Option (Prim B64)) := fun k =>
  if k = "token".toList then some none else if k = "card".toList then some (some (.str "***".toList)) else none

private def account (card : String) (token : Option String) : Json B64 :=
  .obj [("users".toList, .arr [.obj ([("name".toList, .prim (.str "Ada".toList)), ("card".toList, .prim (.str card.toList))] ++
    (token.map fun t => ("token".toList, .obj [("value".toList, .prim (.str t.toList))])).toList)])]

/-- Two accounts with other cards, one of them with a token: they have the same text. -/
example : SameBut secrets (account "4111" (some "s3cret")) (account "5500" none) :=
  .obj (.shown (.arr (.cons (.obj (.shown (.prim _) (.masked _ _ (p := .str "***".toList) (by decide +kernel) (.left _ (by decide +kernel) .nil)))) .nil)) .nil)

example : redacted secrets (account "4111" (some "s3cret")) =
    .obj [("users".toList, .arr [.obj [("name".toList, .prim (.str "Ada".toList)), ("card".toList, .prim (.str "***".toList))]])] := by
  decide +kernel

example : Sized (redacted secrets (account "4111" (some "s3cret"))) := by
  rw [show redacted secrets (account "4111" (some "s3cret")) =
    .obj [("users".toList, .arr [.obj [("name".toList, .prim (.str "Ada".toList)), ("card".toList, .prim (.str "***".toList))]])] by decide +kernel]
  simp [Sized, SizedItems, SizedEntries]

/-- A replacer that goes by the key it is given. -/
private def byKey (hide : Str → Option (Option (Prim B64))) : Str → Json B64 → List PathSeg → Option (Json B64) := fun k v _ =>
  match hide k with
  | none => some v
  | some none => none
  | some (some p) => some (.prim p)

/-- It drops elements of arrays along with the entries `0`, and hides the whole document along with the entries that have the empty
key, if they are masked; the root cannot be dropped. -/
example : applyReplacer (stateless (byKey fun k => if k = "0".toList then some none else none)) 9
      (.arr [.prim (.bool true), .prim (.bool false)]) () = some (.arr [.prim (.bool false)], ()) ∧
    applyReplacer (stateless (byKey fun k => if k = [] then some (some .null) else none)) 9
      (.obj [("a".toList, .prim (.bool true)), ([], .prim (.bool false))]) () = some (.prim .null, ()) ∧
    applyReplacer (stateless (byKey fun k => if k = [] then some none else none)) 9
      (.obj [("a".toList, .prim (.bool true)), ([], .prim (.bool false))]) () = some (.obj [("a".toList, .prim (.bool true))], ()) := by
  refine ⟨?_, ?_, ?_⟩ <;> decide +kernel

end Toon
