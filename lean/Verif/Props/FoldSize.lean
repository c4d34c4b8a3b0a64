import Verif.Lemmas.FoldSize
import Verif.Lemmas.SizeBound
import Verif.Lemmas.Float64
import Verif.Lemmas.Dec
import Verif.Props.Layout
import Verif.Props.LineCount

/-!
# C108: folding shortens the text

C98 says that folding adds no lines.  Here the characters are counted too: folding either changes nothing, or the text has fewer
lines and fewer characters.
-/

namespace Toon

section
variable {F : Type} [F64 F] [LawfulF64 F]

private theorem saved (opts : EncOpts) (hf : opts.fold = true) (v : Json F) : ∃ s,
    (encodeLines opts v).length + s = (encodeLines { opts with fold := false } v).length ∧
    (encode opts v).length + s * (opts.indent + 1) ≤ (encode { opts with fold := false } v).length ∧
    (s = 0 → encode opts v = encode { opts with fold := false } v) := by
  obtain ⟨l, hl, _⟩ := C56_one_layout opts.fold opts.flattenDepth (v.mapPrims Prim.plain)
  obtain ⟨l', hl', _⟩ := C56_one_layout false opts.flattenDepth (v.mapPrims Prim.plain)
  have hn := C98_lines opts v l hl
  have hn' := C98_lines { opts with fold := false } v l' hl'
  have ht := C56_text opts v l hl
  have ht' := C56_text { opts with fold := false } v l' hl'
  rw [hf] at hl
  obtain ⟨s, h1, h2, h3⟩ := document_saves hl hl'
  have he : s = 0 → encode opts v = encode { opts with fold := false } v := fun h0 => by rw [ht, ht', h3 h0]
  refine ⟨s, by omega, ?_, he⟩
  rcases Nat.eq_zero_or_pos s with h0 | h0
  · rw [he h0, h0]; simp
  · have hr' : l'.documentRows opts.delim ≠ [] := by
      intro h
      have := documentRows_length opts.delim l'
      rw [h] at this; simp at this; omega
    have hr : l.documentRows opts.delim ≠ [] := by
      intro h
      have hz : l.documentLines = 0 := by rw [← documentRows_length opts.delim l, h]; rfl
      generalize v.mapPrims Prim.plain = w at hl hl'
      cases hl with
      | prim p => exact absurd hz (by simp [Layout.documentLines, Layout.lines])
      | inline _ => exact absurd hz (by simp [Layout.documentLines, Layout.lines])
      | table _ _ => exact absurd hz (by simp [Layout.documentLines, Layout.lines])
      | list _ _ _ => exact absurd hz (by simp [Layout.documentLines, Layout.lines])
      | object g =>
        cases g with
        | nil =>
          cases hl' with
          | object g' => cases g'; exact absurd h2 (by omega)
        | folded _ _ g1 _ =>
          simp only [Layout.documentRows, Layout.entriesRows, List.append_eq_nil_iff] at h
          exact absurd h.1 (entryRows_ne_nil _ _ _ _ _)
        | plain _ g1 _ =>
          simp only [Layout.documentRows, Layout.entriesRows, List.append_eq_nil_iff] at h
          exact absurd h.1 (entryRows_ne_nil _ _ _ _ _)
    have a := separated_rows opts.indent _ hr
    have b := separated_rows opts.indent _ hr'
    have c := h1 opts.indent opts.delim
    rw [ht, ht']
    simp only at b c ⊢
    omega

/-- C108.  Folding either leaves the text as it is, or makes it shorter, in lines and in characters. -/
theorem C108_shorter (opts : EncOpts) (v : Json F) :
    encode opts v = encode { opts with fold := false } v ∨
    ((encodeLines opts v).length < (encodeLines { opts with fold := false } v).length ∧
      (encode opts v).length < (encode { opts with fold := false } v).length) := by
  cases hf : opts.fold with
  | false =>
    obtain ⟨_, _, _, _⟩ := opts
    cases hf
    exact .inl rfl
  | true =>
    obtain ⟨s, h1, h2, h3⟩ := saved opts hf v
    rcases Nat.eq_zero_or_pos s with h0 | h0
    · exact .inl (h3 h0)
    · refine .inr ⟨by omega, ?_⟩
      have := Nat.mul_le_mul h0 (Nat.le_add_left 1 opts.indent)
      omega

/-- C108.  Each line saved saves at least one character and the indentation of one level. -/
theorem C108_saving (opts : EncOpts) (v : Json F) :
    (encode opts v).length + ((encodeLines { opts with fold := false } v).length - (encodeLines opts v).length) * (opts.indent + 1) ≤
      (encode { opts with fold := false } v).length := by
  cases hf : opts.fold with
  | false =>
    obtain ⟨_, _, _, _⟩ := opts
    cases hf
    simp
  | true =>
    obtain ⟨s, h1, h2, h3⟩ := saved opts hf v
    rw [← h1, Nat.add_sub_cancel_left]
    exact h2

end

/-! ## A larger depth can give a longer text -/

namespace FoldSizeExample

def ka : Str := ['a']
def kb : Str := ['b']
def kc : Str := ['c']
def kabc : Str := ['a', '.', 'b', '.', 'c']

/-- An entry `a` with `b` and `c` inside, and an entry whose key is `a.b.c`. -/
def value : Json B64 := .obj [(ka, nested [kb, kc] (.prim .null)), (kabc, .prim .null)]

/-- Two keys are joined. -/
def two : Layout B64 := .object [(['a', '.', 'b'], .object [(kc, .prim .null)]), (kabc, .prim .null)]

/-- Nothing is joined. -/
def none : Layout B64 := .object [(ka, .object [(kb, .object [(kc, .prim .null)])]), (kabc, .prim .null)]

theorem two_layout : DocumentLayout true 2 (value.mapPrims Prim.plain) two := by
  have hv : value.mapPrims Prim.plain = value := by
    rw [show value.mapPrims Prim.plain = normalize value by decide +kernel]; decide +kernel
  rw [hv]
  refine .object (.folded (ks := [kb]) (leaf := .obj [(kc, .prim .null)]) rfl
    ⟨⟨rfl, by decide, Or.inl rfl⟩, by decide, by decide, by decide, by decide⟩
    (.object (.plain (fun _ => LayoutExample.no_chain (by intro k w h; cases h)) (.prim _) .nil)) ?_)
  exact .plain (fun _ => LayoutExample.no_chain (by intro k w h; cases h)) (.prim _) .nil

theorem none_layout : DocumentLayout true 3 (value.mapPrims Prim.plain) none := by
  have hv : value.mapPrims Prim.plain = value := by
    rw [show value.mapPrims Prim.plain = normalize value by decide +kernel]; decide +kernel
  rw [hv]
  refine .object (.plain (fun _ => ?_) (.object (.plain (fun _ => ?_)
    (.object (.plain (fun _ => LayoutExample.no_chain (by intro k w h; cases h)) (.prim _) .nil)) .nil))
    (.plain (fun _ => LayoutExample.no_chain (by intro k w h; cases h)) (.prim _) .nil))
  · rintro ⟨ks, leaf, ⟨h1, h2, h3⟩, h4, h5, h6, h7⟩
    match ks with
    | [] => exact h4 rfl
    | [x] =>
      simp only [nested, Json.obj.injEq, List.cons.injEq, Prod.mk.injEq, and_true] at h1
      rcases h3 with h3 | h3
      · simp at h3
      · exact h3 _ _ h1.2.symm
    | [x, y] =>
      simp only [nested, Json.obj.injEq, List.cons.injEq, Prod.mk.injEq, and_true] at h1
      rw [← h1.1, ← h1.2.1] at h6
      exact h6 (by decide)
    | x :: y :: z :: ks => simp at h2
  · rintro ⟨ks, leaf, ⟨h1, h2, h3⟩, h4, h5, h6, h7⟩
    match ks with
    | [] => exact h4 rfl
    | [x] =>
      simp only [nested, Json.obj.injEq, List.cons.injEq, Prod.mk.injEq, and_true] at h1
      rw [← h1.1] at h7
      exact h7 (by decide)
    | [x, y] => simp [nested] at h1
    | x :: y :: z :: ks => simp at h2

theorem two_text : encode ⟨2, ',', true, 2⟩ value = "a.b:\n  c: null\na.b.c: null".toList := by
  rw [C56_text _ _ _ two_layout]
  rfl

theorem none_text : encode ⟨2, ',', true, 3⟩ value = "a:\n  b:\n    c: null\na.b.c: null".toList := by
  rw [C56_text _ _ _ none_layout]
  rfl

end FoldSizeExample

open FoldSizeExample

/-- C108.  A larger depth of folding can make the text longer: `a.b` is joined with a depth of two; with a depth of three the chain is
`a.b.c`, which is the key of another entry, and nothing is joined. -/
theorem C108_depth : ∃ v : Json B64, (encode ⟨2, ',', true, 2⟩ v).length < (encode ⟨2, ',', true, 3⟩ v).length :=
  ⟨value, by rw [two_text, none_text]; decide⟩

/-- Folding does shorten a text: one line and five characters less, where C108 promises three or more. -/
example : encode ⟨2, ',', false, 2⟩ value = encode ⟨2, ',', true, 3⟩ value ∧
    (encode ⟨2, ',', true, 2⟩ value).length < (encode ⟨2, ',', false, 2⟩ value).length := by
  have hv : value.mapPrims Prim.plain = value := by
    rw [show value.mapPrims Prim.plain = normalize value by decide +kernel]; decide +kernel
  have hl : DocumentLayout false 2 (value.mapPrims Prim.plain) none := by
    rw [hv]
    exact .object (.plain (fun h => nomatch h) (.object (.plain (fun h => nomatch h)
      (.object (.plain (fun h => nomatch h) (.prim _) .nil)) .nil)) (.plain (fun h => nomatch h) (.prim _) .nil))
  have ht : encode ⟨2, ',', false, 2⟩ value = "a:\n  b:\n    c: null\na.b.c: null".toList := by
    rw [C56_text _ _ _ hl]
    rfl
  refine ⟨by rw [ht, none_text], ?_⟩
  rcases C108_shorter ⟨2, ',', true, 2⟩ value with h | h
  · rw [two_text, ht] at h
    exact absurd h (by decide)
  · exact h.2

end Toon
