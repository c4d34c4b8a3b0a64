import Verif.Lemmas.JoinedNormal
import Verif.Props.Layout
import Verif.Props.Draft
import Verif.Props.RoundTrip
import Verif.Props.Survive
import Verif.Props.Folded
import Verif.Props.LineCount
import Verif.Lemmas.Float64
import Verif.Lemmas.Dec

/-!
# C99: folding is a change of the value

What folding writes is what is written without folding for a value in which the keys of the folded chains are joined
(`Layout.joined`, `Spec/Joined.lean`), unless joining keys makes a list of objects into a table.
-/

namespace Toon

section
variable {F : Type} [F64 F] [LawfulF64 F]

private theorem joined_plain (opts : EncOpts) (v : Json F) (l : Layout F)
    (hl : DocumentLayout opts.fold opts.flattenDepth (v.mapPrims Prim.plain) l) : l.joined.mapPrims Prim.plain = l.joined := by
  rw [← normalize_plain] at hl ⊢
  exact normalize_normal (value_joinedNormal hl (normal_normalize v))

private theorem joined_layout (opts : EncOpts) (v : Json F) (l : Layout F)
    (hl : DocumentLayout opts.fold opts.flattenDepth (v.mapPrims Prim.plain) l) : ∃ l',
    DocumentLayout false opts.flattenDepth l.joined l' ∧
    encodeLines { opts with fold := false } l.joined = (l'.documentRows opts.delim).map (rowText opts.indent) := by
  obtain ⟨l', h, _⟩ := document_layout { opts with fold := false } l.joined
  exact ⟨l', h, C56_lines { opts with fold := false } l.joined l' (by rw [joined_plain opts v l hl]; exact h)⟩

/-- C99.  Written without folding, the value with joined keys never has more lines than the folded text. -/
theorem C99_lines (opts : EncOpts) (v : Json F) (l : Layout F)
    (hl : DocumentLayout opts.fold opts.flattenDepth (v.mapPrims Prim.plain) l) :
    (encodeLines { opts with fold := false } l.joined).length ≤ (encodeLines opts v).length := by
  obtain ⟨l', h1, h2⟩ := joined_layout opts v l hl
  rw [h2, C56_lines opts v l hl, List.length_map, List.length_map, documentRows_length, documentRows_length]
  exact (document_joinedLines hl h1).1

/-- C99.  It has the same lines if and only if no list has become a table. -/
theorem C99_same (opts : EncOpts) (v : Json F) (l : Layout F)
    (hl : DocumentLayout opts.fold opts.flattenDepth (v.mapPrims Prim.plain) l) :
    encodeLines { opts with fold := false } l.joined = encodeLines opts v ↔ l.ListsStay := by
  constructor
  · intro h
    obtain ⟨l', h1, h2⟩ := joined_layout opts v l hl
    rw [h2, C56_lines opts v l hl] at h
    have := congrArg List.length h
    rw [List.length_map, List.length_map, documentRows_length, documentRows_length] at this
    exact (document_joinedLines hl h1).2 this
  · intro h
    rw [C56_lines opts v l hl, C56_lines { opts with fold := false } l.joined l (by
      rw [joined_plain opts v l hl]; exact value_joined hl h)]

/-- C99.  The value with joined keys has nothing left to fold, if the limit for folding is more than the depth of the value. -/
theorem C99_again (opts : EncOpts) (v : Json F) (hn : height v < opts.flattenDepth) (l : Layout F)
    (hl : DocumentLayout opts.fold opts.flattenDepth (v.mapPrims Prim.plain) l) :
    encodeLines opts l.joined = encodeLines { opts with fold := false } l.joined := by
  cases hf : opts.fold with
  | false => have : { opts with fold := false } = opts := by cases opts; simp_all
             rw [this]
  | true =>
    obtain ⟨l', h1, h2⟩ := joined_layout opts v l hl
    rw [h2]
    refine C56_lines opts l.joined l' ?_
    rw [joined_plain opts v l hl, hf]
    rw [hf] at hl
    refine document_again hl h1 ?_
    rw [← normalize_plain, height_normalize]
    exact hn

/-- C99.  So folding it again gives the same text, if and only if no list has become a table. -/
theorem C99_stable (opts : EncOpts) (v : Json F) (hn : height v < opts.flattenDepth) (l : Layout F)
    (hl : DocumentLayout opts.fold opts.flattenDepth (v.mapPrims Prim.plain) l) :
    encodeLines opts l.joined = encodeLines opts v ↔ l.ListsStay := by
  rw [C99_again opts v hn l hl, C99_same opts v l hl]

/-- C99.  It is what the folded text is read as without path expansion, exactly if its own text is read back. -/
theorem C99_read (opts : EncOpts) (strict : Bool) (v : Json F) (hi : 0 < opts.indent) (hd : GoodDelim opts.delim) (l : Layout F)
    (hl : DocumentLayout opts.fold opts.flattenDepth (v.mapPrims Prim.plain) l) (hs : l.ListsStay)
    (hk : DistinctKeys l.joined) (hz : Sized l.joined) :
    decode { indent := opts.indent, strict := strict, expand := false } (encode opts v) = .ok l.joined ↔ Writable true l.joined := by
  have he : encode { opts with fold := false } l.joined = encode opts v := by
    unfold encode
    rw [(C99_same opts v l hl).mpr hs]
  have hp : PlainNumbers l.joined := by
    rw [← C22_identity, normalize_plain]
    exact joined_plain opts v l hl
  have := C73_survives_exact { opts with fold := false } strict l.joined hi hd rfl hk hz
  rw [he] at this
  rw [this]
  exact ⟨fun h => h.1, fun h => ⟨h, hp, value_joinedAligned hl hs⟩⟩

/-- C99.  Folding, reading without path expansion and folding again gives the same text. -/
theorem C99_round (opts : EncOpts) (strict : Bool) (v : Json F) (hi : 0 < opts.indent) (hd : GoodDelim opts.delim)
    (hn : height v < opts.flattenDepth) (l : Layout F)
    (hl : DocumentLayout opts.fold opts.flattenDepth (v.mapPrims Prim.plain) l) (hs : l.ListsStay)
    (hk : DistinctKeys l.joined) (hz : Sized l.joined) (hw : Writable true l.joined) :
    ∃ w : Json F, decode { indent := opts.indent, strict := strict, expand := false } (encode opts v) = .ok w ∧ encode opts w = encode opts v := by
  refine ⟨l.joined, (C99_read opts strict v hi hd l hl hs hk hz).mpr hw, ?_⟩
  unfold encode
  rw [(C99_stable opts v hn l hl).mpr hs]

end

/-! ## Examples -/

namespace JoinedExample

def ka : Str := "a".toList
def kb : Str := "b".toList
def kx : Str := "x".toList

/-- A list of one object, whose second entry is a chain. -/
def listed : Json B64 := .arr [.obj [(kx, .prim .null), (ka, .obj [(kb, .prim (.bool true))])]]

def listedLayout : Layout B64 := .list [.object [(kx, .prim .null), (dotted [ka, kb], .prim (.bool true))]]

/-- A chain, and an object that is no chain. -/
def mixed : Json B64 := .obj [(ka, .obj [(kb, .prim (.bool true))]), (kx, .arr [.prim .null, .arr []])]

def mixedLayout : Layout B64 := .object [(dotted [ka, kb], .prim (.bool true)), (kx, .list [.prim .null, .inline []])]

theorem chain_foldable {siblings taken path : List Str} {n : Nat} (hn : 2 ≤ n) (hs : dotted [ka, kb] ∉ siblings)
    (ht : dotted (path ++ [ka, kb]) ∉ taken) :
    Foldable (F := B64) siblings taken path n ka (.obj [(kb, .prim (.bool true))]) [kb] (.prim (.bool true)) :=
  ⟨⟨rfl, hn, Or.inr (by simp)⟩, by simp, by decide, hs, ht⟩

theorem prim_notFoldable {siblings taken path : List Str} {n : Nat} {k : Str} {p : Prim B64} :
    ¬ ∃ ks leaf, Foldable siblings taken path n k (.prim p) ks leaf := by
  rintro ⟨ks, leaf, ⟨h, _⟩, hne, _⟩
  cases ks with
  | nil => exact hne rfl
  | cons s ss => simp [nested] at h

theorem arr_notFoldable {siblings taken path : List Str} {n : Nat} {k : Str} {vs : List (Json B64)} :
    ¬ ∃ ks leaf, Foldable siblings taken path n k (.arr vs) ks leaf := by
  rintro ⟨ks, leaf, ⟨h, _⟩, hne, _⟩
  cases ks with
  | nil => exact hne rfl
  | cons s ss => simp [nested] at h

theorem listed_layout {n : Nat} (hn : 2 ≤ n) : DocumentLayout true n (listed.mapPrims Prim.plain) listedLayout := by
  rw [show listed.mapPrims Prim.plain = listed by decide +kernel]
  refine .list ?_ ?_ (.cons (.object (.prim .null) (.folded (leaf := .prim (.bool true)) rfl (chain_foldable hn (by decide) (by simp)) (.prim _) .nil)) .nil)
  · rintro ⟨ps, h⟩
    cases ps <;> simp [ArePrims] at h
  · rintro ⟨cols, h⟩
    obtain ⟨h1, ⟨es, rest, h2, h3⟩, h4⟩ := h
    simp only [List.cons.injEq, Json.obj.injEq] at h2
    rw [← h2.1] at h3
    obtain ⟨es', h5, _, h6⟩ := h4 _ (List.mem_cons_self)
    obtain ⟨p, hp⟩ := h6 ka (by rw [← h3]; decide)
    rw [← Json.obj.inj h5] at hp
    revert hp
    simp [lookupKey, ka, kx]

theorem mixed_layout {n : Nat} (hn : 2 ≤ n) : DocumentLayout true n (mixed.mapPrims Prim.plain) mixedLayout := by
  rw [show mixed.mapPrims Prim.plain = mixed by decide +kernel]
  refine .object (.folded (leaf := .prim (.bool true)) rfl (chain_foldable hn (by decide) (by decide)) (.prim _)
    (.plain (fun _ => arr_notFoldable) (.list ?_ ?_ (.cons (.prim .null) (.cons (.inline (ps := []) rfl) .nil))) .nil))
  · rintro ⟨ps, h⟩
    match ps, h with
    | [p, q], h => simp [ArePrims] at h
  · rintro ⟨cols, _, ⟨es, rest, h2, _⟩, _⟩
    simp at h2

end JoinedExample

open JoinedExample

/-- A value for which the hypotheses of `C99_round` hold. -/
example : ∃ w : Json B64, decode ⟨2, true, false⟩ (encode ⟨2, ',', true, 9⟩ mixed) = .ok w ∧
    encode ⟨2, ',', true, 9⟩ w = encode ⟨2, ',', true, 9⟩ mixed := by
  refine C99_round ⟨2, ',', true, 9⟩ true mixed (by decide) (by decide) (by decide) mixedLayout (mixed_layout (by decide)) ?_ ?_ ?_ ?_
  · simp only [mixedLayout, Layout.ListsStay, Layout.ListsStayEntries, Layout.ListsStayItems, Layout.ListsStayItem, Layout.joinedItems, Layout.joined]
    refine ⟨trivial, ⟨?_, trivial, trivial, trivial⟩, trivial⟩
    rintro ⟨cols, _, ⟨es, rest, h2, _⟩, _⟩
    simp at h2
  · simp only [mixedLayout, Layout.joined, Layout.joinedEntries, Layout.joinedItems, DistinctKeys, DistinctKeysEntries, DistinctKeysItems, List.map_nil, and_true]
    decide
  · simp [mixedLayout, Layout.joined, Layout.joinedEntries, Layout.joinedItems, Sized, SizedEntries, SizedItems]
  · simp only [mixedLayout, Layout.joined, Layout.joinedEntries, Layout.joinedItems, Writable, WritableEntries, WritableItems, List.map_nil]
    refine ⟨by simp, trivial, by simp, ⟨by simp, ?_, Or.inr ⟨trivial, ⟨by simp, by simp, Or.inr trivial⟩, trivial⟩⟩, trivial⟩
    rintro _ cols ⟨_, ⟨es, rest, h2, _⟩, _⟩
    simp at h2

/-- C99, F50.  Folding and reading can make a list into a table: the text is not the same the second time. -/
theorem C99_becomes_table : ∃ v w : Json B64, ∀ opts : EncOpts, opts.fold = true → 0 < opts.indent → GoodDelim opts.delim →
    height v < opts.flattenDepth → ∀ strict : Bool,
    decode { indent := opts.indent, strict := strict, expand := false } (encode opts v) = .ok w ∧ encodeLines opts w ≠ encodeLines opts v := by
  refine ⟨listed, listedLayout.joined, fun opts hf hi hd hn strict => ?_⟩
  have h2 : 2 ≤ opts.flattenDepth := by
    have : height listed = 3 := by decide
    omega
  have hl : DocumentLayout opts.fold opts.flattenDepth (listed.mapPrims Prim.plain) listedLayout := by rw [hf]; exact listed_layout h2
  constructor
  · refine (C97_value opts strict listed hi hd (by simp [listed, Sized, SizedEntries, SizedItems]) listedLayout hl _).mpr
      ⟨.arr 1 [.obj [(kx, false, .prim .null), (dotted [ka, kb], false, .prim (.bool true))]], ?_, by decide +kernel⟩
    simp only [listedLayout, Layout.Means, Layout.MeansItems, Layout.MeansEntries]
    exact ⟨by decide, _, rfl, _, _, rfl, ⟨_, rfl, _, _, rfl, Or.inr ⟨by simp, rfl, by decide +kernel, rfl⟩, _, _, rfl,
      Or.inr ⟨by simp, rfl, by decide +kernel, rfl⟩, rfl⟩, rfl⟩
  · intro h
    refine ((C99_stable opts listed hn listedLayout hl).mp h).1 ⟨[kx, dotted [ka, kb]], by simp, ⟨_, _, rfl, rfl⟩, ?_⟩
    intro item hm
    simp only [Layout.joinedItems, List.mem_singleton] at hm
    refine ⟨_, hm, rfl, fun c hc => ?_⟩
    simp only [List.mem_cons, List.not_mem_nil, or_false] at hc
    rcases hc with rfl | rfl
    · exact ⟨_, rfl⟩
    · exact ⟨_, rfl⟩

/-- C99.  With a limit that cuts chains, the rest of a chain is folded the second time, so `C99_again` needs its hypothesis. -/
theorem C99_limit : ∃ (v : Json B64) (l : Layout B64), DocumentLayout true 2 (v.mapPrims Prim.plain) l ∧ l.ListsStay ∧
    ∀ opts : EncOpts, opts.fold = true → opts.flattenDepth = 2 → encodeLines opts l.joined ≠ encodeLines opts v := by
  let inner : Json B64 := .obj [(kx, .obj [(ka, .prim .null)])]
  let l : Layout B64 := .object [(dotted [ka, kb], .object [(kx, .object [(ka, .prim .null)])])]
  let v : Json B64 := .obj [(ka, .obj [(kb, inner)])]
  have hv : v.mapPrims Prim.plain = v := by decide +kernel
  have hl : DocumentLayout true 2 (v.mapPrims Prim.plain) l := by
    rw [hv]
    refine .object (.folded (ks := [kb]) (leaf := inner) rfl ⟨⟨rfl, by decide, Or.inl rfl⟩, by simp, by decide, by decide, by decide⟩
      (.object (.plain ?_ (.object (.plain (fun _ => prim_notFoldable) (.prim .null) .nil)) .nil)) .nil)
    rintro _ ⟨ks, leaf, ⟨_, h, _⟩, _⟩
    simp at h
  refine ⟨v, l, hl, by simp [l, Layout.ListsStay, Layout.ListsStayEntries], fun opts hf hd h => ?_⟩
  have hj : l.joined.mapPrims Prim.plain = l.joined := by decide +kernel
  have hl2 : DocumentLayout true 2 (l.joined.mapPrims Prim.plain)
      (.object [(dotted [ka, kb], .object [(dotted [kx, ka], .prim .null)])] : Layout B64) := by
    rw [hj]
    refine .object (.plain (fun _ => notFoldable_dot (by decide)) (.object (.folded (ks := [ka]) (leaf := .prim .null) rfl
      ⟨⟨rfl, by decide, Or.inr (by simp)⟩, by simp, by decide, by decide, by decide⟩ (.prim .null) .nil)) .nil)
  have h1 := C98_lines opts v l (by rw [hf, hd]; exact hl)
  have h2 := C98_lines opts l.joined _ (by rw [hf, hd]; exact hl2)
  rw [h, h1] at h2
  revert h2
  simp [l, Layout.documentLines, Layout.entriesLines, Layout.lines]

end Toon
