import Verif.Lemmas.Diff
import Verif.Props.Layout

/-!
# C72: a change to one value changes only its lines
-/

namespace Toon

section
variable {F : Type} [F64 F] [LawfulF64 F]

/-- C72.  Without key folding, the lines of an object are the lines of its entries one after the other: the lines of
some entries followed by those of the others. -/
theorem C72_entries (opts : EncOpts) (ho : opts.fold = false) (a b : List (Str × Json F)) :
    encodeLines opts (.obj (a ++ b)) = encodeLines opts (.obj a) ++ encodeLines opts (.obj b) := lines_append ho a b

/-- C72.  Without key folding, an object under a key is written as by itself, one level deeper. -/
theorem C72_nested (opts : EncOpts) (ho : opts.fold = false) (k : Str) (es : List (Str × Json F)) :
    encodeLines opts (.obj [(k, .obj es)]) =
      (keyTextOf k ++ [':']) :: (encodeLines opts (.obj es)).map (pushed opts.indent) := lines_nested ho k es

/-- C72.  Without key folding: whatever value stands at a place inside objects, the lines above and the lines below
those of the entry are the same; the lines of the entry are those of the entry alone, pushed to the right. -/
theorem C72_change (opts : EncOpts) (ho : opts.fold = false) (outer : List (Surround F)) (s : Surround F) :
    ∃ above below, ∀ v, encodeLines opts (within outer (s.around v)) =
      above ++ (encodeLines opts (.obj [(s.key, v)])).map (pushed (opts.indent * outer.length)) ++ below := by
  have one : ∀ (t : Surround F) (w : Json F), encodeLines opts (t.around w) =
      encodeLines opts (.obj t.before) ++ encodeLines opts (.obj [(t.key, w)]) ++ encodeLines opts (.obj t.after) := by
    intro t w
    rw [Surround.around, lines_append ho, ← List.singleton_append, lines_append ho, List.append_assoc]
  induction outer with
  | nil =>
    refine ⟨encodeLines opts (.obj s.before), encodeLines opts (.obj s.after), fun v => ?_⟩
    rw [within, one s v]
    have hid : pushed (opts.indent * ([] : List (Surround F)).length) = id := funext fun line => rfl
    rw [hid, List.map_id]
  | cons t outer ih =>
    obtain ⟨above, below, h⟩ := ih
    refine ⟨encodeLines opts (.obj t.before) ++ (keyTextOf t.key ++ [':']) :: above.map (pushed opts.indent),
      below.map (pushed opts.indent) ++ encodeLines opts (.obj t.after), fun v => ?_⟩
    have hobj : ∃ es, within outer (s.around v) = .obj es := by
      cases outer with
      | nil => exact ⟨_, rfl⟩
      | cons t ts => exact ⟨_, rfl⟩
    obtain ⟨es, he⟩ := hobj
    have h' := h v
    rw [he] at h'
    rw [within, one t, he, lines_nested ho, h']
    simp only [List.map_append, List.map_map, List.append_assoc, List.cons_append, List.append_cancel_left_eq, List.cons.injEq,
      true_and]
    congr 1
    apply List.map_congr_left
    intro line _
    simp only [Function.comp, pushed]
    rw [← List.append_assoc, List.replicate_append_replicate, List.length_cons, Nat.mul_add, Nat.mul_one, Nat.add_comm]

/-- C72.  Without key folding, replacing a primitive by a primitive inside objects replaces one line by one line. -/
theorem C72_one_line (opts : EncOpts) (ho : opts.fold = false) (outer : List (Surround F)) (s : Surround F) :
    ∃ above below, ∀ p, ∃ line, encodeLines opts (within outer (s.around (.prim p))) = above ++ line :: below := by
  obtain ⟨above, below, h⟩ := C72_change opts ho outer s
  refine ⟨above, below, fun p => ?_⟩
  rw [h]
  obtain ⟨ls, h1, h2⟩ := lines_object (F := F) ho [(s.key, .prim p)]
  rw [h2]
  rw [normalizeEntries, normalize, normalizeEntries] at h1
  cases h1 with
  | folded h1 => simp at h1
  | plain _ h1 h3 =>
    cases h1; cases h3
    refine ⟨pushed (opts.indent * outer.length)
      (rowText opts.indent (0, keyTextOf s.key ++ ':' :: ' ' :: tokenText opts.delim (normPrim p))), ?_⟩
    rw [Layout.entriesRows, Layout.entryRows, Layout.entriesRows]
    simp

/-- C72.  With any options, key folding included: if the objects around the place have other entries, then whatever value
stands at the place, the lines above and the lines below those of the entry are the same; the first line of the entry
begins with its key, at the level of the place, and the other lines of the entry are further to the right. -/
theorem C72_folded (opts : EncOpts) (outer : List (Surround F)) (s : Surround F)
    (ho : ∀ t ∈ outer, t.Shared) (hs : s.Shared) :
    ∃ above below, ∀ v, ∃ (t : Str) (deeper : List Str), encodeLines opts (within outer (s.around v)) =
      above ++ pushed (opts.indent * outer.length) (keyTextOf s.key ++ t) ::
        deeper.map (pushed (opts.indent * (outer.length + 1))) ++ below := lines_within opts s hs outer ho

end

section
variable {F : Type} [F64 F]

/-- C72.  In an array with a primitive and a container every element has lines of its own: apart from the number in
the header, nothing changes when other elements are added, removed or changed.  The lines of an element begin with a
hyphen. -/
theorem C72_items (opts : EncOpts) : ∃ block : Json F → List Str,
    (∀ v, ∃ t ls, block v = (List.replicate opts.indent ' ' ++ '-' :: t) :: ls) ∧
    ∀ items, Mixed items →
      encodeLines opts (.arr items) = (lengthMark opts.delim items.length ++ [':']) :: items.flatMap block ∧
      ∀ k, encodeLines opts (.obj [(k, .arr items)]) =
        (keyTextOf k ++ (lengthMark opts.delim items.length ++ [':'])) :: items.flatMap block := by
  refine ⟨fun v => (encodeItem opts (normalize v) 1).map (renderLine opts.indent), fun v => ?_, fun items hm => ?_⟩
  · obtain ⟨t, ls, h⟩ := encodeItem_hyphen opts (normalize v) 1
    refine ⟨t, ls.map (renderLine opts.indent), ?_⟩
    simp only [h, List.map_cons, renderLine, Nat.mul_one]
  · obtain ⟨h1, h2⟩ := mixed_array opts hm
    refine ⟨?_, fun k => ?_⟩
    · rw [lines_root, h1, h2, List.map_flatMap]
    · rw [lines_array, h1, h2, List.map_flatMap]

/-- C72.  In an array that is written as a table with these columns every element has one line of its own: apart from
the number in the header, nothing changes when other rows are added, removed or changed. -/
theorem C72_rows (opts : EncOpts) (cols : List Str) : ∃ row : Json F → Str, ∀ items, IsTable items cols →
    encodeLines opts (.arr items) = tableText opts.delim cols items.length :: items.map row ∧
    ∀ k, encodeLines opts (.obj [(k, .arr items)]) =
      (keyTextOf k ++ tableText opts.delim cols items.length) :: items.map row := by
  refine ⟨rowLine opts cols, fun items h => ?_⟩
  obtain ⟨h1, h2⟩ := table_array opts h
  exact ⟨by rw [lines_root, h1, h2], fun k => by rw [lines_array, h1, h2]⟩

end

/-! ## Where the lines around a change do change -/

namespace DiffExample

def a : Str := "a".toList
def b : Str := "b".toList
def c : Str := "c".toList

theorem no_chain {s t p : List Str} {n : Nat} {k : Str} {v : Json B64} (h : ∀ k w, v ≠ .obj [(k, w)]) :
    ¬ ∃ ks leaf, Foldable s t p n k v ks leaf := by
  rintro ⟨ks, leaf, ⟨h1, _⟩, h2, _⟩
  cases ks with
  | nil => exact h2 rfl
  | cons x ks => exact h _ _ h1

theorem plain_doc (opts : EncOpts) (v : Json B64) (l : Layout B64) (hv : v.mapPrims Prim.plain = v)
    (h : DocumentLayout opts.fold opts.flattenDepth v l) (ls : List Str)
    (hl : (l.documentRows opts.delim).map (rowText opts.indent) = ls) : encodeLines opts v = ls := by
  rw [C56_lines opts v l (by rw [hv]; exact h), hl]

end DiffExample

open DiffExample in
/-- Finding F32.  This is not so in general: with key folding, a second entry in an inner object changes the line of the
first; and when one cell of a table becomes a container, every line of the table changes. -/
theorem C72_unstable :
    encodeLines (F := B64) { indent := 2, delim := ',', fold := true, flattenDepth := 9 } (.obj [(a, .obj [(b, .prim .null)])]) =
      ["a.b: null".toList] ∧
    encodeLines (F := B64) { indent := 2, delim := ',', fold := true, flattenDepth := 9 }
        (.obj [(a, .obj [(b, .prim .null), (c, .prim .null)])]) =
      ["a:".toList, "  b: null".toList, "  c: null".toList] ∧
    encodeLines (F := B64) defaultEnc (.arr [.obj [(a, .prim .null)], .obj [(a, .prim .null)]]) =
      ["[2]{a}:".toList, "  null".toList, "  null".toList] ∧
    encodeLines (F := B64) defaultEnc (.arr [.obj [(a, .prim .null)], .obj [(a, .arr [])]]) =
      ["[2]:".toList, "  - a: null".toList, "  - a[0]:".toList] := by
  refine ⟨?_, ?_, ?_, ?_⟩
  · refine plain_doc _ _ (.object [("a.b".toList, .prim .null)]) (by decide +kernel) ?_ _ ?_
    · exact .object (.folded (ks := [b]) (leaf := .prim .null) rfl
        ⟨⟨rfl, by decide, Or.inr (by intro k w h; cases h)⟩, by decide, by decide, by decide, by decide⟩ (.prim _) .nil)
    · simp only [Layout.documentRows, Layout.entriesRows, Layout.entryRows, tokenText]; decide +kernel
  · refine plain_doc _ _ (.object [(a, .object [(b, .prim .null), (c, .prim .null)])]) (by decide +kernel) ?_ _ ?_
    · exact .object (.plain (fun _ => no_chain (by intro k w h; cases h)) (.object
        (.plain (fun _ => no_chain (by intro k w h; cases h)) (.prim _)
          (.plain (fun _ => no_chain (by intro k w h; cases h)) (.prim _) .nil))) .nil)
    · simp only [Layout.documentRows, Layout.entriesRows, Layout.entryRows, tokenText]; decide +kernel
  · refine plain_doc _ _ (.table [a] [[.null], [.null]]) (by decide +kernel) ?_ _ ?_
    · exact .table (isTable_of_header (by decide +kernel))
        (.cons ⟨_, rfl, .cons rfl .nil⟩ (.cons ⟨_, rfl, .cons rfl .nil⟩ .nil))
    · simp only [Layout.documentRows, Layout.entryRows, tableText, cellsText, List.map, tokenText]; decide +kernel
  · refine plain_doc _ _ (.list [.object [(a, .prim .null)], .object [(a, .inline [])]]) (by decide +kernel) ?_ _ ?_
    · refine .list (fun h => ?_) (fun ⟨cols, h⟩ => ?_)
        (.cons (.object (.prim _) .nil) (.cons (.object (.inline rfl) .nil) .nil))
      · rw [arePrims_iff] at h; revert h; decide +kernel
      · have := header_of_isTable h
        have e : tableHeader (F := B64) [.obj [(a, .prim .null)], .obj [(a, .arr [])]] = none := by decide +kernel
        rw [e] at this; cases this
    · simp only [Layout.documentRows, Layout.entryRows, Layout.itemsRows, Layout.itemRows, Layout.entriesRows, inlineText,
        cellsText, List.map, tokenText]
      decide +kernel

/-! ## Non-vacuity -/

/-- A place two objects deep, with entries on all sides. -/
example : within [⟨[("x".toList, .prim .null)], "o".toList, []⟩] (Surround.around
    ⟨[], "k".toList, [("y".toList, .arr [])]⟩ (.prim (.bool true))) =
    (.obj [("x".toList, .prim .null), ("o".toList, .obj [("k".toList, .prim (.bool true)), ("y".toList, .arr [])])] : Json B64) := rfl

example : (⟨[("x".toList, .prim .null)], "o".toList, []⟩ : Surround B64).Shared := .inl (by simp)

example : defaultEnc.fold = false := rfl

/-- An array with a primitive and a container. -/
example : Mixed (F := B64) [.prim .null, .obj [], .prim (.bool true)] := ⟨⟨.null, by simp⟩, .inr ⟨[], by simp⟩⟩

/-- A table. -/
example : IsTable (F := B64) [.obj [("a".toList, .prim .null)]] ["a".toList] := isTable_of_header (by decide +kernel)

end Toon
