import Verif.Lemmas.Build
import Verif.Lemmas.DecodeAll

/-! What decoding returns, for arbitrary input, without path expansion. -/

namespace Toon

section
variable {F : Type}

mutual
theorem allPrims_json (P : Prim F → Prop) (t : ETree F) : AllPrims P t.json ↔ t.AllPrims P := by
  match t with
  | .prim p => simp only [ETree.json, AllPrims, ETree.AllPrims]
  | .arr n items => simp only [ETree.json, AllPrims, ETree.AllPrims, allPrims_jsonItems P items]
  | .obj es => simp only [ETree.json, AllPrims, ETree.AllPrims, allPrims_jsonEntries P es]
theorem allPrims_jsonItems (P : Prim F → Prop) (ts : List (ETree F)) :
    AllPrimsItems P (ETree.jsonItems ts) ↔ ETree.AllPrimsItems P ts := by
  match ts with
  | [] => simp only [ETree.jsonItems, AllPrimsItems, ETree.AllPrimsItems]
  | t :: ts => simp only [ETree.jsonItems, AllPrimsItems, ETree.AllPrimsItems, allPrims_json P t, allPrims_jsonItems P ts]
theorem allPrims_jsonEntries (P : Prim F → Prop) (es : List (Str × Bool × ETree F)) :
    AllPrimsEntries P (ETree.jsonEntries es) ↔ ETree.AllPrimsEntries P es := by
  match es with
  | [] => simp only [ETree.jsonEntries, AllPrimsEntries, ETree.AllPrimsEntries]
  | (k, q, t) :: es =>
    simp only [ETree.jsonEntries, AllPrimsEntries, ETree.AllPrimsEntries, allPrims_json P t, allPrims_jsonEntries P es]
end

variable [F64 F]

theorem decodeFromLines_error {opts : DecOpts} {ls : List Str} {e : Err}
    (h : decodeStream (F := F) opts.indent opts.strict ls = .error e) :
    decodeFromLines (F := F) opts ls = .error e := by
  unfold decodeFromLines
  simp only [h, bind, Except.bind]

theorem decodeFromLines_ok {opts : DecOpts} (hx : opts.expand = false) {ls : List Str} {t : ETree F}
    (h : decodeStream (F := F) opts.indent opts.strict ls = .ok t.events) :
    decodeFromLines opts ls = .ok t.json := by
  unfold decodeFromLines
  simp only [h, buildNode_events, hx, bind, Except.bind, pure, Except.pure, Bool.false_eq_true, if_false, nodeToJson_node]

/-- Without path expansion decoding returns the value of the tree of the events. -/
theorem decodeFromLines_tree [LawfulF64 F] {opts : DecOpts} (hx : opts.expand = false) {ls : List Str} {v : Json F}
    (h : decodeFromLines opts ls = .ok v) :
    ∃ t : ETree F, decodeStream opts.indent opts.strict ls = .ok t.events ∧ Good opts.strict t ∧ v = t.json := by
  cases hs : decodeStream (F := F) opts.indent opts.strict ls with
  | error e => rw [decodeFromLines_error hs] at h; simp at h
  | ok evs =>
    obtain ⟨t, rfl, hg⟩ := decodeStream_tree hs
    rw [decodeFromLines_ok hx hs] at h
    simp only [Except.ok.injEq] at h
    exact ⟨t, rfl, hg, h.symm⟩

end

end Toon
