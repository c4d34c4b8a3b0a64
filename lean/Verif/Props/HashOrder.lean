import Verif.Lemmas.HashOrder
import Verif.Lemmas.Float64
import Verif.Lemmas.Dec

/-!
# C86: the order in which hash sets keep their keys never shows

Rust's `HashSet` is seeded at random: two runs of the same program on the same input keep the keys in different orders.  Both runs return
the same.
-/

namespace Toon

section
variable {F : Type} [F64 F]

/-- C86: whatever the sets look like while a text is decoded, the outcome (value or error) is the one of `decode`. -/
theorem C86_decode (opts : DecOpts) (text : Str) (outcome : Except Err (Json F)) :
    DecodesTo opts text outcome ↔ outcome = decode opts text := by
  constructor
  · intro h
    unfold decode decodeFromLines
    cases h with
    | unread h => rw [h]; rfl
    | @read evs r h hs =>
      rw [h]
      have hb := finished_alike (shaken_alike hs (AlikeState.refl _))
      rw [← buildNode_finished] at hb
      simp only [bind, Except.bind, pure, Except.pure]
      cases hr : finished r with
      | error e =>
        cases hn : buildNode evs with
        | error f => rw [hr, hn] at hb; simp only [AlikeResult] at hb; rw [hb]
        | ok n => rw [hr, hn] at hb; exact hb.elim
      | ok m =>
        cases hn : buildNode evs with
        | error f => rw [hr, hn] at hb; exact hb.elim
        | ok n =>
          rw [hr, hn] at hb
          simp only [AlikeResult] at hb
          simp only
          split
          · unfold expandPathsSafe
            rw [Alike.expand opts.strict n m hb]
          · rw [Alike.json n m hb]
  · rintro rfl
    unfold decode decodeFromLines
    cases h : decodeStream (F := F) opts.indent opts.strict (splitOn '\n' text) with
    | error e => exact .unread h
    | ok evs =>
      simp only [bind, Except.bind]
      rw [buildNode_finished]
      exact .read h (shaken_still _ _)

/-- C86: whatever the set of dotted root keys looks like while a value is encoded, the lines are those of `encodeLines`. -/
theorem C86_encode (opts : EncOpts) (v : Json F) (lines : List Str) : EncodesTo opts v lines ↔ lines = encodeLines opts v := by
  have key : ∀ {entries fields : List (Str × Json F)} {set : List Str}, normalize (.obj entries) = .obj fields →
      SameMembers set ((fields.map Prod.fst).filter (·.contains '.')) →
      (encodeEntries opts (fields.map Prod.fst) (some set) none opts.flattenDepth fields 0).map (renderLine opts.indent) =
        encodeLines opts (.obj entries) := by
    intro entries fields set hn hs
    unfold encodeLines encodeJsonValue
    rw [hn]
    congr 1
    unfold encodeValue
    simp only
    rw [encodeObject]
    exact encodeEntries_same opts (a := some set) (b := some _) hs _ _ _ _ _
  constructor
  · intro h
    cases h with
    | object hn hs => exact key hn hs
    | other _ => rfl
  · rintro rfl
    match v with
    | .prim p => exact .other rfl
    | .arr items => exact .other rfl
    | .obj entries =>
      rw [← key (entries := entries) (set := _) (by rw [normalize]) (SameMembers.refl _)]
      exact .object (by rw [normalize]) (SameMembers.refl _)

end

/-! ### Examples -/

namespace HashExample

def str (s : String) : Json B64 := .prim (.str s.toList)
def strN (s : String) : Node B64 := .prim (.str s.toList)

/-- Two quoted keys with dots, which are not expanded, and a bare one, which is. -/
def text : Str := "\"a.b\": x\nc.d: y\n\"e.f\": z".toList

def events : List (Ev B64) := [.startObj, .key "a.b".toList true, .prim (.str "x".toList), .key "c.d".toList false,
  .prim (.str "y".toList), .key "e.f".toList true, .prim (.str "z".toList), .endObj]

theorem streamed : decodeStream 2 true (splitOn '\n' text) = .ok events := by decide +kernel

def entries : List (Str × Node B64) := [("a.b".toList, strN "x"), ("c.d".toList, strN "y")]

/-- The sixth event leaves the set of quoted keys in the order `e.f`, `a.b`; then it is turned round, and one key is there twice. -/
theorem shaken : Shaken ⟨[], none⟩ events (.ok ⟨[], some (.obj (entries ++ [("e.f".toList, strN "z")]) ["a.b".toList, "e.f".toList, "a.b".toList])⟩) := by
  refine .step rfl (AlikeState.refl _) (.step rfl (AlikeState.refl _) (.step rfl (AlikeState.refl _) (.step rfl (AlikeState.refl _)
    (.step rfl (AlikeState.refl _) (.step (t := ⟨[.obj entries (some "e.f".toList) ["e.f".toList, "a.b".toList]], none⟩)
      (u := ⟨[.obj entries (some "e.f".toList) ["a.b".toList, "e.f".toList, "a.b".toList]], none⟩) rfl ?_
      (.step rfl (AlikeState.refl _) (.step rfl (AlikeState.refl _) (.done _))))))))
  refine ⟨.cons (.obj _ (AlikeEntries.refl _) ?_) .nil, .none⟩
  intro k
  simp only [List.mem_cons, List.not_mem_nil, or_false]
  constructor
  · rintro (rfl | rfl) <;> simp
  · rintro (rfl | rfl | rfl) <;> simp

def value : Json B64 := .obj [("a.b".toList, str "x"), ("c".toList, .obj [("d".toList, str "y")]), ("e.f".toList, str "z")]

theorem decodes : DecodesTo (F := B64) ⟨2, true, true⟩ text (.ok value) := .read streamed shaken

example : decode ⟨2, true, true⟩ text = .ok value := ((C86_decode _ _ _).1 decodes).symm

/-- What the set holds does show: were `a.b` missing in it, `a.b` would be expanded. -/
example : (expandPathsSafe true (.obj (entries ++ [("e.f".toList, strN "z")]) ["e.f".toList])).map nodeToJson ≠ .ok value := by decide +kernel

/-- In `x` the chain `a.b` is not folded, for `x.a.b` is a key of the root. -/
def nested : List (Str × Json B64) := [("x".toList, .obj [("a".toList, .obj [("b".toList, str "p")]), ("c".toList, str "q")]),
  ("x.a.b".toList, str "r"), ("y.z".toList, str "s")]

def folding : EncOpts := ⟨2, ',', true, 9⟩

theorem encodes : EncodesTo folding (.obj nested)
    ["x:".toList, "  a:".toList, "    b: p".toList, "  c: q".toList, "x.a.b: r".toList, "y.z: s".toList] := by
  have h := EncodesTo.object (opts := folding) (entries := nested) (fields := nested) (set := ["y.z".toList, "x.a.b".toList, "y.z".toList])
    (by decide +kernel) (by
      have : (nested.map Prod.fst).filter (·.contains '.') = ["x.a.b".toList, "y.z".toList] := by decide +kernel
      rw [this]
      intro k
      simp only [List.mem_cons, List.not_mem_nil, or_false]
      constructor
      · rintro (rfl | rfl | rfl) <;> simp
      · rintro (rfl | rfl) <;> simp)
  rw [(C86_encode _ _ _).1 h] at h
  have hl : encodeLines folding (.obj nested) =
    ["x:".toList, "  a:".toList, "    b: p".toList, "  c: q".toList, "x.a.b: r".toList, "y.z: s".toList] := by
    refine Except.ok.inj ((runEncodeLines_ok folding 20 (.obj nested) (by decide +kernel)).symm.trans ?_)
    decide +kernel
  rwa [hl] at h

/-- What the set holds does show: were it empty, the chain would be folded, and decoding with expansion would find a conflict. -/
example : encodeEntries folding (nested.map Prod.fst) (some []) none 9 nested 0 =
    [⟨0, "x:".toList⟩, ⟨1, "a.b: p".toList⟩, ⟨1, "c: q".toList⟩, ⟨0, "x.a.b: r".toList⟩, ⟨0, "y.z: s".toList⟩] := by
  have h := (encRuns folding 20).object nested 0 (some []) none none [] (by decide +kernel)
  rw [encodeObject] at h
  exact Except.ok.inj (h.symm.trans (by decide +kernel))

end HashExample

end Toon
