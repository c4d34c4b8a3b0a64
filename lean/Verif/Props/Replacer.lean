import Verif.Props.Events
import Verif.Lemmas.Replacer
import Verif.Lemmas.RoundTrip
import Verif.Lemmas.Float64
import Verif.Lemmas.Dec

/-!
# The encode replacer (C30, C31)
-/

namespace Toon

variable {S F : Type} [F64 F]

/-! ## C30: what the replacer sees and what becomes of its replies -/

/-- **C30 (identity).**  The replacer that hands every value back changes nothing: the encoded
lines are those without a replacer, whatever state the replacer threads. -/
theorem C30_identity [LawfulF64 F] (opts : EncOpts) (v : Json F) (s : S) :
    ∃ fuel, encodeLinesWith opts (fun _ v _ s => (some v, s)) fuel v s =
      some (encodeLines opts v, s) := by
  refine ⟨height v + 1, ?_⟩
  have h := transformChildren_id (height v + 1) [] (normalize v) s
    (by rw [height_normalize]; omega) (normal_normalize v)
  have h2 : applyReplacer (S := S) (fun _ v _ s => (some v, s)) (height v + 1) (normalize v) s =
      some (normalize v, s) := by
    rw [applyReplacer]
    simp only [normalize_normal (normal_normalize v)]
    exact h
  rw [encodeLinesWith, h2]
  rfl

/-- **C30 (calls).**  The first call is for the whole value, with an empty key and an empty path.
After it, taken as a collection, the calls are: one for every direct part of the replaced root
(of the root itself if the reply was `None`), and for every later call one for every direct part
of its normalized reply (none if the reply was `None`).  A part is passed with its key (an array
element with its original index in decimal) and with the path of its parent extended by that key or
index; and no call is made before the call for its parent. -/
theorem C30_calls (r : Replacer S F) (fuel : Nat) (root out : Json F) (s s' : S)
    (log : List (Call F))
    (h : applyReplacer (logged r) fuel root (s, []) = some (out, s', log)) :
    ∃ reply later,
      log = ⟨⟨[], root, []⟩, reply⟩ :: later ∧
      (let due := dueCalls [] (match reply with | some w => normalize w | none => root)
       (later.map Call.toCallArgs).Perm (due ++ later.flatMap dueAfter) ∧
       ∀ before call after, later = before ++ call :: after →
         call.toCallArgs ∈ due ++ before.flatMap dueAfter) := by
  rw [applyReplacer] at h
  simp only [logged] at h
  rcases hr : r [] root [] s with ⟨_ | w, s1⟩ <;> simp only [hr] at h
  · obtain ⟨new, hl, hn⟩ := transformChildren_log r _ _ _ _ _ _ _ _ h
    exact ⟨none, new, by simp [hl], hn⟩
  · obtain ⟨new, hl, hn⟩ := transformChildren_log r _ _ _ _ _ _ _ _ h
    exact ⟨some w, new, by simp [hl], hn⟩

/-- **C30 (root).**  A replacer without state is applied to the whole value first; a `None` for the
root is ignored. -/
theorem C30_root (r : Str → Json F → List PathSeg → Option (Json F)) (root out : Json F) :
    (∃ fuel, applyReplacer (stateless r) fuel root () = some (out, ())) ↔
    Transforms r [] (match r [] root [] with | some w => normalize w | none => root) out := by
  unfold Transforms
  cases hr : r [] root [] <;> simp only [applyReplacer, stateless, hr]

/-- **C30 (objects).**  Entries whose reply is `None` disappear; the others keep their key and their
order, and each gets the transformation of its normalized reply. -/
theorem C30_object (r : Str → Json F → List PathSeg → Option (Json F)) (path : List PathSeg)
    (es : List (Str × Json F)) (out : Json F) :
    Transforms r path (.obj es) out ↔
    ∃ es', out = .obj es' ∧
      Pairwise2 (fun a b => a.1 = b.1 ∧ Transforms r (path ++ [.key a.1]) (normalize a.2) b.2)
        (es.filterMap fun e => (r e.1 e.2 (path ++ [.key e.1])).map fun w => (e.1, w)) es' := by
  constructor
  · rintro ⟨fuel, h⟩
    cases fuel with
    | zero => simp [transformChildren] at h
    | succ n =>
      rw [transformChildren] at h
      split at h
      · simp at h
      · rename_i es' _ he
        simp only [Option.some.injEq, Prod.mk.injEq, and_true] at h
        refine ⟨es', h.symm, ?_⟩
        exact ((transformObject_iff _ r path es es').mp he).imp fun a b hab => ⟨hab.1, n, hab.2⟩
  · rintro ⟨es', rfl, h⟩
    obtain ⟨n, hn⟩ := Pairwise2.exists_fuel
      (R := fun n (a b : Str × Json F) => a.1 = b.1 ∧
        transformChildren (stateless r) n (path ++ [.key a.1]) (normalize a.2) () = some (b.2, ()))
      (fun n m a b hnm h => ⟨h.1, transformChildren_mono _ hnm h.2⟩)
      (h.imp fun a b hab => ⟨hab.2.choose, hab.1, hab.2.choose_spec⟩)
    refine ⟨n + 1, ?_⟩
    rw [transformChildren, (transformObject_iff _ r path es es').mpr hn]

/-- **C30 (arrays).**  Elements whose reply is `None` disappear; the others keep their order, and
each is asked for under its original index. -/
theorem C30_array (r : Str → Json F → List PathSeg → Option (Json F)) (path : List PathSeg)
    (items : List (Json F)) (out : Json F) :
    Transforms r path (.arr items) out ↔
    ∃ items', out = .arr items' ∧
      Pairwise2 (fun a b => Transforms r (path ++ [.index a.2]) (normalize a.1) b)
        (items.zipIdx.filterMap fun e =>
          (r (toString e.2).toList e.1 (path ++ [.index e.2])).map fun w => (w, e.2)) items' := by
  constructor
  · rintro ⟨fuel, h⟩
    cases fuel with
    | zero => simp [transformChildren] at h
    | succ n =>
      rw [transformChildren] at h
      split at h
      · simp at h
      · rename_i vs' _ he
        simp only [Option.some.injEq, Prod.mk.injEq, and_true] at h
        refine ⟨vs', h.symm, ?_⟩
        exact ((transformArray_iff _ r path items 0 vs').mp he).imp fun a b hab => ⟨n, hab⟩
  · rintro ⟨vs', rfl, h⟩
    obtain ⟨n, hn⟩ := Pairwise2.exists_fuel
      (R := fun n (a : Json F × Nat) (b : Json F) =>
        transformChildren (stateless r) n (path ++ [PathSeg.index a.2]) (normalize a.1) () = some (b, ()))
      (fun n m a b hnm h => transformChildren_mono _ hnm h) h
    refine ⟨n + 1, ?_⟩
    rw [transformChildren, (transformArray_iff _ r path items 0 vs').mpr hn]

/-- **C30 (primitives).**  A primitive has no parts: it stays as it is. -/
theorem C30_prim (r : Str → Json F → List PathSeg → Option (Json F)) (path : List PathSeg)
    (p : Prim F) (out : Json F) : Transforms r path (.prim p) out ↔ out = .prim p := by
  constructor
  · rintro ⟨_ | n, h⟩
    · simp [transformChildren] at h
    · simp only [transformChildren, Option.some.injEq, Prod.mk.injEq, and_true] at h
      exact h.symm
  · rintro rfl; exact ⟨1, rfl⟩

/-- **C30 (drop everything).**  A replacer that answers `None` for everything but the root leaves the
root's empty container. -/
theorem C30_drop_all [LawfulF64 F] (r : Str → Json F → List PathSeg → Option (Json F))
    (hroot : ∀ v, r [] v [] = some v) (hdrop : ∀ k v p, p ≠ [] → r k v p = none)
    (opts : EncOpts) (v : Json F) :
    ∃ fuel, encodeLinesWith opts (stateless r) fuel v () = some (encodeLines opts (match v with
      | .prim p => .prim p
      | .arr _ => .arr []
      | .obj _ => .obj []), ()) := by
  refine ⟨1, ?_⟩
  have ho : ∀ es : List (Str × Json F), transformObject (transformChildren (stateless r) 0) (stateless r) [] es () = some ([], ()) := by
    intro es
    refine (transformObject_iff _ r [] es []).mpr ?_
    rw [List.filterMap_eq_nil_iff.mpr (by simp [hdrop])]
    exact .nil
  have ha : ∀ vs : List (Json F), transformArray (transformChildren (stateless r) 0) (stateless r) [] 0 vs () = some ([], ()) := by
    intro vs
    refine (transformArray_iff _ r [] vs 0 []).mpr ?_
    rw [List.filterMap_eq_nil_iff.mpr (by simp [hdrop])]
    exact .nil
  have hap : applyReplacer (stateless r) 1 (normalize v) () =
      transformChildren (stateless r) 1 [] (normalize v) () := by
    simp only [applyReplacer, stateless, hroot, normalize_normal (normal_normalize v)]
  rw [encodeLinesWith, hap]
  cases v with
  | prim p => simp only [normalize, transformChildren, encodeLines]
  | arr vs => rw [normalize, transformChildren, ha]; simp only [encodeLines, normalize, normalizeItems]
  | obj es => rw [normalize, transformChildren, ho]; simp only [encodeLines, normalize, normalizeEntries]

/-- **C30 (normalized results).**  Whatever the replacer returns, the encoder gets a value without
NaN, infinities and negative zero: the lines are those of encoding the result of the
transformation without a replacer. -/
theorem C30_encode [LawfulF64 F] (opts : EncOpts) (r : Replacer S F) (fuel : Nat) (v : Json F)
    (s s' : S) (lines : List Str)
    (h : encodeLinesWith opts r fuel v s = some (lines, s')) :
    ∃ out, applyReplacer r fuel (normalize v) s = some (out, s') ∧ PlainNumbers out ∧
      lines = encodeLines opts out := by
  rw [encodeLinesWith] at h
  split at h
  · simp at h
  · rename_i out s1 ha
    simp only [Option.some.injEq, Prod.mk.injEq] at h
    obtain ⟨rfl, rfl⟩ := h
    have hn : Normal out := by
      rw [applyReplacer] at ha
      split at ha
      · exact transformChildren_normal _ _ _ _ _ _ _ (normal_normalize _) ha
      · exact transformChildren_normal _ _ _ _ _ _ _ (normal_normalize _) ha
    exact ⟨out, ha, (normal_iff out).mp hn, by rw [encodeLines, normalize_normal hn]⟩

/-- **C30 (events).**  The events emitted with a replacer are those of the result of the transformation, emitted without a
replacer; building a value from them gives that result. -/
theorem C30_events [LawfulF64 F] (r : Replacer S F) (fuel : Nat) (v : Json F) (s s' : S) (evs : List (Ev F))
    (h : encodeStreamEventsWith r fuel v s = some (evs, s')) :
    ∃ out, applyReplacer r fuel (normalize v) s = some (out, s') ∧ PlainNumbers out ∧ evs = encodeStreamEvents out ∧
      (buildNode evs).map nodeToJson = .ok out := by
  rw [encodeStreamEventsWith] at h
  split at h
  · simp at h
  · rename_i out s1 ha
    simp only [Option.some.injEq, Prod.mk.injEq] at h
    obtain ⟨rfl, rfl⟩ := h
    have hn : Normal out := by
      rw [applyReplacer] at ha
      split at ha
      · exact transformChildren_normal _ _ _ _ _ _ _ (normal_normalize _) ha
      · exact transformChildren_normal _ _ _ _ _ _ _ (normal_normalize _) ha
    exact ⟨out, ha, (normal_iff out).mp hn, by rw [encodeStreamEvents, normalize_normal hn], C15_build_emit out⟩

/-! ## C31: termination -/

/-- **C31 (termination).**  If no reply is nested deeper than the value it replaces, the
transformation terminates, with a recursion depth bounded by the nesting of the value. -/
theorem C31_terminates (r : Replacer S F)
    (hr : ∀ k v p s w s', r k v p s = (some w, s') → height w ≤ height v)
    (opts : EncOpts) (v : Json F) (s : S) :
    ∃ lines s', encodeLinesWith opts r (height v + 1) v s = some (lines, s') := by
  have : ∃ x, applyReplacer r (height v + 1) (normalize v) s = some x := by
    rw [applyReplacer]
    rcases he : r [] (normalize v) [] s with ⟨_ | w, s1⟩ <;> simp only []
    · exact transformChildren_ok r hr _ _ _ _ (by rw [height_normalize]; omega)
    · refine transformChildren_ok r hr _ _ _ _ ?_
      have := hr _ _ _ _ _ _ he
      rw [height_normalize] at this ⊢; omega
  obtain ⟨⟨out, s1⟩, hx⟩ := this
  rw [encodeLinesWith, hx]
  exact ⟨_, _, rfl⟩

/-- **C31 (non-termination).**  If every reply is a non-empty container — for example a replacer
that wraps its argument in an array — the transformation of any value never terminates. -/
theorem C31_diverges (r : Replacer S F)
    (hr : ∀ k v p s, ∃ w s', r k v p s = (some w, s') ∧ HasParts w)
    (opts : EncOpts) (v : Json F) (s : S) (fuel : Nat) : encodeLinesWith opts r fuel v s = none := by
  obtain ⟨w, s1, he, hw⟩ := hr [] (normalize v) [] s
  rw [encodeLinesWith, applyReplacer]
  simp only [he, transformChildren_none r hr fuel [] _ s1 (hasParts_normalize hw)]

/-! ## The hypotheses are met -/

section examples

/-- A document with a nested array. -/
private def doc : Json B64 :=
  .obj [("a".toList, .arr [.prim (.bool true), .prim .null]), ("secret".toList, .prim (.bool false))]

/-- Drops `secret`, keeps the rest: never returns anything deeper, so `C31_terminates` applies. -/
private def dropSecret : Replacer Nat B64 := fun k v _ n =>
  (if k = "secret".toList then none else some v, n + 1)

example : ∀ k v p s w s', dropSecret k v p s = (some w, s') → height w ≤ height v := by
  intro k v p s w s' h
  simp only [dropSecret] at h
  split at h <;> simp at h
  rw [h.1]; exact Nat.le_refl _

/-- Five calls, the entry dropped, the order kept. -/
example : applyReplacer dropSecret 3 doc 0 =
    some (.obj [("a".toList, .arr [.prim (.bool true), .prim .null])], 5) := by
  decide +kernel

/-- `C30_calls` on this run: the log exists. -/
example : (encodeStreamEventsWith dropSecret 3 doc 0).isSome = true := by decide +kernel
example : (applyReplacer (logged dropSecret) 3 doc (0, [])).isSome = true := by decide +kernel

/-- `C31_diverges`: wrapping every value in an array. -/
example : ∀ k (v : Json B64) p (s : Unit), ∃ w s',
    stateless (fun _ v _ => some (.arr [v])) k v p s = (some w, s') ∧ HasParts w :=
  fun k v p s => ⟨.arr [v], s, rfl, by simp [HasParts]⟩

/-- `C30_drop_all`. -/
example : (∀ v : Json B64, (fun (_ : Str) v (p : List PathSeg) => if p = [] then some v else none) [] v [] = some v) ∧
    ∀ (k : Str) (v : Json B64) p, p ≠ [] →
      (fun (_ : Str) v (p : List PathSeg) => if p = [] then some v else none) k v p = none :=
  ⟨fun _ => rfl, fun _ _ _ h => by simp [h]⟩

end examples

end Toon
