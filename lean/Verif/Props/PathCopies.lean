import Verif.Lemmas.PathCopiesExact
import Verif.Lemmas.Float64

/-!
# C94: what encoding spends on paths

`encodePaths opts stack v` (see `Model/PathCopies.lean`) is the number of characters of the paths that `encode_lines` puts together in a
stack of `stack` calls.  `longestPath` is the length of the longest path in a value, `nodes` the number of values in it.
-/

namespace Toon

section
variable {F : Type} [F64 F]

/-- C94.  Without key folding the path does not matter: the lines of an object are the same whatever is said to stand above it. -/
theorem C94_unused (opts : EncOpts) (hf : opts.fold = false) (es : List (Str × Json F)) (depth : Nat) (rlk rlk' : Option (List Str))
    (path path' : Option Str) (rem rem' : Option Nat) :
    encodeObject opts es depth rlk path rem = encodeObject opts es depth rlk' path' rem' :=
  (encodeObject_canon hf es depth none rlk none path none rem).symm.trans (encodeObject_canon hf es depth none rlk' none path' none rem')

/-- C94.  And yet it is put together for every entry: without arrays, the characters that are copied are those of the dotted paths of
all the entries, and of the dotted keys at the top. -/
theorem C94_exact (opts : EncOpts) (hf : opts.fold = false) (es : List (Str × Json F)) (ha : arrayless (.obj es : Json F) = true)
    (stack : Nat) (hs : 2 * height (.obj es) + 2 ≤ stack) :
    encodePaths opts stack (.obj es) =
      (((es.map Prod.fst).filter (·.contains '.')).map List.length).sum + (pathLengths 0 (.obj es : Json F)).sum := by
  rw [pathLengths]
  exact encodePaths_exact hf es (by rwa [arrayless] at ha) stack hs

/-- C94.  With arrays or without, no more than twice the longest path for every value. -/
theorem C94_plain (opts : EncOpts) (hf : opts.fold = false) (stack : Nat) (v : Json F) :
    encodePaths opts stack v ≤ 2 * longestPath v * nodes v := by
  have := encodePaths_le opts stack v
  rwa [pathRate, hf] at this

/-- C94.  With key folding, no more than six times the longest path for every value. -/
theorem C94_fold (opts : EncOpts) (stack : Nat) (v : Json F) : encodePaths opts stack v ≤ 6 * longestPath v * nodes v := by
  refine Nat.le_trans (encodePaths_le opts stack v) (Nat.mul_le_mul_right _ (Nat.mul_le_mul_right _ ?_))
  unfold pathRate
  split <;> omega

/-- C94.  No multiple of the text that is written bounds it, even without key folding and for a value of two levels (F46). -/
theorem C94_not_linear (opts : EncOpts) (hf : opts.fold = false) (stack : Nat) (hs : 6 ≤ stack) (c : Nat) :
    ∃ v : Json F, DistinctKeys v ∧ height v = 2 ∧ c * (encode opts v).length < encodePaths opts stack v := by
  refine ⟨longLabel (c * (10 + opts.indent) + 1), longLabel_distinct _, ?_, ?_⟩
  · simp only [longLabel, height, heightEntries]
    generalize List.range (c * (10 + opts.indent) + 1) = l
    have : heightEntries (l.map fun i => (List.replicate (i + 1) 'a', (.prim .null : Json F))) = 0 := by
      induction l with
      | nil => rfl
      | cons x l ih => simp [heightEntries, height, ih]
    rw [this]
    rfl
  · refine Nat.lt_of_lt_of_le ?_ (longLabel_paths hf _ stack hs)
    refine Nat.lt_of_le_of_lt (Nat.mul_le_mul_left c (longLabel_text hf _)) ?_
    rw [← Nat.mul_assoc]
    exact Nat.mul_lt_mul_of_pos_right (by omega) (Nat.mul_pos (by omega) (by omega))

end

/-! ### Examples -/

namespace PathCopiesExample

def plain : EncOpts := ⟨2, ',', false, 9⟩
def safe : EncOpts := ⟨2, ',', true, 9⟩

/-- `{"server": {"tls": {"on": true, "v": null}, "port": null}}`: the paths `server`, `server.tls`, `server.tls.on`, `server.tls.v` and
`server.port`. -/
def config : List (Str × Json B64) :=
  [("server".toList, .obj [("tls".toList, .obj [("on".toList, .prim (.bool true)), ("v".toList, .prim .null)]), ("port".toList, .prim .null)])]

example : pathLengths 0 (.obj config) = ["server".length, "server.tls".length, "server.tls.on".length, "server.tls.v".length,
    "server.port".length] := by decide +kernel

example : encodePaths plain 9 (.obj config) = 52 ∧ longestPath (.obj config) = "server.port.".length + 2 ∧ nodes (.obj config) = 6 := by
  decide +kernel

/-- The theorem meets the example. -/
example : encodePaths plain 9 (.obj config) = 0 + 52 :=
  C94_exact plain rfl config (by decide +kernel) 9 (by decide +kernel)

/-- Inside a list paths start anew, and the first entry of an element has none. -/
example : encodePaths plain 20 (.obj [("list".toList, .arr [.obj [("a".toList, .prim .null), ("bc".toList, .obj [("d".toList, .prim .null)])],
      .prim .null])] : Json B64) = "list".length + "bc".length + "bc.d".length := by
  decide +kernel

/-- With folding: the path `a`, the key `a`, the folded key `a.b.c`; no absolute path is needed at the top. -/
example : encodePaths safe 9 (.obj [("a".toList, .obj [("b".toList, .obj [("c".toList, .prim .null)])])] : Json B64) = 1 + 1 + 5 := by
  decide +kernel

end PathCopiesExample

end Toon
