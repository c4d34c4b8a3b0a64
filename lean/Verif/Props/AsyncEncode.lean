import Verif.Lemmas.AsyncEncode
import Verif.Lemmas.Dec
import Verif.Lemmas.Float64

/-!
# Asynchronous encode streams (C32, C33)
-/

namespace Toon

variable {F : Type} [F64 F]

/-- **C32.**  Polling the asynchronous event stream any number of times gives, poll by poll, the
events of `encode_stream_events` in order and then `None` for ever. -/
theorem C32_polls (v : Json F) (n : Nat) :
    pollN EventStream.poll n (EventStream.new v) =
      (List.range n).map fun i => (encodeStreamEvents v)[i]? := by
  rw [pollN_get EventStream.poll EventStream.rest EventStream.Inv EventStream.step n _
    (EventStream.new_inv v), EventStream.new_rest]

/-- **C32 (collected).**  Collecting the stream ends, with exactly the events of the synchronous
encoder. -/
theorem C32_collect (v : Json F) :
    ∃ fuel, collectStream EventStream.poll fuel (EventStream.new v) = some (encodeStreamEvents v) :=
  ⟨_, by
    rw [collectStream_eq EventStream.poll EventStream.rest EventStream.Inv EventStream.step _ _
      (EventStream.new_inv v) (Nat.lt_succ_self _), EventStream.new_rest]⟩

/-- **C33.**  Polling the asynchronous line stream any number of times gives, poll by poll, the
lines of `encode_lines` in order and then `None` for ever. -/
theorem C33_polls (opts : EncOpts) (v : Json F) (n : Nat) :
    pollN LineStream.poll n (LineStream.new opts v) =
      (List.range n).map fun i => (encodeLines opts v)[i]? := by
  rw [pollN_get LineStream.poll LineStream.rest (fun _ => True)
    (fun st _ => ⟨st.step.1, st.step.2, trivial⟩) n _ trivial]
  rfl

/-- **C33 (collected).** -/
theorem C33_collect (opts : EncOpts) (v : Json F) :
    ∃ fuel, collectStream LineStream.poll fuel (LineStream.new opts v) = some (encodeLines opts v) :=
  ⟨_, by
    rw [collectStream_eq LineStream.poll LineStream.rest (fun _ => True)
      (fun st _ => ⟨st.step.1, st.step.2, trivial⟩) _ _ trivial (Nat.lt_succ_self _)]
    rfl⟩

/-! ## With a replacer

Creating the stream runs the replacer once, to the end: the state in which it is left is the one the
synchronous function leaves it in, and polling takes no replacer. -/

/-- **C32 (with a replacer).**  Creating the event stream with a replacer and polling it any number of
times gives the events of `encode_stream_events` with that replacer, one per poll and then `None`; the
replacer is left in the same state, and the one call does not end exactly when the other does not. -/
theorem C32_polls_replaced {S : Type} (r : Replacer S F) (fuel : Nat) (v : Json F) (s : S) (n : Nat) :
    (EventStream.newWith r fuel v s).map (fun (st, s') => (pollN EventStream.poll n st, s')) =
      (encodeStreamEventsWith r fuel v s).map fun (evs, s') => ((List.range n).map fun i => evs[i]?, s') := by
  rw [EventStream.newWith, encodeStreamEventsWith]
  rcases applyReplacer r fuel (normalize v) s with _ | ⟨out, s'⟩
  · rfl
  · simp only [Option.map_some]
    rw [pollN_get EventStream.poll EventStream.rest EventStream.Inv EventStream.step n _
      (EventStream.start_inv out), EventStream.start_rest]

/-- **C32 (collected, with a replacer).**  `encode_events_async` with a replacer ends whenever
`encode_stream_events` does, with the same events and the replacer in the same state. -/
theorem C32_collect_replaced {S : Type} (r : Replacer S F) (fuel : Nat) (v : Json F) (s : S) :
    ∃ enough, ∀ steps ≥ enough, encodeEventsAsyncWith r fuel v s steps = encodeStreamEventsWith r fuel v s := by
  unfold encodeEventsAsyncWith EventStream.newWith encodeStreamEventsWith
  rcases applyReplacer r fuel (normalize v) s with _ | ⟨out, s'⟩
  · exact ⟨0, fun _ _ => rfl⟩
  · refine ⟨(emitEvents out).length + 1, fun steps hs => ?_⟩
    simp only []
    rw [collectStream_eq EventStream.poll EventStream.rest EventStream.Inv EventStream.step _ _
      (EventStream.start_inv out) (by rw [EventStream.start_rest]; omega), EventStream.start_rest]
    rfl

/-- **C33 (with a replacer).** -/
theorem C33_polls_replaced {S : Type} (opts : EncOpts) (r : Replacer S F) (fuel : Nat) (v : Json F) (s : S)
    (n : Nat) :
    (LineStream.newWith opts r fuel v s).map (fun (st, s') => (pollN LineStream.poll n st, s')) =
      (encodeLinesWith opts r fuel v s).map fun (ls, s') => ((List.range n).map fun i => ls[i]?, s') := by
  rw [LineStream.newWith, encodeLinesWith]
  rcases applyReplacer r fuel (normalize v) s with _ | ⟨out, s'⟩
  · rfl
  · simp only [Option.map_some]
    rw [pollN_get LineStream.poll LineStream.rest (fun _ => True)
      (fun st _ => ⟨st.step.1, st.step.2, trivial⟩) n _ trivial]
    rfl

/-- **C33 (one call).**  `encode_lines_async` gives the lines, and `encode_async` the text, of the
synchronous functions, with and without a replacer. -/
theorem C33_async {S : Type} (opts : EncOpts) (r : Replacer S F) (fuel : Nat) (v : Json F) (s : S) :
    encodeLinesAsync opts v = encodeLines opts v ∧ encodeAsync opts v = encode opts v ∧
      encodeLinesAsyncWith opts r fuel v s = encodeLinesWith opts r fuel v s ∧
      encodeAsyncWith opts r fuel v s =
        (encodeLinesWith opts r fuel v s).map fun (ls, s') => (joinWith '\n' ls, s') := by
  refine ⟨rfl, rfl, ?_, ?_⟩
  · rw [encodeLinesAsyncWith, encodeLinesWith]
    rcases applyReplacer r fuel (normalize v) s with _ | ⟨out, s'⟩ <;> rfl
  · rw [encodeAsyncWith, encodeLinesAsyncWith, encodeLinesWith]
    rcases applyReplacer r fuel (normalize v) s with _ | ⟨out, s'⟩ <;> rfl

/-- **C33 (length).**  At every point `len` is the number of all lines, those already taken included,
and `is_empty` tells whether there were any: neither says how much is left. -/
theorem C33_len (opts : EncOpts) (v : Json F) (n : Nat) :
    (afterN LineStream.poll n (LineStream.new opts v)).len = (encodeLines opts v).length ∧
      ((afterN LineStream.poll n (LineStream.new opts v)).isEmpty = true ↔ encodeLines opts v = []) := by
  unfold LineStream.len LineStream.isEmpty
  rw [LineStream.afterN_lines]
  exact ⟨rfl, List.isEmpty_iff⟩

/-- A replacer that counts its calls and drops `b`. -/
example : (EventStream.newWith (F := B64) (S := Nat)
      (fun k v _ n => (if k = "b".toList then none else some v, n + 1)) 4
      (.obj [("a".toList, .prim .null), ("b".toList, .prim .null)]) 0).map
        (fun (st, s') => (pollN EventStream.poll 5 st, s')) =
    some ([some .startObj, some (.key "a".toList false), some (.prim .null), some .endObj, none], 3) := by
  decide +kernel

/-- A nested value: eight events, then `None`. -/
example : pollN EventStream.poll 10
    (EventStream.new (F := B64) (.obj [("a".toList, .arr [.prim .null, .arr []])])) =
    [some .startObj, some (.key "a".toList false), some (.startArr 2), some (.prim .null),
      some (.startArr 0), some .endArr, some .endArr, some .endObj, none, none] := by
  decide +kernel

end Toon
