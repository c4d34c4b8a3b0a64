import Verif.Model.ConvFrames
import Verif.Spec.ConvFrames
import Verif.Lemmas.JsonFrames
import Verif.Lemmas.Host
import Verif.Lemmas.Replacer
import Verif.Lemmas.Copies
import Verif.Lemmas.HashOrder

/-! The conversions with a bounded stack do what the models of the conversions do. -/

namespace Toon

/-- If `fits`, the run has `n` steps and the result `a`; otherwise it overflows. -/
def Run.Within {α : Type} (x : Run α) (fits : Prop) (n : Nat) (a : α) : Prop :=
  (fits → x.Is n a) ∧ (¬ fits → x.result = .error .overflow)

theorem Run.Within.bind {α β : Type} {x : Run α} {f : α → Run β} {fits : Prop} {n k : Nat} {a : α} {b : β}
    (h : x.Within fits n a) (h2 : (f a).Is k b) : (x >>= f).Within fits (n + k) b :=
  ⟨fun hf => (h.1 hf).bind h2, fun hf => by rw [Run.result_bind, h.2 hf]⟩

theorem Run.Within.tick {β : Type} {n k : Nat} {f : Unit → Run β} {fits : Prop} {b : β} (h : (f ()).Within fits k b) :
    (tick n >>= f).Within fits (n + k) b :=
  ⟨fun hf => Run.Is.tick (h.1 hf), fun hf => by rw [Run.result_bind, Run.result_tick]; exact h.2 hf⟩

theorem Run.Within.map {α β : Type} {x : Run α} {fits : Prop} {n : Nat} {a : α} (h : x.Within fits n a) (g : α → β) :
    (x >>= fun a => pure (g a)).Within fits n (g a) :=
  ⟨fun hf => (h.1 hf).bind (k := 0) (b := g a) (Run.Is.pure (g a)), fun hf => by rw [Run.result_bind, h.2 hf]⟩

theorem Run.Within.congr {α : Type} {x : Run α} {fits fits' : Prop} {n n' : Nat} {a a' : α} (h : x.Within fits n a)
    (hf : fits ↔ fits') (hn : n = n') (ha : a = a') : x.Within fits' n' a' := by
  subst hn ha
  exact ⟨fun h' => h.1 (hf.mpr h'), fun h' => h.2 (fun hh => h' (hf.mp hh))⟩

theorem overEach_within {α β : Type} {f : α → β → Run β} {g : β → α → β} {c need : α → Nat} {stack : Nat} :
    ∀ {xs : List α}, (∀ x ∈ xs, ∀ out, (f x out).Within (need x ≤ stack) (c x) (g out x)) → ∀ out : β,
      (overEach f xs out).Within (∀ x ∈ xs, need x ≤ stack) (xs.map c).sum (xs.foldl g out)
  | [], _, out => ⟨fun _ => Run.Is.pure out, fun h => absurd (by simp) h⟩
  | x :: xs, h, out => by
    have hx := h x (by simp) out
    have ih := overEach_within (xs := xs) (fun y hy => h y (by simp [hy])) (g out x)
    constructor
    · intro hf
      rw [overEach, List.map_cons, List.sum_cons, List.foldl_cons]
      exact (hx.1 (hf x (by simp))).bind (ih.1 (fun y hy => hf y (by simp [hy])))
    · intro hf
      rw [overEach, Run.result_bind]
      by_cases hn : need x ≤ stack
      · rw [(hx.1 hn).2]
        refine ih.2 (fun hall => hf ?_)
        intro y hy
        rcases List.mem_cons.mp hy with rfl | hy
        · exact hn
        · exact hall y hy
      · rw [hx.2 hn]

theorem foldl_push {α β : Type} (g : α → β) (xs : List α) (out : List β) :
    xs.foldl (fun out x => out ++ [g x]) out = out ++ xs.map g := by
  induction xs generalizing out with
  | nil => simp
  | cons x xs ih => rw [List.foldl_cons, ih]; simp

section
variable {F : Type}

theorem wayDownItems_le {per n : Nat} : ∀ {vs : List (Json F)}, wayDownItems per vs ≤ n ↔ ∀ v ∈ vs, wayDown per v ≤ n
  | [] => by simp [wayDownItems]
  | v :: vs => by
    rw [wayDownItems, Nat.max_le, wayDownItems_le (vs := vs)]
    simp

theorem wayDownEntries_le {per n : Nat} : ∀ {es : List (Str × Json F)}, wayDownEntries per es ≤ n ↔ ∀ e ∈ es, wayDown per e.2 ≤ n
  | [] => by simp [wayDownEntries]
  | (k, v) :: es => by
    rw [wayDownEntries, Nat.max_le, wayDownEntries_le (es := es)]
    simp

theorem wayDown_pos (per : Nat) (hp : 0 < per) (v : Json F) : 0 < wayDown per v := by
  cases v <;> rw [wayDown] <;> omega

theorem nodesItems_map (vs : List (Json F)) : nodesItems vs = (vs.map nodes).sum := by
  induction vs with
  | nil => rfl
  | cons v vs ih => rw [nodesItems, ih]; rfl

theorem nodesEntries_map (es : List (Str × Json F)) : nodesEntries es = (es.map fun e => nodes e.2).sum := by
  induction es with
  | nil => rfl
  | cons e es ih => rw [nodesEntries, ih]; rfl

theorem mul_map_sum {α : Type} (m : Nat) (c : α → Nat) (xs : List α) : (xs.map fun x => m * c x).sum = m * (xs.map c).sum := by
  induction xs with
  | nil => rfl
  | cons x xs ih => simp only [List.map_cons, List.sum_cons, ih, Nat.mul_add]

/-- What one pass of the loop over the elements does. -/
theorem push_within {α β : Type} {x : Run α} {fits : Prop} {n : Nat} {a : α} (h : x.Within fits n a) (out : List β) (g : α → β) :
    (x >>= fun v => pure (out ++ [g v])).Within fits n (out ++ [g a]) :=
  h.map fun v => out ++ [g v]

variable [F64 F]

theorem visitNormalize_within (visit : Nat) : ∀ (stack : Nat) (v : Json F),
    (visitNormalize visit stack v).Within (wayDown 1 v ≤ stack) (visit * nodes v) (normalize v)
  | 0, v => ⟨fun h => by have := wayDown_pos 1 (by omega) v; omega, fun _ => by cases v <;> rfl⟩
  | stack + 1, .prim p => by
    rw [visitNormalize, normalize]
    refine ⟨fun _ => ⟨?_, rfl⟩, fun h => by rw [wayDown] at h; omega⟩
    show visit + 0 = visit * nodes (.prim p)
    rw [nodes]; omega
  | stack + 1, .arr vs => by
    rw [visitNormalize, normalize, normalizeItems_eq_map]
    have h := overEach_within (stack := stack) (xs := vs) (need := wayDown 1) (c := fun v => visit * nodes v)
      (g := fun out v => out ++ [normalize v]) (fun v _ out => push_within (visitNormalize_within visit stack v) out (fun v => v)) []
    refine (Run.Within.tick (h.map Json.arr)).congr ?_ ?_ ?_
    · rw [wayDown, ← wayDownItems_le]; omega
    · rw [nodes, nodesItems_map, mul_map_sum, Nat.mul_add]; omega
    · rw [foldl_push]; rfl
  | stack + 1, .obj es => by
    rw [visitNormalize, normalize, normalizeEntries_eq_map]
    have h := overEach_within (stack := stack) (xs := es) (need := fun e => wayDown 1 e.2) (c := fun e => visit * nodes e.2)
      (g := fun out e => out ++ [(e.1, normalize e.2)])
      (fun e _ out => push_within (visitNormalize_within visit stack e.2) out (fun v => (e.1, v))) []
    refine (Run.Within.tick (h.map Json.obj)).congr ?_ ?_ ?_
    · rw [wayDown, ← wayDownEntries_le]; omega
    · rw [nodes, nodesEntries_map, mul_map_sum, Nat.mul_add]; omega
    · rw [foldl_push]; rfl

theorem runFromHost_within : ∀ (stack : Nat) (v : Json F),
    (runFromHost stack v).Within (wayDown 1 v ≤ stack) (nodes v) (fromHost v)
  | 0, v => ⟨fun h => by have := wayDown_pos 1 (by omega) v; omega, fun _ => by cases v <;> rfl⟩
  | stack + 1, .prim p => by
    rw [runFromHost]
    exact ⟨fun _ => ⟨rfl, rfl⟩, fun h => by rw [wayDown] at h; omega⟩
  | stack + 1, .arr vs => by
    rw [runFromHost, fromHost]
    have h := overEach_within (stack := stack) (xs := vs) (need := wayDown 1) (c := nodes)
      (g := fun out v => out ++ [fromHost v]) (fun v _ out => push_within (runFromHost_within stack v) out (fun v => v)) []
    refine (Run.Within.tick (h.map Json.arr)).congr ?_ ?_ ?_
    · rw [wayDown, ← wayDownItems_le]; omega
    · rw [nodes, nodesItems_map]
    · rw [foldl_push, List.nil_append, show fromHostItems vs = vs.map fromHost from by
        clear h
        induction vs with
        | nil => rfl
        | cons v vs ih => rw [fromHostItems, ih]; rfl]
  | stack + 1, .obj es => by
    rw [runFromHost, fromHost]
    have h := overEach_within (stack := stack) (xs := es) (need := fun e => wayDown 1 e.2) (c := fun e => nodes e.2)
      (g := fun out e => out ++ [(e.1, fromHost e.2)])
      (fun e _ out => push_within (runFromHost_within stack e.2) out (fun v => (e.1, v))) []
    refine (Run.Within.tick (h.map Json.obj)).congr ?_ ?_ ?_
    · rw [wayDown, ← wayDownEntries_le]; omega
    · rw [nodes, nodesEntries_map]
    · rw [foldl_push, List.nil_append, show fromHostEntries es = es.map fun e => (e.1, fromHost e.2) from by
        clear h
        induction es with
        | nil => rfl
        | cons e es ih => rw [fromHostEntries, ih]; rfl]

theorem toHostEntries_foldl (es : List (Str × Json F)) (m : List (Str × Json F)) :
    toHostEntries m es = es.foldl (fun m e => mapInsert m e.1 (toHost e.2)) m := by
  induction es generalizing m with
  | nil => rw [toHostEntries]; rfl
  | cons e es ih => rw [toHostEntries, ih]; rfl

theorem runToHost_within : ∀ (stack : Nat) (v : Json F),
    (runToHost stack v).Within (wayDown 1 v ≤ stack) (nodes v) (toHost v)
  | 0, v => ⟨fun h => by have := wayDown_pos 1 (by omega) v; omega, fun _ => by cases v <;> rfl⟩
  | stack + 1, .prim p => by
    rw [runToHost]
    exact ⟨fun _ => ⟨rfl, rfl⟩, fun h => by rw [wayDown] at h; omega⟩
  | stack + 1, .arr vs => by
    rw [runToHost, toHost]
    have h := overEach_within (stack := stack) (xs := vs) (need := wayDown 1) (c := nodes)
      (g := fun out v => out ++ [toHost v]) (fun v _ out => push_within (runToHost_within stack v) out (fun v => v)) []
    refine (Run.Within.tick (h.map Json.arr)).congr ?_ ?_ ?_
    · rw [wayDown, ← wayDownItems_le]; omega
    · rw [nodes, nodesItems_map]
    · rw [foldl_push, List.nil_append, show toHostItems vs = vs.map toHost from by
        clear h
        induction vs with
        | nil => rfl
        | cons v vs ih => rw [toHostItems, ih]; rfl]
  | stack + 1, .obj es => by
    rw [runToHost, toHost, toHostEntries_foldl]
    have h := overEach_within (stack := stack) (xs := es) (need := fun e => wayDown 1 e.2) (c := fun e => nodes e.2)
      (f := fun (e : Str × Json F) map => do
        let v ← runToHost stack e.2
        pure (mapInsert map e.1 v))
      (g := fun m e => mapInsert m e.1 (toHost e.2))
      (fun e _ out => (runToHost_within stack e.2).map fun v => mapInsert out e.1 v) []
    refine (Run.Within.tick (h.map Json.obj)).congr ?_ ?_ rfl
    · rw [wayDown, ← wayDownEntries_le]; omega
    · rw [nodes, nodesEntries_map]

omit [F64 F] in
theorem nodesToJson_map (ns : List (Node F)) : nodesToJson ns = ns.map nodeToJson := by
  induction ns with
  | nil => rfl
  | cons n ns ih => rw [nodesToJson, ih]; rfl

omit [F64 F] in
theorem entriesToJson_map (ns : List (Str × Node F)) : entriesToJson ns = ns.map fun e => (e.1, nodeToJson e.2) := by
  induction ns with
  | nil => rfl
  | cons n ns ih => rw [entriesToJson, ih]; rfl

omit [F64 F] in
theorem runNodeToJson_within : ∀ (stack : Nat) (n : Node F),
    (runNodeToJson stack n).Within (wayDown 1 (nodeToJson n) ≤ stack) (nodes (nodeToJson n)) (nodeToJson n)
  | 0, n => ⟨fun h => by have := wayDown_pos 1 (by omega) (nodeToJson n); omega, fun _ => by cases n <;> rfl⟩
  | stack + 1, .prim p => by
    rw [runNodeToJson, nodeToJson]
    exact ⟨fun _ => ⟨rfl, rfl⟩, fun h => by rw [wayDown] at h; omega⟩
  | stack + 1, .arr ns => by
    rw [runNodeToJson, nodeToJson, nodesToJson_map]
    have h := overEach_within (stack := stack) (xs := ns) (need := fun n => wayDown 1 (nodeToJson n)) (c := fun n => nodes (nodeToJson n))
      (g := fun out n => out ++ [nodeToJson n]) (fun n _ out => push_within (runNodeToJson_within stack n) out (fun v => v)) []
    refine (Run.Within.tick (h.map Json.arr)).congr ?_ ?_ ?_
    · rw [wayDown, Nat.add_comm, Nat.add_le_add_iff_right, wayDownItems_le, List.forall_mem_map]
    · rw [nodes, nodesItems_map, List.map_map]; simp [Function.comp_def]
    · rw [foldl_push]; rfl
  | stack + 1, .obj ns _ => by
    rw [runNodeToJson, nodeToJson, entriesToJson_map]
    have h := overEach_within (stack := stack) (xs := ns) (need := fun e => wayDown 1 (nodeToJson e.2))
      (c := fun e => nodes (nodeToJson e.2)) (g := fun out e => out ++ [(e.1, nodeToJson e.2)])
      (fun e _ out => push_within (runNodeToJson_within stack e.2) out (fun v => (e.1, v))) []
    refine (Run.Within.tick (h.map Json.obj)).congr ?_ ?_ ?_
    · rw [wayDown, Nat.add_comm, Nat.add_le_add_iff_right, wayDownEntries_le, List.forall_mem_map]
    · rw [nodes, nodesEntries_map, List.map_map]; simp [Function.comp_def]
    · rw [foldl_push]; rfl

omit [F64 F] in
theorem emitItems_foldl (vs : List (Json F)) (out : List (Ev F)) :
    vs.foldl (fun out v => out ++ emitEvents v) out = out ++ emitItems vs := by
  induction vs generalizing out with
  | nil => simp [emitItems]
  | cons v vs ih => rw [List.foldl_cons, ih, emitItems]; simp

omit [F64 F] in
theorem emitEntries_foldl (es : List (Str × Json F)) (out : List (Ev F)) :
    es.foldl (fun out e => out ++ [.key e.1 (!isValidUnquotedKey e.1)] ++ emitEvents e.2) out = out ++ emitEntries es := by
  induction es generalizing out with
  | nil => simp [emitEntries]
  | cons e es ih => rw [List.foldl_cons, ih, emitEntries]; simp

omit [F64 F] in
theorem runEmit_within : ∀ (stack : Nat) (v : Json F) (out : List (Ev F)),
    (runEmit stack v out).Within (wayDown 1 v ≤ stack) (nodes v) (out ++ emitEvents v)
  | 0, v, _ => ⟨fun h => by have := wayDown_pos 1 (by omega) v; omega, fun _ => by cases v <;> rfl⟩
  | stack + 1, .prim p, out => by
    rw [runEmit, emitEvents]
    exact ⟨fun _ => ⟨rfl, rfl⟩, fun h => by rw [wayDown] at h; omega⟩
  | stack + 1, .arr vs, out => by
    rw [runEmit, emitEvents]
    have h := overEach_within (stack := stack) (xs := vs) (need := wayDown 1) (c := nodes)
      (g := fun out v => out ++ emitEvents v) (fun v _ out => runEmit_within stack v out) (out ++ [.startArr vs.length])
    refine (Run.Within.tick (h.map (fun events => events ++ [.endArr]))).congr ?_ ?_ ?_
    · rw [wayDown, ← wayDownItems_le]; omega
    · rw [nodes, nodesItems_map]
    · rw [emitItems_foldl]; simp
  | stack + 1, .obj es, out => by
    rw [runEmit, emitEvents]
    have h := overEach_within (stack := stack) (xs := es) (need := fun e => wayDown 1 e.2) (c := fun e => nodes e.2)
      (f := fun (e : Str × Json F) events => runEmit stack e.2 (events ++ [.key e.1 (!isValidUnquotedKey e.1)]))
      (g := fun out e => out ++ [.key e.1 (!isValidUnquotedKey e.1)] ++ emitEvents e.2)
      (fun e _ out => runEmit_within stack e.2 _) (out ++ [.startObj])
    refine (Run.Within.tick (h.map (fun events => events ++ [.endObj]))).congr ?_ ?_ ?_
    · rw [wayDown, ← wayDownEntries_le]; omega
    · rw [nodes, nodesEntries_map]
    · rw [emitEntries_foldl]; simp

end

end Toon
