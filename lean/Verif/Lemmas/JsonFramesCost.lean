import Verif.Lemmas.JsonFrames
import Verif.Lemmas.EncFramesMono
import Verif.Lemmas.Copies

/-! The printer in a larger stack, and the number of its calls. -/

namespace Toon

section
variable {F : Type}

theorem Run.steps_bind_pure {α β : Type} {x : Run α} {g : α → β} {n : Nat} (h : x.steps ≤ n) : (x >>= fun a => pure (g a)).steps ≤ n :=
  Run.steps_bind_le (b := 0) h (fun _ => Nat.le_refl 0) (Nat.le_refl _)

theorem runEstimate_mono (indent stack : Nat) (v : Json F) : LeStop (runEstimate indent stack v) (runEstimate indent (stack + 1) v) := by
  induction stack generalizing v with
  | zero => exact .stop _
  | succ stack ih =>
    rw [runEstimate.eq_def, runEstimate.eq_def indent (stack + 1 + 1)]
    match v with
    | .prim p => exact .refl _
    | .arr items => exact .then _ fun _ => (LeStop.overEach (fun v sum => (ih v).bind fun _ => .refl _) _ _).bind fun _ => .refl _
    | .obj es =>
      exact .then _ fun _ => (LeStop.overEach (fun (e : Str × Json F) sum => (ih e.2).bind fun _ => .refl _) _ _).bind fun _ => .refl _

theorem runEstimate_steps (indent stack : Nat) (v : Json F) : (runEstimate indent stack v).steps ≤ nodes v := by
  induction stack generalizing v with
  | zero => exact Nat.zero_le _
  | succ stack ih =>
    rw [runEstimate.eq_def]
    match v with
    | .prim p => exact Nat.le_refl 1
    | .arr items =>
      rw [nodes]
      refine Run.steps_bind_le (a := 1) (b := nodesItems items) (Nat.le_refl 1) (fun _ => ?_) (Nat.le_refl _)
      refine Run.steps_bind_le (a := nodesItems items) (b := 0) ?_ (fun _ => Nat.le_refl 0) (Nat.le_refl _)
      have := nodesItems_sum items 1
      simp only [Nat.mul_one] at this
      rw [← this]
      exact overEach_steps (cost := nodes) (fun v _ out => Run.steps_bind_pure (ih v)) _
    | .obj es =>
      rw [nodes]
      refine Run.steps_bind_le (a := 1) (b := nodesEntries es) (Nat.le_refl 1) (fun _ => ?_) (Nat.le_refl _)
      refine Run.steps_bind_le (a := nodesEntries es) (b := 0) ?_ (fun _ => Nat.le_refl 0) (Nat.le_refl _)
      have := nodesEntries_sum es 1
      simp only [Nat.mul_one] at this
      rw [← this]
      exact overEach_steps (cost := fun (e : Str × Json F) => nodes e.2)
        (fun e _ out => Run.steps_bind_pure (ih e.2)) _

variable [F64 F] [JsonNum F]

theorem runJson_mono (indent : Nat) (stack : Nat) :
    (∀ (v : Json F) (depth : Nat) (buf : Str), LeStop (runJsonValue indent stack v depth buf) (runJsonValue indent (stack + 1) v depth buf)) ∧
    (∀ (vs : List (Json F)) (depth : Nat) (buf : Str),
      LeStop (runJsonArray indent stack vs depth buf) (runJsonArray indent (stack + 1) vs depth buf)) ∧
    (∀ (es : List (Str × Json F)) (depth : Nat) (buf : Str),
      LeStop (runJsonObject indent stack es depth buf) (runJsonObject indent (stack + 1) es depth buf)) := by
  induction stack with
  | zero =>
    refine ⟨fun v _ _ => Or.inl ?_, fun v _ _ => Or.inl ?_, fun v _ _ => Or.inl ?_⟩
    · rw [runJsonValue.eq_def]; rfl
    · rw [runJsonArray.eq_def]; rfl
    · rw [runJsonObject.eq_def]; rfl
  | succ stack ih =>
    obtain ⟨ih1, ih2, ih3⟩ := ih
    refine ⟨?_, ?_, ?_⟩
    · intro v depth buf
      rw [runJsonValue.eq_def, runJsonValue.eq_def indent (stack + 1 + 1)]
      match v with
      | .prim p => exact .refl _
      | .arr vs => exact .then _ fun _ => ih2 _ _ _
      | .obj es => exact .then _ fun _ => ih3 _ _ _
    · intro vs depth buf
      rw [runJsonArray.eq_def, runJsonArray.eq_def indent (stack + 1 + 1)]
      refine .then _ fun _ => ?_
      split
      · exact .refl _
      · split
        · exact (LeStop.overEach (fun e buf => (ih1 _ _ _).bind fun _ => .refl _) _ _).bind fun _ => .refl _
        · exact (LeStop.overEach (fun e buf => (ih1 _ _ _).bind fun _ => .refl _) _ _).bind fun _ => .refl _
    · intro es depth buf
      rw [runJsonObject.eq_def, runJsonObject.eq_def indent (stack + 1 + 1)]
      refine .then _ fun _ => ?_
      split
      · exact .refl _
      · split
        · exact (LeStop.overEach (fun e buf => (ih1 _ _ _).bind fun _ => .refl _) _ _).bind fun _ => .refl _
        · exact (LeStop.overEach (fun e buf => (ih1 _ _ _).bind fun _ => .refl _) _ _).bind fun _ => .refl _

theorem runJsonLines_more (indent stack n : Nat) (v : Json F) :
    LeStop (runJsonLines stack v indent) (runJsonLines (stack + n) v indent) := by
  induction n with
  | zero => exact .refl _
  | succ n ih =>
    refine ih.trans ?_
    rw [runJsonLines, runJsonLines]
    exact (runEstimate_mono indent (stack + n) v).bind fun _ => ((runJson_mono indent (stack + n)).1 v 0 []).bind fun _ => .refl _

omit [F64 F] [JsonNum F] in
theorem zipIdx_sum {α : Type} (g : α → Nat) : ∀ (xs : List α) (n : Nat), ((xs.zipIdx n).map fun e => g e.1).sum = (xs.map g).sum
  | [], _ => rfl
  | x :: xs, n => by simp [List.zipIdx_cons, zipIdx_sum g xs (n + 1)]

theorem runJson_steps (indent : Nat) (stack : Nat) :
    (∀ (v : Json F) (depth : Nat) (buf : Str), (runJsonValue indent stack v depth buf).steps ≤ nodes v * 2) ∧
    (∀ (vs : List (Json F)) (depth : Nat) (buf : Str), (runJsonArray indent stack vs depth buf).steps ≤ 1 + nodesItems vs * 2) ∧
    (∀ (es : List (Str × Json F)) (depth : Nat) (buf : Str), (runJsonObject indent stack es depth buf).steps ≤ 1 + nodesEntries es * 2) := by
  induction stack with
  | zero =>
    refine ⟨fun v _ _ => ?_, fun v _ _ => ?_, fun v _ _ => ?_⟩
    · rw [runJsonValue.eq_def]; exact Nat.zero_le _
    · rw [runJsonArray.eq_def]; exact Nat.zero_le _
    · rw [runJsonObject.eq_def]; exact Nat.zero_le _
  | succ stack ih =>
    obtain ⟨ih1, ih2, ih3⟩ := ih
    refine ⟨?_, ?_, ?_⟩
    · intro v depth buf
      rw [runJsonValue.eq_def]
      match v with
      | .prim p => exact Nat.le_succ 1
      | .arr vs => exact Run.steps_bind_le (a := 1) (Nat.le_refl 1) (fun _ => ih2 vs depth buf) (by rw [nodes]; omega)
      | .obj es => exact Run.steps_bind_le (a := 1) (Nat.le_refl 1) (fun _ => ih3 es depth buf) (by rw [nodes]; omega)
    · intro vs depth buf
      rw [runJsonArray.eq_def]
      refine Run.steps_bind_le (a := 1) (b := nodesItems vs * 2) (Nat.le_refl 1) (fun _ => ?_) (Nat.le_refl _)
      split
      · exact Nat.zero_le _
      · rw [← nodesItems_sum, ← zipIdx_sum _ vs 0]
        split
        · refine Run.steps_bind_pure (overEach_steps (fun e _ buf => ?_) _); exact Run.steps_bind_pure (ih1 e.1 _ _)
        · refine Run.steps_bind_pure (overEach_steps (fun e _ buf => ?_) _); exact Run.steps_bind_pure (ih1 e.1 _ _)
    · intro es depth buf
      rw [runJsonObject.eq_def]
      refine Run.steps_bind_le (a := 1) (b := nodesEntries es * 2) (Nat.le_refl 1) (fun _ => ?_) (Nat.le_refl _)
      split
      · exact Nat.zero_le _
      · rw [← nodesEntries_sum, ← zipIdx_sum _ es 0]
        split
        · refine Run.steps_bind_pure (overEach_steps (fun e _ buf => ?_) _); exact Run.steps_bind_pure (ih1 e.1.2 _ _)
        · refine Run.steps_bind_pure (overEach_steps (fun e _ buf => ?_) _); exact Run.steps_bind_pure (ih1 e.1.2 _ _)

theorem runJsonLines_steps (indent stack : Nat) (v : Json F) : (runJsonLines stack v indent).steps ≤ 3 * nodes v := by
  rw [runJsonLines]
  exact Run.steps_bind_le (runEstimate_steps indent stack v)
    (fun _ => Run.steps_bind_le ((runJson_steps indent stack).1 v 0 []) (fun _ => Nat.le_refl 0) (Nat.le_refl _)) (by omega)

end

end Toon
