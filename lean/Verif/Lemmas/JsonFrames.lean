import Verif.Model.JsonFrames
import Verif.Lemmas.EncFrames
import Verif.Lemmas.Size

/-! The printer with a bounded stack prints what the model of the printer prints. -/

namespace Toon

section
variable {F : Type}

mutual
/-- What is reserved for a value. -/
def estimateOf (indent : Nat) : Json F → Nat
  | .prim p => estimatePrimitive p
  | .arr items => estimateItems indent items + items.length * (2 + indent) + 4
  | .obj es => estimateEntries indent es + es.length * (2 + indent) + 4
def estimateItems (indent : Nat) : List (Json F) → Nat
  | [] => 0
  | v :: vs => estimateOf indent v + estimateItems indent vs
def estimateEntries (indent : Nat) : List (Str × Json F) → Nat
  | [] => 0
  | (k, v) :: es => Utf8.len k + 4 + estimateOf indent v + estimateEntries indent es
end

theorem printHeightItems_mem {v : Json F} : ∀ {vs : List (Json F)}, v ∈ vs → height v ≤ heightItems vs
  | [], h => by simp at h
  | w :: vs, h => by
    rw [heightItems]
    rcases List.mem_cons.mp h with rfl | h
    · omega
    · have := printHeightItems_mem h; omega

theorem printHeightEntries_mem {e : Str × Json F} : ∀ {es : List (Str × Json F)}, e ∈ es → height e.2 ≤ heightEntries es
  | [], h => by simp at h
  | (k, w) :: es, h => by
    rw [heightEntries]
    rcases List.mem_cons.mp h with rfl | h
    · simp only; omega
    · have := printHeightEntries_mem h; omega

theorem runEstimate_ok (indent : Nat) (stack : Nat) (v : Json F) (h : height v + 1 ≤ stack) :
    (runEstimate indent stack v).result = .ok (estimateOf indent v) := by
  induction stack generalizing v with
  | zero => omega
  | succ stack ih =>
    match v with
    | .prim p => rw [runEstimate.eq_def, estimateOf]; rfl
    | .arr items =>
      rw [runEstimate.eq_def, estimateOf]
      have hs : ∀ vs : List (Json F), (∀ w ∈ vs, height w + 1 ≤ stack) → ∀ sum, (overEach (fun v sum => do
          let n ← runEstimate indent stack v
          pure (sum + n)) vs sum).result = .ok (sum + estimateItems indent vs) := by
        intro vs
        induction vs with
        | nil => intro _ sum; rw [overEach, estimateItems]; rfl
        | cons w vs ihs =>
          intro hw sum
          rw [overEach, Run.result_bind, Run.result_bind, ih w (hw w (by simp))]
          simp only [Run.result_pure]
          rw [ihs (fun x hx => hw x (by simp [hx])), estimateItems, Nat.add_assoc]
      rw [height] at h
      simp only [Run.result_bind, Run.result_tick]
      rw [hs items (fun w hw => by have := printHeightItems_mem hw; omega)]
      simp
    | .obj es =>
      rw [runEstimate.eq_def, estimateOf]
      have hs : ∀ es : List (Str × Json F), (∀ e ∈ es, height e.2 + 1 ≤ stack) → ∀ sum, (overEach (fun (e : Str × Json F) sum => do
          let n ← runEstimate indent stack e.2
          pure (sum + (Utf8.len e.1 + 4 + n))) es sum).result = .ok (sum + estimateEntries indent es) := by
        intro es
        induction es with
        | nil => intro _ sum; rw [overEach, estimateEntries]; rfl
        | cons e es ihs =>
          intro hw sum
          rw [overEach, Run.result_bind, Run.result_bind, ih e.2 (hw e (by simp))]
          simp only [Run.result_pure]
          rw [ihs (fun x hx => hw x (by simp [hx])), estimateEntries, Nat.add_assoc]
      rw [height] at h
      simp only [Run.result_bind, Run.result_tick]
      rw [hs es (fun w hw => by have := printHeightEntries_mem hw; omega)]
      simp

variable [F64 F] [JsonNum F]

theorem runJson_ok (indent : Nat) (stack : Nat) :
    (∀ (v : Json F) (depth : Nat) (buf : Str), 2 * height v + 1 ≤ stack →
      (runJsonValue indent stack v depth buf).result = .ok (buf ++ jsonStringify indent depth v)) ∧
    (∀ (vs : List (Json F)) (depth : Nat) (buf : Str), 2 * heightItems vs + 2 ≤ stack →
      (runJsonArray indent stack vs depth buf).result = .ok (buf ++ jsonStringify indent depth (.arr vs))) ∧
    (∀ (es : List (Str × Json F)) (depth : Nat) (buf : Str), 2 * heightEntries es + 2 ≤ stack →
      (runJsonObject indent stack es depth buf).result = .ok (buf ++ jsonStringify indent depth (.obj es))) := by
  induction stack with
  | zero => exact ⟨fun v _ _ h => by omega, fun v _ _ h => by omega, fun v _ _ h => by omega⟩
  | succ stack ih =>
    obtain ⟨ih1, ih2, ih3⟩ := ih
    refine ⟨?_, ?_, ?_⟩
    · intro v depth buf h
      match v with
      | .prim p => rw [runJsonValue.eq_def, jsonStringify]; rfl
      | .arr vs =>
        rw [runJsonValue.eq_def]
        simp only [Run.result_bind, Run.result_tick]
        rw [height] at h
        exact ih2 vs depth buf (by omega)
      | .obj es =>
        rw [runJsonValue.eq_def]
        simp only [Run.result_bind, Run.result_tick]
        rw [height] at h
        exact ih3 es depth buf (by omega)
    · intro vs depth buf h
      rw [runJsonArray.eq_def, jsonStringify]
      simp only [Run.result_bind, Run.result_tick]
      split
      · rfl
      · have hs : ∀ (rest : List (Json F)) (n : Nat) (buf : Str), n + rest.length = vs.length → (∀ w ∈ rest, 2 * height w + 1 ≤ stack) →
            (overEach (fun (e : Json F × Nat) (buf : Str) => do
              let buf ← runJsonValue indent stack e.1 (depth + 1)
                (if indent > 0 then buf ++ '\n' :: jsonIndent ((depth + 1) * indent) else buf)
              pure (if e.2 + 1 < vs.length then buf ++ [','] else buf)) (rest.zipIdx n) buf).result =
            .ok (buf ++ jsonItems indent depth rest) := by
          intro rest
          induction rest with
          | nil => intro n buf _ _; simp [overEach, jsonItems]
          | cons w rest ihs =>
            intro n buf hn hw
            rw [List.zipIdx_cons, overEach, Run.result_bind, Run.result_bind, ih1 w _ _ (hw w (by simp))]
            simp only [Run.result_pure]
            rw [ihs (n + 1) _ (by rw [List.length_cons] at hn; omega) (fun x hx => hw x (by simp [hx])), jsonItems]
            rw [List.length_cons] at hn
            cases rest with
            | nil => rw [if_neg (by simp at hn; omega)]; split <;> simp
            | cons x rest => rw [if_pos (by simp at hn; omega)]; split <;> simp
        have hall : ∀ w ∈ vs, 2 * height w + 1 ≤ stack := fun w hw => by have := printHeightItems_mem hw; omega
        split
        · rename_i hi
          have h1 := hs vs 0 (buf ++ ['[']) (by simp) hall
          simp only [if_pos hi] at h1
          simp only [Run.result_bind]
          rw [h1]
          simp
        · rename_i hi
          have h1 := hs vs 0 (buf ++ ['[']) (by simp) hall
          simp only [if_neg hi] at h1
          simp only [Run.result_bind]
          rw [h1]
          simp
    · intro es depth buf h
      rw [runJsonObject.eq_def, jsonStringify]
      simp only [Run.result_bind, Run.result_tick]
      split
      · rfl
      · have hs : ∀ (rest : List (Str × Json F)) (n : Nat) (buf : Str), n + rest.length = es.length →
            (∀ e ∈ rest, 2 * height e.2 + 1 ≤ stack) →
            (overEach (fun (e : (Str × Json F) × Nat) (buf : Str) => do
              let buf ← runJsonValue indent stack e.1.2 (depth + 1)
                (if indent > 0 then buf ++ '\n' :: jsonIndent ((depth + 1) * indent) ++ jsonString e.1.1 ++ [':', ' ']
                  else buf ++ jsonString e.1.1 ++ [':'])
              pure (if e.2 + 1 < es.length then buf ++ [','] else buf)) (rest.zipIdx n) buf).result =
            .ok (buf ++ jsonEntries indent depth rest) := by
          intro rest
          induction rest with
          | nil => intro n buf _ _; simp [overEach, jsonEntries]
          | cons w rest ihs =>
            obtain ⟨k, w⟩ := w
            intro n buf hn hw
            rw [List.zipIdx_cons, overEach, Run.result_bind, Run.result_bind, ih1 w _ _ (hw (k, w) (by simp))]
            simp only [Run.result_pure]
            rw [ihs (n + 1) _ (by rw [List.length_cons] at hn; omega) (fun x hx => hw x (by simp [hx])), jsonEntries]
            rw [List.length_cons] at hn
            cases rest with
            | nil => rw [if_neg (by simp at hn; omega)]; split <;> simp
            | cons x rest => rw [if_pos (by simp at hn; omega)]; split <;> simp
        have hall : ∀ e ∈ es, 2 * height e.2 + 1 ≤ stack := fun w hw => by have := printHeightEntries_mem hw; omega
        split
        · rename_i hi
          have h1 := hs es 0 (buf ++ ['{']) (by simp) hall
          simp only [if_pos hi] at h1
          simp only [Run.result_bind]
          rw [h1]
          simp
        · rename_i hi
          have h1 := hs es 0 (buf ++ ['{']) (by simp) hall
          simp only [if_neg hi] at h1
          simp only [Run.result_bind]
          rw [h1]
          simp

theorem runJsonLines_ok (indent stack : Nat) (v : Json F) (h : 2 * height v + 1 ≤ stack) :
    (runJsonLines stack v indent).result = .ok ⟨estimateOf indent v, jsonStringifyLines v indent⟩ := by
  rw [runJsonLines, Run.result_bind, runEstimate_ok indent stack v (by omega)]
  simp only [Run.result_bind]
  rw [(runJson_ok indent stack).1 v 0 [] h]
  rfl

/-! ## Too few frames -/

/-- The run ends with a result or an overflow. -/
def Run.Sound {α : Type} (r : Run α) : Prop := r.result = .error .overflow ∨ ∃ a, r.result = .ok a

theorem Run.Sound.bind {α β : Type} {x : Run α} {f : α → Run β} (h : x.Sound) (hf : ∀ a, (f a).Sound) : (x >>= f).Sound := by
  rcases h with h | ⟨a, h⟩
  · left; rw [Run.result_bind, h]
  · rcases hf a with h' | ⟨b, h'⟩
    · left; rw [Run.result_bind, h]; exact h'
    · right; exact ⟨b, by rw [Run.result_bind, h]; exact h'⟩

theorem Run.Sound.overEach {α β : Type} {f : α → β → Run β} (h : ∀ x out, (f x out).Sound) (xs : List α) (out : β) :
    (overEach f xs out).Sound := by
  induction xs generalizing out with
  | nil => exact Or.inr ⟨out, rfl⟩
  | cons x xs ih => rw [Toon.overEach]; exact (h x out).bind fun o => ih o

/-- A loop overflows when one of its passes does. -/
theorem overEach_overflow {α β : Type} {f : α → β → Run β} (h : ∀ x out, (f x out).Sound) {x : α}
    (hx : ∀ out, (f x out).result = .error .overflow) {xs : List α} (hm : x ∈ xs) (out : β) :
    (overEach f xs out).result = .error .overflow := by
  induction xs generalizing out with
  | nil => simp at hm
  | cons y xs ih =>
    rw [overEach, Run.result_bind]
    rcases List.mem_cons.mp hm with rfl | hm
    · rw [hx]
    · rcases h y out with h' | ⟨o, h'⟩
      · rw [h']
      · rw [h']; exact ih hm o

theorem Run.sound_pure {α : Type} (a : α) : (pure a : Run α).Sound := Or.inr ⟨a, rfl⟩

theorem runJson_sound (indent : Nat) (stack : Nat) :
    (∀ (v : Json F) (depth : Nat) (buf : Str), (runJsonValue indent stack v depth buf).Sound) ∧
    (∀ (vs : List (Json F)) (depth : Nat) (buf : Str), (runJsonArray indent stack vs depth buf).Sound) ∧
    (∀ (es : List (Str × Json F)) (depth : Nat) (buf : Str), (runJsonObject indent stack es depth buf).Sound) := by
  induction stack with
  | zero =>
    refine ⟨fun v _ _ => Or.inl ?_, fun v _ _ => Or.inl ?_, fun v _ _ => Or.inl ?_⟩
    · rw [runJsonValue.eq_def]; rfl
    · rw [runJsonArray.eq_def]; rfl
    · rw [runJsonObject.eq_def]; rfl
  | succ stack ih =>
    obtain ⟨ih1, ih2, ih3⟩ := ih
    have tickS : ∀ n, (tick n).Sound := fun n => Or.inr ⟨(), rfl⟩
    refine ⟨?_, ?_, ?_⟩
    · intro v depth buf
      rw [runJsonValue.eq_def]
      match v with
      | .prim p => exact (tickS 1).bind fun _ => Run.sound_pure _
      | .arr vs => exact (tickS 1).bind fun _ => ih2 _ _ _
      | .obj es => exact (tickS 1).bind fun _ => ih3 _ _ _
    · intro vs depth buf
      rw [runJsonArray.eq_def]
      refine (tickS 1).bind fun _ => ?_
      split
      · exact Run.sound_pure _
      · split
        · exact (Run.Sound.overEach (fun e buf => (ih1 _ _ _).bind fun _ => Run.sound_pure _) _ _).bind fun _ => Run.sound_pure _
        · exact (Run.Sound.overEach (fun e buf => (ih1 _ _ _).bind fun _ => Run.sound_pure _) _ _).bind fun _ => Run.sound_pure _
    · intro es depth buf
      rw [runJsonObject.eq_def]
      refine (tickS 1).bind fun _ => ?_
      split
      · exact Run.sound_pure _
      · split
        · exact (Run.Sound.overEach (fun e buf => (ih1 _ _ _).bind fun _ => Run.sound_pure _) _ _).bind fun _ => Run.sound_pure _
        · exact (Run.Sound.overEach (fun e buf => (ih1 _ _ _).bind fun _ => Run.sound_pure _) _ _).bind fun _ => Run.sound_pure _

theorem heightItems_attained : ∀ (vs : List (Json F)), vs ≠ [] → ∃ v ∈ vs, height v = heightItems vs
  | [], h => absurd rfl h
  | [v], _ => ⟨v, by simp, by simp [heightItems]⟩
  | v :: w :: vs, _ => by
    obtain ⟨x, hx, he⟩ := heightItems_attained (w :: vs) (by simp)
    rw [heightItems]
    by_cases h : height v ≤ heightItems (w :: vs)
    · exact ⟨x, List.mem_cons_of_mem _ hx, by omega⟩
    · exact ⟨v, by simp, by omega⟩

theorem heightEntries_attained : ∀ (es : List (Str × Json F)), es ≠ [] → ∃ e ∈ es, height e.2 = heightEntries es
  | [], h => absurd rfl h
  | [(k, v)], _ => ⟨(k, v), by simp, by simp [heightEntries]⟩
  | (k, v) :: w :: vs, _ => by
    obtain ⟨x, hx, he⟩ := heightEntries_attained (w :: vs) (by simp)
    rw [heightEntries]
    by_cases h : height v ≤ heightEntries (w :: vs)
    · exact ⟨x, List.mem_cons_of_mem _ hx, by omega⟩
    · exact ⟨(k, v), by simp, by simp only; omega⟩

theorem mem_zipIdx_of_mem {α : Type} {x : α} : ∀ {xs : List α} (n : Nat), x ∈ xs → ∃ i, (x, i) ∈ xs.zipIdx n
  | [], _, h => by simp at h
  | y :: xs, n, h => by
    rw [List.zipIdx_cons]
    rcases List.mem_cons.mp h with rfl | h
    · exact ⟨n, by simp⟩
    · obtain ⟨i, hi⟩ := mem_zipIdx_of_mem (n + 1) h
      exact ⟨i, List.mem_cons_of_mem _ hi⟩

theorem runJson_overflow (indent : Nat) (stack : Nat) :
    (∀ (v : Json F) (depth : Nat) (buf : Str), stack < 2 * height v →
      (runJsonValue indent stack v depth buf).result = .error .overflow) ∧
    (∀ (vs : List (Json F)) (depth : Nat) (buf : Str), stack < 2 * heightItems vs + 1 →
      (runJsonArray indent stack vs depth buf).result = .error .overflow) ∧
    (∀ (es : List (Str × Json F)) (depth : Nat) (buf : Str), stack < 2 * heightEntries es + 1 →
      (runJsonObject indent stack es depth buf).result = .error .overflow) := by
  induction stack with
  | zero =>
    refine ⟨fun v _ _ _ => ?_, fun v _ _ _ => ?_, fun v _ _ _ => ?_⟩
    · rw [runJsonValue.eq_def]; rfl
    · rw [runJsonArray.eq_def]; rfl
    · rw [runJsonObject.eq_def]; rfl
  | succ stack ih =>
    obtain ⟨ih1, ih2, ih3⟩ := ih
    have hsound := (runJson_sound (F := F) indent stack).1
    refine ⟨?_, ?_, ?_⟩
    · intro v depth buf h
      match v with
      | .prim p => rw [height] at h; omega
      | .arr vs =>
        rw [runJsonValue.eq_def]
        simp only [Run.result_bind, Run.result_tick]
        rw [height] at h
        exact ih2 vs depth buf (by omega)
      | .obj es =>
        rw [runJsonValue.eq_def]
        simp only [Run.result_bind, Run.result_tick]
        rw [height] at h
        exact ih3 es depth buf (by omega)
    · intro vs depth buf h
      have hne : vs ≠ [] := by rintro rfl; simp [heightItems] at h
      obtain ⟨w, hw, he⟩ := heightItems_attained vs hne
      obtain ⟨i, hi⟩ := mem_zipIdx_of_mem 0 hw
      rw [runJsonArray.eq_def]
      simp only [Run.result_bind, Run.result_tick]
      rw [if_neg (by simpa using hne)]
      split
      · simp only [Run.result_bind]
        rw [overEach_overflow (fun e buf => (hsound _ _ _).bind fun _ => Run.sound_pure _)
          (fun out => by rw [Run.result_bind, ih1 w _ _ (by omega)]) hi]
      · simp only [Run.result_bind]
        rw [overEach_overflow (fun e buf => (hsound _ _ _).bind fun _ => Run.sound_pure _)
          (fun out => by rw [Run.result_bind, ih1 w _ _ (by omega)]) hi]
    · intro es depth buf h
      have hne : es ≠ [] := by rintro rfl; simp [heightEntries] at h
      obtain ⟨w, hw, he⟩ := heightEntries_attained es hne
      obtain ⟨i, hi⟩ := mem_zipIdx_of_mem 0 hw
      rw [runJsonObject.eq_def]
      simp only [Run.result_bind, Run.result_tick]
      rw [if_neg (by simpa using hne)]
      split
      · simp only [Run.result_bind]
        rw [overEach_overflow (fun e buf => (hsound _ _ _).bind fun _ => Run.sound_pure _)
          (fun out => by rw [Run.result_bind, ih1 w.2 _ _ (by omega)]) hi]
      · simp only [Run.result_bind]
        rw [overEach_overflow (fun e buf => (hsound _ _ _).bind fun _ => Run.sound_pure _)
          (fun out => by rw [Run.result_bind, ih1 w.2 _ _ (by omega)]) hi]

omit [F64 F] [JsonNum F] in
theorem runEstimate_sound (indent : Nat) (stack : Nat) (v : Json F) : (runEstimate indent stack v).Sound := by
  have tickS : ∀ n, (tick n).Sound := fun n => Or.inr ⟨(), rfl⟩
  induction stack generalizing v with
  | zero => rw [runEstimate.eq_def]; exact Or.inl rfl
  | succ stack ih =>
    rw [runEstimate.eq_def]
    match v with
    | .prim p => exact (tickS 1).bind fun _ => Run.sound_pure _
    | .arr vs =>
      exact (tickS 1).bind fun _ => (Run.Sound.overEach (fun v sum => (ih v).bind fun _ => Run.sound_pure _) _ _).bind fun _ => Run.sound_pure _
    | .obj es =>
      exact (tickS 1).bind fun _ => (Run.Sound.overEach (fun (e : Str × Json F) sum => (ih e.2).bind fun _ => Run.sound_pure _) _ _).bind fun _ => Run.sound_pure _

theorem runJsonLines_overflow (indent stack : Nat) (v : Json F) (h : stack < 2 * height v) :
    (runJsonLines stack v indent).result = .error .overflow := by
  rw [runJsonLines, Run.result_bind]
  rcases runEstimate_sound indent stack v with h' | ⟨n, h'⟩
  · rw [h']
  · rw [h']
    simp only [Run.result_bind]
    rw [(runJson_overflow indent stack).1 v 0 [] h]

end

end Toon
