import Verif.Lemmas.EncFrames
import Verif.Lemmas.FramesMono

/-! The encoder with a bounded stack does the same in a larger stack unless it overflows; and values that need all of it. -/

namespace Toon

theorem LeStop.overEach {α β : Type} {f g : α → β → Run β} (h : ∀ x out, LeStop (f x out) (g x out)) (xs : List α) (out : β) :
    LeStop (overEach f xs out) (overEach g xs out) := by
  induction xs generalizing out with
  | nil => exact .refl _
  | cons x xs ih =>
    rw [Toon.overEach, Toon.overEach]
    exact (h x out).bind fun out => ih out

section
variable {F : Type}

theorem estimateLines_more (stack : Nat) : ∀ v : Json F, LeStop (estimateLines stack v) (estimateLines (stack + 1) v) := by
  induction stack with
  | zero => intro v; rw [estimateLines]; exact .stop _
  | succ s ih =>
    intro v
    cases v with
    | prim p => exact .refl _
    | arr items =>
      rw [estimateLines, estimateLines]
      exact (LeStop.overEach (fun v sum => (ih v).bind fun n => .refl _) _ _).bind fun _ => .refl _
    | obj es =>
      rw [estimateLines, estimateLines]
      exact (LeStop.overEach (fun (e : Str × Json F) sum => (ih e.2).bind fun n => .refl _) _ _).bind fun _ => .refl _

variable [F64 F] (opts : EncOpts)

/-- One more frame changes nothing unless there is an overflow. -/
structure EncMore (stack : Nat) : Prop where
  object : ∀ (es : List (Str × Json F)) depth rlk pp rem out,
    LeStop (runObject opts stack es depth rlk pp rem out) (runObject opts (stack + 1) es depth rlk pp rem out)
  pair : ∀ siblings rlk pp fd key (v : Json F) depth out,
    LeStop (runPair opts stack siblings rlk pp fd key v depth out) (runPair opts (stack + 1) siblings rlk pp fd key v depth out)
  array : ∀ key (items : List (Json F)) depth out,
    LeStop (runArray opts stack key items depth out) (runArray opts (stack + 1) key items depth out)
  mixed : ∀ key (items : List (Json F)) depth out,
    LeStop (runMixed opts stack key items depth out) (runMixed opts (stack + 1) key items depth out)
  item : ∀ (v : Json F) depth out, LeStop (runItem opts stack v depth out) (runItem opts (stack + 1) v depth out)
  objectItem : ∀ (es : List (Str × Json F)) depth out,
    LeStop (runObjectItem opts stack es depth out) (runObjectItem opts (stack + 1) es depth out)

theorem encMore (stack : Nat) : EncMore (F := F) opts stack := by
  induction stack with
  | zero =>
    constructor
    · intros; rw [runObject]; exact .stop _
    · intros; rw [runPair]; exact .stop _
    · intros; rw [runArray]; exact .stop _
    · intros; rw [runMixed]; exact .stop _
    · intros; rw [runItem]; exact .stop _
    · intros; rw [runObjectItem]; exact .stop _
  | succ s ih =>
    constructor
    · intro es depth rlk pp rem out
      rw [runObject, runObject]
      exact .overEach (fun e out => ih.pair _ _ _ _ _ _ _ _) _ _
    · intro siblings rlk pp fd key v depth out
      rw [runPair.eq_def, runPair.eq_def]
      refine .then _ fun _ => ?_
      cases tryFold key v siblings opts rlk pp fd with
      | some folded =>
        simp only
        cases folded.leaf with
        | prim p => exact .refl _
        | arr items => exact ih.array _ _ _ _
        | obj es =>
          by_cases he : es.isEmpty = true
          · simp only [he, if_true]; exact .refl _
          · simp only [he, if_false, Bool.false_eq_true]; exact ih.object _ _ _ _ _ _
      | none =>
        cases v with
        | prim p => exact .refl _
        | arr items => exact ih.array _ _ _ _
        | obj es =>
          by_cases he : es.isEmpty = true
          · simp only [he, if_true]; exact .refl _
          · simp only [he, if_false, Bool.false_eq_true]; exact ih.object _ _ _ _ _ _
    · intro key items depth out
      rw [runArray, runArray]
      by_cases h1 : items.isEmpty = true
      · simp only [h1, if_true]; exact .refl _
      · simp only [h1, if_false, Bool.false_eq_true]
        by_cases h2 : isArrayOfPrims items = true
        · simp only [h2, if_true]; exact .refl _
        · simp only [h2, if_false, Bool.false_eq_true]
          by_cases h3 : arraysOfPrims items = true
          · simp only [h3, if_true]; exact .refl _
          · simp only [h3, if_false, Bool.false_eq_true]
            cases (if isArrayOfObjs items then extractTabularHeader items else none) with
            | some header => exact .refl _
            | none => exact ih.mixed _ _ _ _
    · intro key items depth out
      rw [runMixed, runMixed]
      exact .overEach (fun v out => ih.item _ _ _) _ _
    · intro v depth out
      cases v with
      | prim p => rw [runItem, runItem]; exact .refl _
      | arr items =>
        rw [runItem, runItem]
        by_cases h2 : isArrayOfPrims items = true
        · simp only [h2, if_true]; exact .refl _
        · simp only [h2, if_false, Bool.false_eq_true]
          exact .overEach (fun v out => ih.item _ _ _) _ _
      | obj es => rw [runItem, runItem]; exact ih.objectItem _ _ _
    · intro es depth out
      match es with
      | [] => rw [runObjectItem, runObjectItem]; exact .refl _
      | (k, v) :: rest =>
        rw [runObjectItem.eq_def, runObjectItem.eq_def]
        have hrest : ∀ out, LeStop (if rest.isEmpty = true then pure out else runObject opts s rest (depth + 1) none none none out)
            (if rest.isEmpty = true then pure out else runObject opts (s + 1) rest (depth + 1) none none none out) := by
          intro out
          by_cases he : rest.isEmpty = true
          · simp only [he, if_true]; exact .refl _
          · simp only [he, if_false, Bool.false_eq_true]; exact ih.object _ _ _ _ _ _
        refine .then _ fun _ => ?_
        cases v with
        | prim p => exact .then _ hrest
        | arr items =>
          simp only
          cases (if isArrayOfObjs items then extractTabularHeader items else none) with
          | some header => exact .then _ fun _ => .then _ hrest
          | none =>
            by_cases h1 : items.isEmpty = true
            · simp only [h1, if_true]; exact .then _ hrest
            · simp only [h1, if_false, Bool.false_eq_true]
              by_cases h2 : isArrayOfPrims items = true
              · simp only [h2, if_true]; exact .then _ fun _ => .then _ hrest
              · simp only [h2, if_false, Bool.false_eq_true]
                exact (LeStop.overEach (fun v out => ih.item _ _ _) _ _).bind hrest
        | obj es =>
          by_cases he : es.isEmpty = true
          · simp only [he, if_true]; exact .then _ hrest
          · simp only [he, if_false, Bool.false_eq_true]; exact (ih.object _ _ _ _ _ _).bind hrest

theorem runValue_more (stack more : Nat) (v : Json F) : LeStop (runValue opts stack v) (runValue opts (stack + more) v) := by
  have one : ∀ s, LeStop (runValue opts s v) (runValue opts (s + 1) v) := by
    intro s
    cases s with
    | zero => rw [runValue]; exact .stop _
    | succ s =>
      rw [runValue.eq_def, runValue.eq_def]
      refine (estimateLines_more s v).bind fun _ => ?_
      cases v with
      | prim p => exact .refl _
      | arr items => exact (encMore opts s).array _ _ _ _
      | obj es => exact (encMore opts s).object _ _ _ _ _ _
  induction more with
  | zero => exact .refl _
  | succ n ih => exact ih.trans (one _)

theorem runNormalize_more (stack : Nat) : ∀ v : Json F, LeStop (runNormalize stack v) (runNormalize (stack + 1) v) := by
  induction stack with
  | zero => intro v; rw [runNormalize]; exact .stop _
  | succ s ih =>
    intro v
    cases v with
    | prim p => exact .refl _
    | arr items =>
      rw [runNormalize, runNormalize]
      exact (LeStop.overEach (fun v out => (ih v).bind fun _ => .refl _) _ _).bind fun _ => .refl _
    | obj es =>
      rw [runNormalize, runNormalize]
      exact (LeStop.overEach (fun (e : Str × Json F) out => (ih e.2).bind fun _ => .refl _) _ _).bind fun _ => .refl _

theorem runEncodeLines_more (stack more : Nat) (v : Json F) :
    LeStop (runEncodeLines opts stack v) (runEncodeLines opts (stack + more) v) := by
  have one : ∀ s, LeStop (runEncodeLines opts s v) (runEncodeLines opts (s + 1) v) := by
    intro s
    cases s with
    | zero => rw [runEncodeLines]; exact .stop _
    | succ s =>
      rw [runEncodeLines, runEncodeLines]
      exact (runNormalize_more s v).bind fun w => (runValue_more opts s 1 w).bind fun _ => .refl _
  induction more with
  | zero => exact .refl _
  | succ n ih => exact ih.trans (one _)

/-! ## Values that need all of the stack -/

omit [F64 F] in
theorem tryFold_arr (key : Str) (items : List (Json F)) (siblings : List Str) (rlk : Option (List Str)) (pp : Option Str) (fd : Nat) :
    tryFold key (.arr items) siblings opts rlk pp fd = none := by
  simp [tryFold, Json.isObj]

/-- An array that is written as a list, whose first element is an object with two entries. -/
theorem list_overflow {w : Json F} {s n : Nat} (hw : ∀ s, s < n → ∀ siblings rlk pp fd key depth out,
      (runPair opts s siblings rlk pp fd key w depth out).result = .error .overflow) (hs : s < n + 5)
    (a b : Str) (p q : Prim F) (key : Option Str) (depth : Nat) (out : List OutLine) :
    (runArray opts s key [.obj [(a, .prim p), (b, w)], .prim q] depth out).result = .error .overflow := by
  match s with
  | 0 => rw [runArray]; rfl
  | 1 => rw [runArray]; simp [isArrayOfPrims, Json.isPrim, arraysOfPrims, isArrayOfArrays, isArrayOfObjs, Json.isObj, Json.isArr, runMixed]
  | s + 2 =>
    rw [runArray]
    simp only [List.isEmpty_cons, isArrayOfPrims, arraysOfPrims, isArrayOfArrays, isArrayOfObjs, List.all_cons, Json.isPrim, Json.isArr,
      Json.isObj, Bool.false_and, Bool.and_false, Bool.false_eq_true, if_false, runMixed]
    refine overEach_first ?_
    match s with
    | 0 => rw [runItem]; rfl
    | 1 => rw [runItem, runObjectItem]; rfl
    | s + 2 =>
      rw [runItem, runObjectItem]
      simp only [Run.result_bind, Run.result_tick, Run.result_pure, List.isEmpty_cons, Bool.false_eq_true, if_false]
      match s with
      | 0 => rw [runObject]; rfl
      | s + 1 =>
        rw [runObject]
        exact overEach_first (hw s (by omega) _ _ _ _ _ _ _)

end

end Toon
