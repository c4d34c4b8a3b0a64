import Verif.Model.ExpandFrames
import Verif.Lemmas.Frames

/-! Path expansion with a stack computes what it computes without one. -/

namespace Toon

section
variable {F : Type} (strict : Bool)

theorem runMerge_result (stack : Nat) : ∀ (depth : Nat) (target source : List (Str × Node F)) (q : List Str), depth ≤ 256 →
    257 ≤ stack + depth → (runMerge strict stack depth target source).result = liftErr (mergeInto strict depth target (.obj source q)) := by
  induction stack with
  | zero => intro depth target source q h1 h2; omega
  | succ stack ih =>
    intro depth target source q h1 h2
    rw [runMerge.eq_def, mergeInto]
    simp only
    split
    · rfl
    · rename_i hd
      simp only [maxExpandDepth] at hd
      induction source generalizing target with
      | nil => rw [mergeEntries]; rfl
      | cons e rest ihs =>
        obtain ⟨key, value⟩ := e
        rw [overEach, mergeEntries.eq_def]
        simp only [Run.result_bind, Run.result_tick]
        cases hg : entryGet target key with
        | none => simp only [Run.result_pure]; exact ihs _
        | some existing =>
          simp only [Run.result_bind, Run.result_tick]
          cases existing with
          | obj es q' =>
            cases value with
            | obj src q'' =>
              simp only [Run.result_bind]
              rw [ih (depth + 1) es src q'' (by omega) (by omega)]
              cases mergeInto strict (depth + 1) es (.obj src q'') with
              | error err => rfl
              | ok merged => simp only [liftErr, Run.result_pure]; exact ihs _
            | prim p =>
              cases strict with
              | true => rfl
              | false => simp only [Bool.false_eq_true, if_false, Run.result_pure]; exact ihs _
            | arr items =>
              cases strict with
              | true => rfl
              | false => simp only [Bool.false_eq_true, if_false, Run.result_pure]; exact ihs _
          | prim p =>
            cases strict with
            | true => rfl
            | false => simp only [Bool.false_eq_true, if_false, Run.result_pure]; exact ihs _
          | arr items =>
            cases strict with
            | true => rfl
            | false => simp only [Bool.false_eq_true, if_false, Run.result_pure]; exact ihs _

theorem runLiteral_result (stack depth : Nat) (entries : List (Str × Node F)) (key : Str) (value : Node F) (h1 : depth ≤ 256)
    (h2 : 257 ≤ stack + depth) : (runLiteral strict stack depth entries key value).result = liftErr (insertLiteral strict depth entries key value) := by
  obtain ⟨stack, rfl⟩ : ∃ k, stack = k + 1 := ⟨stack - 1, by omega⟩
  rw [runLiteral.eq_def, insertLiteral]
  simp only
  split
  · rfl
  · rename_i hd
    simp only [maxExpandDepth] at hd
    simp only [Run.result_bind, Run.result_tick]
    cases hg : entryGet entries key with
    | none => rfl
    | some existing =>
      simp only [Run.result_bind, Run.result_tick]
      cases existing with
      | obj es q' =>
        cases value with
        | obj src q'' =>
          simp only [Run.result_bind]
          rw [runMerge_result strict stack (depth + 1) es src q'' (by omega) (by omega)]
          cases mergeInto strict (depth + 1) es (.obj src q'') with
          | error err => rfl
          | ok merged => rfl
        | prim p => cases strict <;> rfl
        | arr items => cases strict <;> rfl
      | prim p => cases strict <;> rfl
      | arr items => cases strict <;> rfl

theorem runPath_result (stack : Nat) : ∀ (depth : Nat) (entries : List (Str × Node F)) (segments : List Str) (value : Node F), depth ≤ 256 →
    257 ≤ stack + depth → (runPath strict stack depth entries segments value).result = liftErr (insertPath strict depth entries segments value) := by
  induction stack with
  | zero => intro depth entries segments value h1 h2; omega
  | succ stack ih =>
    intro depth entries segments value h1 h2
    rw [runPath.eq_def, insertPath.eq_def]
    simp only
    match segments with
    | [] => simp only; split <;> rfl
    | [seg] =>
      simp only
      split
      · rfl
      · rename_i hd
        simp only [maxExpandDepth] at hd
        exact runLiteral_result strict stack (depth + 1) entries seg value (by omega) (by omega)
    | key :: seg :: segs =>
      simp only
      split
      · rfl
      · rename_i hd
        simp only [maxExpandDepth] at hd
        simp only [Run.result_bind, Run.result_tick]
        cases hg : entryGet entries key with
        | none =>
          simp only [Run.result_bind]
          rw [ih (depth + 1) [] (seg :: segs) value (by omega) (by omega)]
          cases insertPath strict (depth + 1) [] (seg :: segs) value <;> rfl
        | some existing =>
          cases existing with
          | obj es q' =>
            simp only [Run.result_bind]
            rw [ih (depth + 1) es (seg :: segs) value (by omega) (by omega)]
            cases insertPath strict (depth + 1) es (seg :: segs) value <;> rfl
          | prim p =>
            cases strict with
            | true => rfl
            | false =>
              simp only [Bool.false_eq_true, if_false, Run.result_bind]
              rw [ih (depth + 1) [] (seg :: segs) value (by omega) (by omega)]
              cases insertPath false (depth + 1) [] (seg :: segs) value <;> rfl
          | arr items =>
            cases strict with
            | true => rfl
            | false =>
              simp only [Bool.false_eq_true, if_false, Run.result_bind]
              rw [ih (depth + 1) [] (seg :: segs) value (by omega) (by omega)]
              cases insertPath false (depth + 1) [] (seg :: segs) value <;> rfl

/-- Both functions of the recursion over the value. -/
structure ExpandRuns (stack : Nat) : Prop where
  inner : ∀ (depth : Nat) (value : Node F), depth ≤ 256 → 257 ≤ stack + depth →
    (runInner strict stack depth value).result = liftErr (expandInner strict value depth)
  object : ∀ (depth : Nat) (entries : List (Str × Node F)) (quoted : List Str), depth ≤ 256 → 257 ≤ stack + depth →
    (runExpandObject strict stack depth entries quoted).result =
      liftErr (if depth ≥ maxExpandDepth then .error .expandDepth else expandEntries strict quoted entries depth [])

theorem expandRuns (stack : Nat) : ExpandRuns (F := F) strict stack := by
  induction stack with
  | zero => exact ⟨fun depth value h1 h2 => by omega, fun depth entries quoted h1 h2 => by omega⟩
  | succ stack ih =>
    constructor
    · intro depth value h1 h2
      rw [runInner.eq_def, expandInner.eq_def]
      simp only
      cases value with
      | prim p => simp only; split <;> rfl
      | arr items =>
        simp only
        split
        · rfl
        · rename_i hd
          simp only [maxExpandDepth] at hd
          have loop : ∀ (items : List (Node F)) (out : List (Node F)),
              (overEach (fun item expanded => do
                let item ← runInner strict stack (depth + 1) item
                pure (expanded ++ [item])) items out).result =
              liftErr (match expandItems strict items (depth + 1) with
                | .error e => .error e
                | .ok items' => .ok (out ++ items')) := by
            intro items
            induction items with
            | nil => intro out; simp [overEach, expandItems, liftErr]
            | cons n ns ihs =>
              intro out
              rw [overEach, expandItems]
              simp only [Run.result_bind]
              rw [ih.inner (depth + 1) n (by omega) (by omega)]
              cases expandInner strict n (depth + 1) with
              | error e => rfl
              | ok n' =>
                simp only [liftErr, Run.result_pure]
                rw [ihs]
                cases expandItems strict ns (depth + 1) with
                | error e => rfl
                | ok ns' => simp [liftErr]
          simp only [Run.result_bind]
          rw [loop]
          cases expandItems strict items (depth + 1) with
          | error e => rfl
          | ok items' => rfl
      | obj entries quoted =>
        simp only
        split
        · rfl
        · rename_i hd
          simp only [maxExpandDepth] at hd
          simp only [Run.result_bind]
          rw [ih.object (depth + 1) entries quoted (by omega) (by omega)]
          by_cases hd' : depth + 1 ≥ maxExpandDepth
          · simp only [if_pos hd']
            rfl
          · simp only [if_neg hd']
            cases expandEntries strict quoted entries (depth + 1) [] with
            | error e => rfl
            | ok es => rfl
    · intro depth entries quoted h1 h2
      rw [runExpandObject.eq_def]
      simp only
      split
      · rfl
      · rename_i hd
        simp only [maxExpandDepth] at hd
        generalize ([] : List (Str × Node F)) = out
        induction entries generalizing out with
        | nil => rw [expandEntries]; rfl
        | cons e rest ihs =>
          obtain ⟨key, value⟩ := e
          rw [overEach, expandEntries.eq_def]
          simp only [Run.result_bind]
          rw [ih.inner (depth + 1) value (by omega) (by omega)]
          cases expandInner strict value (depth + 1) with
          | error e => rfl
          | ok value' =>
            simp only [liftErr]
            cases expandSegments key quoted with
            | none =>
              simp only
              rw [runLiteral_result strict stack (depth + 1) out key value' (by omega) (by omega)]
              cases insertLiteral strict (depth + 1) out key value' with
              | error e => rfl
              | ok out' => simp only [liftErr]; exact ihs _
            | some segs =>
              simp only
              rw [runPath_result strict stack (depth + 1) out segs value' (by omega) (by omega)]
              cases insertPath strict (depth + 1) out segs value' with
              | error e => rfl
              | ok out' => simp only [liftErr]; exact ihs _

/-- A stack of 258 calls is enough for every value. -/
theorem runExpand_result (stack : Nat) (h : 258 ≤ stack) (value : Node F) :
    (runExpand strict stack value).result = liftErr (expandPathsSafe strict value) := by
  obtain ⟨stack, rfl⟩ : ∃ k, stack = k + 1 := ⟨stack - 1, by omega⟩
  exact (expandRuns strict stack).inner 0 value (by omega) (by omega)

end

end Toon
