import Verif.Lemmas.ExpandFrames
import Verif.Lemmas.EncFramesMono

/-! Path expansion with a bounded stack does the same in a larger stack unless it overflows; and a value that needs all of it. -/

namespace Toon

section
variable {F : Type} (strict : Bool)

theorem runMerge_more (stack : Nat) : ∀ (depth : Nat) (target source : List (Str × Node F)),
    LeStop (runMerge strict stack depth target source) (runMerge strict (stack + 1) depth target source) := by
  induction stack with
  | zero => intros; rw [runMerge]; exact .stop _
  | succ s ih =>
    intro depth target source
    rw [runMerge, runMerge]
    split
    · exact .refl _
    · refine LeStop.overEach (fun e target => .then _ fun _ => ?_) _ _
      split
      · exact .refl _
      · refine .then _ fun _ => ?_
        split
        · exact (ih _ _ _).bind fun _ => .refl _
        · exact .refl _

theorem runLiteral_more (stack depth : Nat) (entries : List (Str × Node F)) (key : Str) (value : Node F) :
    LeStop (runLiteral strict stack depth entries key value) (runLiteral strict (stack + 1) depth entries key value) := by
  cases stack with
  | zero => rw [runLiteral]; exact .stop _
  | succ s =>
    rw [runLiteral, runLiteral]
    split
    · exact .refl _
    · refine .then _ fun _ => ?_
      split
      · exact .refl _
      · refine .then _ fun _ => ?_
        split
        · exact (runMerge_more strict s _ _ _).bind fun _ => .refl _
        · exact .refl _

theorem runPath_more (stack : Nat) : ∀ (depth : Nat) (entries : List (Str × Node F)) (segments : List Str) (value : Node F),
    LeStop (runPath strict stack depth entries segments value) (runPath strict (stack + 1) depth entries segments value) := by
  induction stack with
  | zero => intros; rw [runPath]; exact .stop _
  | succ s ih =>
    intro depth entries segments value
    rw [runPath.eq_def, runPath.eq_def strict (s + 1 + 1)]
    simp only
    split
    · exact .refl _
    · match segments with
      | [] => exact .refl _
      | [seg] => exact runLiteral_more strict s _ _ _ _
      | key :: seg :: segs =>
        refine .then _ fun _ => ?_
        split
        · exact (ih _ _ _ _).bind fun _ => .refl _
        · split
          · exact .refl _
          · exact (ih _ _ _ _).bind fun _ => .refl _
        · exact (ih _ _ _ _).bind fun _ => .refl _

/-- One more frame changes nothing unless there is an overflow. -/
structure ExpandMore (stack : Nat) : Prop where
  inner : ∀ (depth : Nat) (value : Node F), LeStop (runInner strict stack depth value) (runInner strict (stack + 1) depth value)
  object : ∀ (depth : Nat) (entries : List (Str × Node F)) (quoted : List Str),
    LeStop (runExpandObject strict stack depth entries quoted) (runExpandObject strict (stack + 1) depth entries quoted)

theorem expandMore (stack : Nat) : ExpandMore (F := F) strict stack := by
  induction stack with
  | zero =>
    constructor
    · intros; rw [runInner]; exact .stop _
    · intros; rw [runExpandObject]; exact .stop _
  | succ s ih =>
    constructor
    · intro depth value
      rw [runInner.eq_def, runInner.eq_def strict (s + 1 + 1)]
      simp only
      split
      · exact .refl _
      · cases value with
        | prim p => exact .refl _
        | arr items =>
          exact (LeStop.overEach (fun item out => (ih.inner _ item).bind fun _ => .refl _) _ _).bind fun _ => .refl _
        | obj entries quoted => exact (ih.object _ _ _).bind fun _ => .refl _
    · intro depth entries quoted
      rw [runExpandObject.eq_def, runExpandObject.eq_def strict (s + 1 + 1)]
      simp only
      split
      · exact .refl _
      · refine LeStop.overEach (fun (e : Str × Node F) out => (ih.inner _ e.2).bind fun _ => ?_) _ _
        split
        · exact runPath_more strict s _ _ _ _
        · exact runLiteral_more strict s _ _ _ _

theorem runExpand_more (stack more : Nat) (value : Node F) : LeStop (runExpand strict stack value) (runExpand strict (stack + more) value) := by
  induction more with
  | zero => exact .refl _
  | succ more ih =>
    refine ih.trans ?_
    rw [← Nat.add_assoc]
    cases stack + more with
    | zero => rw [runExpand]; exact .stop _
    | succ s => rw [runExpand, runExpand]; exact (expandMore strict s).inner 0 value

/-- `n` arrays around `null`. -/
def deepNode : Nat → Node F
  | 0 => .prim .null
  | n + 1 => .arr [deepNode n]

theorem deepNode_overflow (stack : Nat) : ∀ (depth n : Nat), stack ≤ n → stack + depth ≤ 256 →
    (runInner strict stack depth (deepNode n : Node F)).result = .error .overflow := by
  induction stack with
  | zero => intro depth n h1 h2; rw [runInner]; rfl
  | succ s ih =>
    intro depth n h1 h2
    obtain ⟨n, rfl⟩ : ∃ k, n = k + 1 := ⟨n - 1, by omega⟩
    rw [runInner.eq_def]
    simp only
    rw [if_neg (by simp only [maxExpandDepth]; omega)]
    simp only [deepNode, overEach, Run.result_bind]
    rw [ih (depth + 1) n (by omega) (by omega)]

end

end Toon
