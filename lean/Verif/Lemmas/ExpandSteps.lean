import Verif.Lemmas.ExpandFrames
import Verif.Lemmas.ExpandBasic
import Verif.Lemmas.ResourcesSize
import Verif.Lemmas.ResourcesTable
import Verif.Lemmas.FoldKeys
import Verif.Lemmas.Copies

/-! How many keys path expansion compares and how many values it copies, from above. -/

namespace Toon

/-- At most `c` steps, and a result of size at most `m`. -/
def Within {α : Type} (size : α → Nat) (c m : Nat) (x : Run α) : Prop := x.steps ≤ c ∧ ∀ a, x.result = .ok a → size a ≤ m

section
variable {α β : Type} {size : α → Nat} {size' : β → Nat}

theorem Within.bind {x : Run α} {f : α → Run β} {c m c' m' n : Nat} (h1 : Within size c m x)
    (h2 : ∀ a, size a ≤ m → Within size' c' m' (f a)) (hn : c + c' ≤ n) : Within size' n m' (x >>= f) := by
  constructor
  · show x.steps + (match x.result with | .ok a => (f a).steps | .error _ => 0) ≤ n
    have := h1.1
    cases hx : x.result with
    | error e => simp only; omega
    | ok a =>
      have := (h2 a (h1.2 a hx)).1
      simp only
      omega
  · intro b hb
    rw [Run.result_bind] at hb
    cases hx : x.result with
    | error e => simp [hx] at hb
    | ok a =>
      rw [hx] at hb
      exact (h2 a (h1.2 a hx)).2 b hb

theorem Within.tick {f : Unit → Run β} {k c m n : Nat} (h : Within size' c m (f ())) (hn : k + c ≤ n) :
    Within size' n m (Toon.tick k >>= f) :=
  Within.bind (size := fun _ => 0) (c := k) (m := 0) ⟨Nat.le_refl _, fun _ _ => Nat.le_refl _⟩ (fun _ _ => h) hn

theorem Within.pure {a : α} {c m : Nat} (h : size a ≤ m) : Within size c m (Pure.pure a) := by
  refine ⟨Nat.zero_le _, fun b hb => ?_⟩
  rw [Run.result_pure] at hb
  cases hb
  exact h

theorem Within.error {e : Err} {c m : Nat} : Within size c m (Run.lift (.error e)) :=
  ⟨Nat.zero_le _, fun b hb => by simp [Run.lift, liftErr] at hb⟩

theorem Within.overflow {c m : Nat} : Within size c m (Run.stop .overflow) :=
  ⟨Nat.zero_le _, fun b hb => by simp [Run.stop] at hb⟩

theorem Within.mono {x : Run α} {c m c' m' : Nat} (h : Within size c m x) (hc : c ≤ c') (hm : m ≤ m') : Within size c' m' x :=
  ⟨Nat.le_trans h.1 hc, fun a ha => Nat.le_trans (h.2 a ha) hm⟩

/-- A loop in which the result grows by `g x` in each pass, and a pass takes `k` steps for each unit of `g' x`. -/
theorem Within.each {f : β → α → Run α} {xs : List β} {g cost : β → Nat} {T : Nat}
    (h : ∀ x ∈ xs, ∀ out m, size out ≤ m → m + g x ≤ T → Within size (cost x) (m + g x) (f x out)) :
    ∀ out m, size out ≤ m → m + (xs.map g).sum ≤ T → Within size (xs.map cost).sum (m + (xs.map g).sum) (overEach f xs out) := by
  induction xs with
  | nil => intro out m h1 h2; exact Within.pure h1
  | cons x xs ih =>
    intro out m h1 h2
    simp only [List.map_cons, List.sum_cons] at h2 ⊢
    rw [overEach]
    refine Within.bind (h x (by simp) out m h1 (by omega)) (fun a ha => ?_) (Nat.le_refl _)
    have := ih (fun y hy => h y (by simp [hy])) a (m + g x) ha (by omega)
    rw [Nat.add_assoc] at this
    exact this

end

section
variable {F : Type}

/-- The number of values in a node. -/
abbrev nodeSize (n : Node F) : Nat := nodes (nodeToJson n)
/-- The number of values in entries. -/
abbrev entriesSize (es : List (Str × Node F)) : Nat := nodesEntries (entriesToJson es)

theorem entriesSize_append (es fs : List (Str × Node F)) : entriesSize (es ++ fs) = entriesSize es + entriesSize fs := by
  induction es with
  | nil => simp [entriesSize, entriesToJson, nodesEntries]
  | cons e es ih =>
    simp only [entriesSize, List.cons_append, entriesToJson, nodesEntries] at ih ⊢
    omega

theorem entriesSize_one (k : Str) (v : Node F) : entriesSize [(k, v)] = nodeSize v := by
  simp [entriesSize, entriesToJson, nodesEntries]

theorem nodeSize_obj (es : List (Str × Node F)) (q : List Str) : nodeSize (.obj es q) = 1 + entriesSize es := by
  simp [nodeSize, nodeToJson, nodes]

theorem entriesSize_set {es : List (Str × Node F)} {k : Str} {v w : Node F} (h : entryGet es k = some v) :
    entriesSize (entrySet es k w) + nodeSize v = entriesSize es + nodeSize w := by
  induction es with
  | nil => simp [entryGet] at h
  | cons e es ih =>
    simp only [entryGet] at h
    simp only [entrySet]
    split at h
    · rename_i hk
      simp only [Option.some.injEq] at h
      subst h
      rw [if_pos hk]
      simp only [entriesSize, entriesToJson, nodesEntries, nodeSize]
      omega
    · rename_i hk
      rw [if_neg hk]
      have := ih h
      simp only [entriesSize, entriesToJson, nodesEntries, nodeSize] at this ⊢
      omega

theorem entriesSize_get {es : List (Str × Node F)} {k : Str} {v : Node F} (h : entryGet es k = some v) : nodeSize v ≤ entriesSize es := by
  induction es with
  | nil => simp [entryGet] at h
  | cons e es ih =>
    simp only [entryGet] at h
    simp only [entriesSize, entriesToJson, nodesEntries]
    split at h
    · simp only [Option.some.injEq] at h
      subst h
      simp only [nodeSize]
      omega
    · have := ih h
      simp only [entriesSize] at this
      omega

theorem keysCompared_le (key : Str) (es : List (Str × Node F)) : keysCompared key es ≤ entriesSize es := by
  induction es with
  | nil => simp [keysCompared]
  | cons e es ih =>
    have := nodes_pos (nodeToJson e.2)
    simp only [keysCompared, entriesSize, entriesToJson, nodesEntries] at ih ⊢
    split <;> omega

variable (strict : Bool)

theorem runMerge_within (stack : Nat) : ∀ (depth : Nat) (target source : List (Str × Node F)) (T m : Nat),
    entriesSize target ≤ m → m + entriesSize source ≤ T →
    Within entriesSize (2 * T * entriesSize source) (m + entriesSize source) (runMerge strict stack depth target source) := by
  induction stack with
  | zero => intro depth target source T m h1 h2; rw [runMerge]; exact Within.overflow
  | succ stack ih =>
    intro depth target source T m h1 h2
    rw [runMerge]
    split
    · exact Within.error
    · have hsum : ∀ src : List (Str × Node F), (src.map fun e => nodeSize e.2).sum = entriesSize src := by
        intro src
        induction src with
        | nil => simp [entriesSize, entriesToJson, nodesEntries]
        | cons e src ih => simp [ih, entriesSize, entriesToJson, nodesEntries, nodeSize]
      have hcost : ∀ src : List (Str × Node F), (src.map fun e => 2 * T * nodeSize e.2).sum = 2 * T * entriesSize src := by
        intro src
        induction src with
        | nil => simp [entriesSize, entriesToJson, nodesEntries]
        | cons e src ih => simp only [List.map_cons, List.sum_cons, ih, entriesSize, entriesToJson, nodesEntries, nodeSize, Nat.mul_add]
      rw [← hsum source] at h2 ⊢
      rw [hsum source, ← hcost source, ← hsum source]
      refine Within.each (T := T) (g := fun (e : Str × Node F) => nodeSize e.2) (cost := fun (e : Str × Node F) => 2 * T * nodeSize e.2) ?_ target m h1 h2
      rintro ⟨key, value⟩ _ out m h1 h2
      simp only at h2 ⊢
      have hv := nodes_pos (nodeToJson value)
      have hT : 2 * T ≤ 2 * T * nodeSize value := Nat.le_mul_of_pos_right _ hv
      have hc := keysCompared_le key out
      refine Within.tick (c := 2 * T * nodeSize value - keysCompared key out) ?_ (by omega)
      cases hg : entryGet out key with
      | none =>
        refine Within.pure ?_
        rw [entriesSize_append, entriesSize_one]
        omega
      | some existing =>
        have he := entriesSize_get hg
        simp only [nodeSize] at he
        have hset : ∀ w : Node F, entriesSize (entrySet out key w) + nodeSize existing = entriesSize out + nodeSize w :=
          fun w => entriesSize_set hg
        have hpos := nodes_pos (nodeToJson existing)
        have hrep : Within entriesSize 0 (m + nodeSize value) (pure (entrySet out key value)) := by
          refine Within.pure ?_
          have := hset value
          omega
        refine Within.tick (c := 2 * T * nodeSize value - 2 * T) ?_ (by omega)
        have hother : Within entriesSize (2 * T * nodeSize value - 2 * T) (m + nodeSize value)
            (if strict then Run.lift (.error (.pathConflict (.merge key (nodeKind existing) (nodeKind value))))
            else pure (entrySet out key value)) := by
          split
          · exact Within.error
          · exact hrep.mono (Nat.zero_le _) (Nat.le_refl _)
        cases existing with
        | prim p => exact hother
        | arr items => exact hother
        | obj es q =>
          cases value with
          | prim p => exact hother
          | arr items => exact hother
          | obj src q' =>
            simp only
            have e1 := nodeSize_obj es q
            have e2 := nodeSize_obj src q'
            simp only [nodeSize] at e1 e2 hset h2 hT ⊢
            refine Within.bind (ih (depth + 1) es src T (entriesSize es) (Nat.le_refl _) (by omega)) (c' := 0) (fun merged hm => ?_) ?_
            · refine Within.pure ?_
              have h3 := hset (.obj merged q)
              have h4 := nodeSize_obj merged q
              simp only [nodeSize] at h4
              omega
            · rw [e2, Nat.mul_add]
              omega

theorem runLiteral_within (stack depth : Nat) (out : List (Str × Node F)) (key : Str) (value : Node F) (T m : Nat)
    (h1 : entriesSize out ≤ m) (h2 : m + nodeSize value ≤ T) :
    Within entriesSize (2 * T * nodeSize value) (m + nodeSize value) (runLiteral strict stack depth out key value) := by
  cases stack with
  | zero => rw [runLiteral]; exact Within.overflow
  | succ stack =>
    rw [runLiteral]
    split
    · exact Within.error
    · have hv := nodes_pos (nodeToJson value)
      have hT : 2 * T ≤ 2 * T * nodeSize value := Nat.le_mul_of_pos_right _ hv
      have hc := keysCompared_le key out
      refine Within.tick (c := 2 * T * nodeSize value - keysCompared key out) ?_ (by omega)
      cases hg : entryGet out key with
      | none =>
        refine Within.pure ?_
        rw [entriesSize_append, entriesSize_one]
        omega
      | some existing =>
        have he := entriesSize_get hg
        simp only [nodeSize] at he
        have hset : ∀ w : Node F, entriesSize (entrySet out key w) + nodeSize existing = entriesSize out + nodeSize w :=
          fun w => entriesSize_set hg
        have hpos := nodes_pos (nodeToJson existing)
        have hrep : Within entriesSize 0 (m + nodeSize value) (pure (entrySet out key value)) := by
          refine Within.pure ?_
          have := hset value
          omega
        refine Within.tick (c := 2 * T * nodeSize value - 2 * T) ?_ (by omega)
        have hother : Within entriesSize (2 * T * nodeSize value - 2 * T) (m + nodeSize value)
            (if strict then Run.lift (.error (.pathConflict (.merge key (nodeKind existing) (nodeKind value))))
            else pure (entrySet out key value)) := by
          split
          · exact Within.error
          · exact hrep.mono (Nat.zero_le _) (Nat.le_refl _)
        cases existing with
        | prim p => exact hother
        | arr items => exact hother
        | obj es q =>
          cases value with
          | prim p => exact hother
          | arr items => exact hother
          | obj src q' =>
            simp only
            have e1 := nodeSize_obj es q
            have e2 := nodeSize_obj src q'
            simp only [nodeSize] at e1 e2 hset h2 hT ⊢
            refine Within.bind (runMerge_within strict stack (depth + 1) es src T (entriesSize es) (Nat.le_refl _) (by omega)) (c' := 0)
              (fun merged hm => ?_) ?_
            · refine Within.pure ?_
              have h3 := hset (.obj merged q)
              have h4 := nodeSize_obj merged q
              simp only [nodeSize] at h4
              omega
            · rw [e2, Nat.mul_add]
              omega

theorem runPath_within (stack : Nat) : ∀ (depth : Nat) (out : List (Str × Node F)) (seg : Str) (segs : List Str) (value : Node F) (T m : Nat),
    entriesSize out ≤ m → m + segs.length + nodeSize value ≤ T →
    Within entriesSize (2 * T * (segs.length + nodeSize value)) (m + segs.length + nodeSize value)
      (runPath strict stack depth out (seg :: segs) value) := by
  induction stack with
  | zero => intro depth out seg segs value T m h1 h2; rw [runPath]; exact Within.overflow
  | succ stack ih =>
    intro depth out seg segs value T m h1 h2
    rw [runPath.eq_def]
    simp only
    split
    · exact Within.error
    · cases segs with
      | nil =>
        simp only [List.length_nil, Nat.add_zero, Nat.zero_add] at h2 ⊢
        exact runLiteral_within strict stack (depth + 1) out seg value T m h1 h2
      | cons seg' segs =>
        simp only [List.length_cons] at h2 ⊢
        have hc := keysCompared_le seg out
        have hmul : 2 * T * (segs.length + 1 + nodeSize value) = 2 * T * (segs.length + nodeSize value) + 2 * T := by
          rw [Nat.add_right_comm, Nat.mul_add _ _ 1, Nat.mul_one]
        have h0 : entriesSize ([] : List (Str × Node F)) = 0 := by simp [entriesSize, entriesToJson, nodesEntries]
        refine Within.tick (c := 2 * T * (segs.length + nodeSize value)) ?_ (by omega)
        cases hg : entryGet out seg with
        | none =>
          simp only
          refine Within.bind (ih (depth + 1) [] seg' segs value T 0 (by omega) (by omega)) (c' := 0) (fun es' hm => ?_) (Nat.le_refl _)
          refine Within.pure ?_
          have := nodeSize_obj es' []
          rw [entriesSize_append, entriesSize_one]
          omega
        | some existing =>
          have hset : ∀ w : Node F, entriesSize (entrySet out seg w) + nodeSize existing = entriesSize out + nodeSize w :=
            fun w => entriesSize_set hg
          have hpos := nodes_pos (nodeToJson existing)
          have hother : Within entriesSize (2 * T * (segs.length + nodeSize value)) (m + (segs.length + 1) + nodeSize value)
              (if strict then Run.lift (.error (.pathConflict (.segment seg (nodeKind existing))))
              else do
                let es' ← runPath strict stack (depth + 1) [] (seg' :: segs) value
                pure (entrySet out seg (.obj es' []))) := by
            split
            · exact Within.error
            · refine Within.bind (ih (depth + 1) [] seg' segs value T 0 (by omega) (by omega)) (c' := 0) (fun es' hm => ?_) (Nat.le_refl _)
              refine Within.pure ?_
              have h3 := nodeSize_obj es' []
              have h4 := hset (.obj es' [])
              omega
          cases existing with
          | prim p => exact hother
          | arr items => exact hother
          | obj es q =>
            simp only
            have e1 := nodeSize_obj es q
            have he := entriesSize_get hg
            refine Within.bind (ih (depth + 1) es seg' segs value T (entriesSize es) (Nat.le_refl _) (by omega)) (c' := 0)
              (fun es' hm => ?_) (Nat.le_refl _)
            refine Within.pure ?_
            have h3 := nodeSize_obj es' q
            have h4 := hset (.obj es' q)
            omega

theorem segments_length {k : Str} {quoted segs : List Str} (h : expandSegments k quoted = some segs) :
    ∃ seg segs', segs = seg :: segs' ∧ segs'.length ≤ k.length := by
  obtain ⟨h1, _, h3, _⟩ := expandSegments_some h
  match segs with
  | [] => simp at h1
  | seg :: segs =>
    refine ⟨seg, segs, rfl, ?_⟩
    have h4 : ∀ (segs : List Str) (seg : Str), segs.length ≤ (joinWith '.' (seg :: segs)).length := by
      intro segs
      induction segs with
      | nil => intro seg; exact Nat.zero_le _
      | cons s ss ih =>
        intro seg
        have := ih s
        simp only [joinWith, List.length_append, List.length_cons] at this ⊢
        omega
    rw [h3]
    exact h4 segs seg

/-- The values and characters in a node. -/
abbrev nodeVolume (n : Node F) : Nat := volume (nodeToJson n)

theorem volumeItems_sum (ns : List (Node F)) : (ns.map nodeVolume).sum = volumeItems (nodesToJson ns) := by
  induction ns with
  | nil => simp [nodesToJson, volumeItems]
  | cons n ns ih => simp [nodesToJson, volumeItems, ih]

theorem volumeEntries_sum (es : List (Str × Node F)) :
    (es.map fun e => e.1.length + nodeVolume e.2).sum = volumeEntries (entriesToJson es) := by
  induction es with
  | nil => simp [entriesToJson, volumeEntries]
  | cons e es ih => simp [entriesToJson, volumeEntries, ih]

theorem nodeVolume_pos (n : Node F) : 0 < nodeVolume n := Nat.lt_of_lt_of_le (nodes_pos _) (nodes_le_volume _)

theorem sum_mul (k : Nat) {α : Type} (g : α → Nat) (xs : List α) : (xs.map fun x => k * g x).sum = k * (xs.map g).sum := by
  induction xs with
  | nil => simp
  | cons x xs ih => simp [ih, Nat.mul_add]

theorem heightItems_ge {ns : List (Node F)} {n : Node F} (h : n ∈ ns) : height (nodeToJson n) ≤ heightItems (nodesToJson ns) := by
  induction ns with
  | nil => simp at h
  | cons m ns ih =>
    simp only [nodesToJson, heightItems]
    rcases List.mem_cons.mp h with rfl | h
    · omega
    · have := ih h; omega

theorem heightEntries_ge {es : List (Str × Node F)} {e : Str × Node F} (h : e ∈ es) :
    height (nodeToJson e.2) ≤ heightEntries (entriesToJson es) := by
  induction es with
  | nil => simp at h
  | cons f es ih =>
    obtain ⟨k, v⟩ := f
    simp only [entriesToJson, heightEntries]
    rcases List.mem_cons.mp h with rfl | h
    · simp only; omega
    · have := ih h; omega

theorem nodeItems_append (a b : List (Node F)) : nodesItems (nodesToJson (a ++ b)) = nodesItems (nodesToJson a) + nodesItems (nodesToJson b) := by
  induction a with
  | nil => simp [nodesToJson, nodesItems]
  | cons n a ih => simp only [List.cons_append, nodesToJson, nodesItems, ih]; omega

/-- Both functions of the recursion over the value; `h` bounds the nesting of objects, or what the cap leaves of it. -/
structure ExpandWithin (stack : Nat) : Prop where
  inner : ∀ (depth h T : Nat) (value : Node F), (height (nodeToJson value) ≤ h ∨ 256 ≤ depth + 2 * h) → nodeVolume value ≤ T →
    Within nodeSize (2 * T * h * nodeVolume value) (nodeVolume value) (runInner strict stack depth value)
  object : ∀ (depth h T : Nat) (entries : List (Str × Node F)) (quoted : List Str),
    (heightEntries (entriesToJson entries) ≤ h ∨ 256 ≤ depth + 1 + 2 * h) → volumeEntries (entriesToJson entries) ≤ T →
    Within entriesSize (2 * T * (h + 1) * volumeEntries (entriesToJson entries)) (volumeEntries (entriesToJson entries))
      (runExpandObject strict stack depth entries quoted)

theorem expandWithin (stack : Nat) : ExpandWithin (F := F) strict stack := by
  induction stack with
  | zero =>
    constructor
    · intro depth h T value h1 h2; rw [runInner]; exact Within.overflow
    · intro depth h T entries quoted h1 h2; rw [runExpandObject]; exact Within.overflow
  | succ stack ih =>
    constructor
    · intro depth h T value h1 h2
      rw [runInner.eq_def]
      simp only
      split
      · exact Within.error
      · rename_i hd
        simp only [maxExpandDepth] at hd
        cases value with
        | prim p => exact Within.pure (nodes_le_volume _)
        | arr items =>
          simp only [nodeVolume, nodeToJson, volume, height] at h1 h2 ⊢
          have hsum := volumeItems_sum items
          have hcost := sum_mul (2 * T * h) nodeVolume items
          rw [hsum] at hcost
          refine Within.bind (size := fun ns => nodesItems (nodesToJson ns)) (c := 2 * T * h * volumeItems (nodesToJson items))
            (m := 0 + volumeItems (nodesToJson items)) (c' := 0) ?_ (fun ns hns => Within.pure ?_) ?_
          · rw [← hcost, ← hsum]
            refine Within.each (T := T) (g := nodeVolume) (cost := fun n => 2 * T * h * nodeVolume n) ?_ [] 0 (by simp [nodesToJson, nodesItems]) (by omega)
            intro n hn out m hm hT
            have hh := heightItems_ge hn
            refine Within.bind (ih.inner (depth + 1) h T n (by omega) (by omega)) (c' := 0) (fun n' hn' => Within.pure ?_) (Nat.le_refl _)
            rw [nodeItems_append]
            simp only [nodesToJson, nodesItems]
            simp only [nodeSize] at hn'
            omega
          · simp only [nodeSize, nodeToJson, nodes]
            omega
          · exact Nat.mul_le_mul_left _ (by omega)
        | obj entries quoted =>
          simp only [nodeVolume, nodeToJson, volume, height] at h1 h2 ⊢
          obtain ⟨h, rfl⟩ : ∃ k, h = k + 1 := ⟨h - 1, by omega⟩
          refine Within.bind (ih.object (depth + 1) h T entries quoted (by omega) (by omega)) (c' := 0) (fun es hes => Within.pure ?_)
            (Nat.mul_le_mul_left _ (by omega))
          rw [nodeSize_obj]
          omega
    · intro depth h T entries quoted h1 h2
      rw [runExpandObject.eq_def]
      simp only
      split
      · exact Within.error
      · have hsum := volumeEntries_sum entries
        have hcost := sum_mul (2 * T * (h + 1)) (fun e : Str × Node F => e.1.length + nodeVolume e.2) entries
        rw [hsum] at hcost
        rw [← hcost, ← hsum]
        refine (Within.each (T := T) (g := fun e : Str × Node F => e.1.length + nodeVolume e.2)
          (cost := fun e => 2 * T * (h + 1) * (e.1.length + nodeVolume e.2)) ?_ [] 0 (by simp [entriesSize, entriesToJson, nodesEntries]) (by omega)).mono
          (Nat.le_refl _) (by omega)
        rintro ⟨key, value⟩ he out m hm hT
        have hh := heightEntries_ge he
        simp only at hh hT ⊢
        have e1 : 2 * T * (h + 1) * (key.length + nodeVolume value) =
            2 * T * h * (key.length + nodeVolume value) + 2 * T * (key.length + nodeVolume value) := by
          rw [Nat.mul_add (2 * T) h 1, Nat.mul_one, Nat.add_mul]
        have e2 : 2 * T * h * nodeVolume value ≤ 2 * T * h * (key.length + nodeVolume value) := Nat.mul_le_mul_left _ (by omega)
        refine Within.bind (ih.inner (depth + 1) h T value (by omega) (by omega)) (c' := 2 * T * (key.length + nodeVolume value))
          (fun value' hv => ?_) (by omega)
        cases hs : expandSegments key quoted with
        | none =>
          refine (runLiteral_within strict stack (depth + 1) out key value' T m hm (by omega)).mono ?_ (by omega)
          exact Nat.mul_le_mul_left _ (by omega)
        | some segs =>
          obtain ⟨seg, segs', rfl, hl⟩ := segments_length hs
          refine (runPath_within strict stack (depth + 1) out seg segs' value' T m hm (by omega)).mono ?_ (by omega)
          exact Nat.mul_le_mul_left _ (by omega)

theorem runExpand_steps (stack : Nat) (value : Node F) : (runExpand strict stack value).steps ≤
    2 * (nodeVolume value * nodeVolume value) * min (height (nodeToJson value)) 128 := by
  cases stack with
  | zero => exact Nat.zero_le _
  | succ stack =>
    have h := ((expandWithin strict stack).inner 0 (min (height (nodeToJson value)) 128) (nodeVolume value) value (by omega) (Nat.le_refl _)).1
    rw [runExpand]
    refine Nat.le_trans h (Nat.le_of_eq ?_)
    ac_rfl

end

end Toon
