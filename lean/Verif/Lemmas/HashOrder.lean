import Verif.Spec.HashOrder
import Verif.Lemmas.EncFrames

/-!
# The layout of the hash sets is never read
-/

namespace Toon

theorem SameMembers.contains {a b : List Str} (h : SameMembers a b) (k : Str) : a.contains k = b.contains k := by
  rw [Bool.eq_iff_iff, List.contains_iff_mem, List.contains_iff_mem]
  exact h k

theorem SameMembers.refl (a : List Str) : SameMembers a a := fun _ => Iff.rfl

theorem SameMembers.trans {a b c : List Str} (h : SameMembers a b) (g : SameMembers b c) : SameMembers a c :=
  fun k => (h k).trans (g k)

theorem SameMembers.cons {a b : List Str} (h : SameMembers a b) (x : Str) : SameMembers (x :: a) (x :: b) := by
  intro k
  rw [List.mem_cons, List.mem_cons, h k]

section
variable {F : Type}

mutual
theorem Alike.refl : (n : Node F) → Alike n n
  | .prim p => .prim p
  | .arr xs => .arr (AlikeItems.refl xs)
  | .obj es q => .obj (AlikeEntries.refl es) (SameMembers.refl q)
theorem AlikeItems.refl : (xs : List (Node F)) → AlikeItems xs xs
  | [] => .nil
  | x :: xs => .cons (Alike.refl x) (AlikeItems.refl xs)
theorem AlikeEntries.refl : (es : List (Str × Node F)) → AlikeEntries es es
  | [] => .nil
  | (k, x) :: xs => .cons k (Alike.refl x) (AlikeEntries.refl xs)
end

mutual
theorem Alike.trans : (x y z : Node F) → Alike x y → Alike y z → Alike x z
  | _, _, _, .prim p, .prim _ => .prim p
  | .arr xs, .arr ys, .arr zs, .arr h, .arr g => .arr (AlikeItems.trans xs ys zs h g)
  | .obj xs _, .obj ys _, .obj zs _, .obj h q, .obj g r => .obj (AlikeEntries.trans xs ys zs h g) (q.trans r)
theorem AlikeItems.trans : (x y z : List (Node F)) → AlikeItems x y → AlikeItems y z → AlikeItems x z
  | _, _, _, .nil, .nil => .nil
  | x :: xs, y :: ys, z :: zs, .cons h hs, .cons g gs => .cons (Alike.trans x y z h g) (AlikeItems.trans xs ys zs hs gs)
theorem AlikeEntries.trans : (x y z : List (Str × Node F)) → AlikeEntries x y → AlikeEntries y z → AlikeEntries x z
  | _, _, _, .nil, .nil => .nil
  | (_, x) :: xs, (_, y) :: ys, (_, z) :: zs, .cons k h hs, .cons _ g gs => .cons k (Alike.trans x y z h g) (AlikeEntries.trans xs ys zs hs gs)
end

theorem AlikeItems.push {xs ys : List (Node F)} {x y : Node F} (h : AlikeItems xs ys) (g : Alike x y) :
    AlikeItems (xs ++ [x]) (ys ++ [y]) := by
  match xs, ys, h with
  | [], [], .nil => exact .cons g .nil
  | _ :: _, _ :: _, .cons a as => exact .cons a (AlikeItems.push as g)

theorem AlikeEntries.push {xs ys : List (Str × Node F)} {x y : Node F} (h : AlikeEntries xs ys) (k : Str) (g : Alike x y) :
    AlikeEntries (xs ++ [(k, x)]) (ys ++ [(k, y)]) := by
  match xs, ys, h with
  | [], [], .nil => exact .cons k g .nil
  | _ :: _, _ :: _, .cons j a as => exact .cons j a (AlikeEntries.push as k g)

theorem AlikeCtx.trans {x y z : BCtx F} (h : AlikeCtx x y) (g : AlikeCtx y z) : AlikeCtx x z := by
  match h, g with
  | .arr h, .arr g => exact .arr (AlikeItems.trans _ _ _ h g)
  | .obj c h q, .obj _ g r => exact .obj c (AlikeEntries.trans _ _ _ h g) (q.trans r)

theorem AlikeStack.trans {x y z : List (BCtx F)} (h : AlikeStack x y) (g : AlikeStack y z) : AlikeStack x z := by
  match x, y, z, h, g with
  | _, _, _, .nil, .nil => exact .nil
  | _ :: _, _ :: _, _ :: _, .cons a as, .cons b bs => exact .cons (a.trans b) (AlikeStack.trans as bs)

theorem AlikeRoot.trans {x y z : Option (Node F)} (h : AlikeRoot x y) (g : AlikeRoot y z) : AlikeRoot x z := by
  match h, g with
  | .none, .none => exact .none
  | .some h, .some g => exact .some (Alike.trans _ _ _ h g)

theorem AlikeState.trans {x y z : BState F} (h : AlikeState x y) (g : AlikeState y z) : AlikeState x z :=
  ⟨h.stack.trans g.stack, h.root.trans g.root⟩

theorem AlikeStack.refl (x : List (BCtx F)) : AlikeStack x x := by
  induction x with
  | nil => exact .nil
  | cons c cs ih =>
    refine .cons ?_ ih
    cases c with
    | arr xs => exact .arr (AlikeItems.refl xs)
    | obj es cur q => exact .obj cur (AlikeEntries.refl es) (SameMembers.refl q)

theorem AlikeState.refl (x : BState F) : AlikeState x x := by
  refine ⟨AlikeStack.refl _, ?_⟩
  cases x.root with
  | none => exact .none
  | some n => exact .some (Alike.refl n)

/-- Both fail with the same error, or both return alike results. -/
def AlikeResult {α : Type} (R : α → α → Prop) : Except Err α → Except Err α → Prop
  | .error e, .error f => e = f
  | .ok a, .ok b => R a b
  | _, _ => False

theorem attach_alike {s t : List (BCtx F)} {p q : Option (Node F)} {m n : Node F} (h : AlikeStack s t) (hr : AlikeRoot p q)
    (hn : Alike m n) : AlikeResult AlikeState (attach s p m) (attach t q n) := by
  match h with
  | .nil => exact ⟨.nil, .some hn⟩
  | .cons (.arr hs) rest => exact ⟨.cons (.arr (hs.push hn)) rest, hr⟩
  | .cons (.obj (some k) hs hq) rest => exact ⟨.cons (.obj none (hs.push k hn) hq) rest, hr⟩
  | .cons (.obj none hs hq) rest => exact rfl

theorem applyEvent_alike {s t : BState F} (h : AlikeState s t) (e : Ev F) :
    AlikeResult AlikeState (applyEvent s e) (applyEvent t e) := by
  obtain ⟨ss, sr⟩ := s
  obtain ⟨ts, tr⟩ := t
  obtain ⟨hs, hr⟩ := h
  simp only at hs hr
  cases e with
  | startObj => exact ⟨.cons (.obj none .nil (SameMembers.refl _)) hs, hr⟩
  | startArr n => exact ⟨.cons (.arr .nil) hs, hr⟩
  | prim p => exact attach_alike hs hr (.prim p)
  | endObj =>
    match hs with
    | .nil => exact rfl
    | .cons (.arr g) rest => exact rfl
    | .cons (.obj c g q) rest => exact attach_alike rest hr (.obj g q)
  | endArr =>
    match hs with
    | .nil => exact rfl
    | .cons (.arr g) rest => exact attach_alike rest hr (.arr g)
    | .cons (.obj c g q) rest => exact rfl
  | key k q =>
    match hs with
    | .nil => exact rfl
    | .cons (.arr g) rest => exact rfl
    | .cons (.obj c g r) rest =>
      cases q with
      | false => exact ⟨.cons (.obj _ g r) rest, hr⟩
      | true => exact ⟨.cons (.obj _ g (r.cons k)) rest, hr⟩

theorem shaken_alike {s t : BState F} {evs : List (Ev F)} {r : Except Err (BState F)} (h : Shaken s evs r) (hst : AlikeState t s) :
    AlikeResult AlikeState (applyEvents t evs) r := by
  induction h generalizing t with
  | done s => exact hst
  | fails he =>
    rename_i e es err
    have := applyEvent_alike hst e
    rw [he] at this
    rw [applyEvents]
    cases ht : applyEvent t e with
    | error f => rw [ht] at this; exact this
    | ok u => rw [ht] at this; exact this.elim
  | @step s _ u e es r he ha _ ih =>
    have := applyEvent_alike hst e
    rw [he] at this
    rw [applyEvents]
    cases ht : applyEvent t e with
    | error f => rw [ht] at this; exact this.elim
    | ok u => rw [ht] at this; exact ih (AlikeState.trans this ha)

/-- Nothing need be shaken. -/
theorem shaken_still (s : BState F) (evs : List (Ev F)) : Shaken s evs (applyEvents s evs) := by
  induction evs generalizing s with
  | nil => exact .done s
  | cons e es ih =>
    rw [applyEvents]
    cases h : applyEvent s e with
    | error err => exact .fails h
    | ok t => exact .step h (AlikeState.refl t) (ih t)

theorem finished_alike {a b : Except Err (BState F)} (h : AlikeResult AlikeState a b) : AlikeResult Alike (finished a) (finished b) := by
  match a, b, h with
  | .error _, .error _, h => exact h
  | .ok ⟨ss, sr⟩, .ok ⟨ts, tr⟩, ⟨hs, hr⟩ =>
    simp only at hs hr
    match hs with
    | .cons _ _ => exact rfl
    | .nil =>
      match hr with
      | .none => exact rfl
      | .some hn => exact hn

theorem buildNode_finished (evs : List (Ev F)) : buildNode evs = finished (applyEvents ⟨[], none⟩ evs) := by
  unfold buildNode finished
  rfl

mutual
theorem Alike.json : (x y : Node F) → Alike x y → nodeToJson x = nodeToJson y
  | _, _, .prim p => rfl
  | .arr xs, .arr ys, .arr h => by rw [nodeToJson, nodeToJson, AlikeItems.json xs ys h]
  | .obj xs _, .obj ys _, .obj h _ => by rw [nodeToJson, nodeToJson, AlikeEntries.json xs ys h]
theorem AlikeItems.json : (x y : List (Node F)) → AlikeItems x y → nodesToJson x = nodesToJson y
  | _, _, .nil => rfl
  | x :: xs, y :: ys, .cons h hs => by rw [nodesToJson, nodesToJson, Alike.json x y h, AlikeItems.json xs ys hs]
theorem AlikeEntries.json : (x y : List (Str × Node F)) → AlikeEntries x y → entriesToJson x = entriesToJson y
  | _, _, .nil => rfl
  | (_, x) :: xs, (_, y) :: ys, .cons k h hs => by rw [entriesToJson, entriesToJson, Alike.json x y h, AlikeEntries.json xs ys hs]
end

theorem expandSegments_same {a b : List Str} (h : SameMembers a b) (k : Str) : expandSegments k a = expandSegments k b := by
  unfold expandSegments
  rw [h.contains k]

mutual
theorem Alike.expand (strict : Bool) : (x y : Node F) → Alike x y → ∀ depth, expandInner strict x depth = expandInner strict y depth
  | _, _, .prim p, _ => rfl
  | .arr xs, .arr ys, .arr h, depth => by rw [expandInner, expandInner, AlikeItems.expand strict xs ys h]
  | .obj xs q, .obj ys r, .obj h hq, depth => by rw [expandInner, expandInner, AlikeEntries.expand strict xs ys h q r hq]
theorem AlikeItems.expand (strict : Bool) : (x y : List (Node F)) → AlikeItems x y →
    ∀ depth, expandItems strict x depth = expandItems strict y depth
  | _, _, .nil, _ => rfl
  | x :: xs, y :: ys, .cons h hs, depth => by
    rw [expandItems, expandItems, Alike.expand strict x y h, AlikeItems.expand strict xs ys hs]
theorem AlikeEntries.expand (strict : Bool) : (x y : List (Str × Node F)) → AlikeEntries x y →
    ∀ (q r : List Str), SameMembers q r → ∀ depth out, expandEntries strict q x depth out = expandEntries strict r y depth out
  | _, _, .nil, _, _, _, _, _ => rfl
  | (_, x) :: xs, (_, y) :: ys, .cons k h hs, q, r, hq, depth, out => by
    rw [expandEntries, expandEntries, Alike.expand strict x y h, expandSegments_same hq k]
    simp only [AlikeEntries.expand strict xs ys hs q r hq depth]
end

/-- The two sets handed down by the encoder: none, or two with the same members. -/
def SameLiterals : Option (List Str) → Option (List Str) → Prop
  | none, none => True
  | some a, some b => SameMembers a b
  | _, _ => False

theorem tryFold_same {a b : Option (List Str)} (h : SameLiterals a b) (key : Str) (value : Json F) (siblings : List Str) (opts : EncOpts)
    (pp : Option Str) (fd : Nat) : tryFold key value siblings opts a pp fd = tryFold key value siblings opts b pp fd := by
  match a, b, h with
  | none, none, _ => rfl
  | some a, some b, h =>
    unfold tryFold
    simp only [SameMembers.contains h]

theorem rootLiterals_same {a b : Option (List Str)} (h : SameLiterals a b) (depth : Nat) (keys : List Str) :
    SameLiterals (rootLiterals depth a keys) (rootLiterals depth b keys) := by
  match a, b, h with
  | none, none, _ =>
    unfold rootLiterals
    split
    · exact SameMembers.refl _
    · trivial
  | some a, some b, h =>
    unfold rootLiterals
    simpa using h

theorem overEach_congr {α β : Type} {f g : α → β → Run β} (h : ∀ x out, f x out = g x out) (xs : List α) (out : β) :
    overEach f xs out = overEach g xs out := by
  have : f = g := by
    funext x out
    exact h x out
  rw [this]

variable [F64 F] (opts : EncOpts)

theorem run_same (stack : Nat) : (∀ (es : List (Str × Json F)) depth a b pp rem out, SameLiterals a b →
      runObject opts stack es depth a pp rem out = runObject opts stack es depth b pp rem out) ∧
    (∀ siblings a b pp fd key (v : Json F) depth out, SameLiterals a b →
      runPair opts stack siblings a pp fd key v depth out = runPair opts stack siblings b pp fd key v depth out) := by
  induction stack with
  | zero => exact ⟨fun _ _ _ _ _ _ _ _ => by rw [runObject, runObject], fun _ _ _ _ _ _ _ _ _ _ => by rw [runPair, runPair]⟩
  | succ s ih =>
    constructor
    · intro es depth a b pp rem out h
      rw [runObject, runObject]
      exact overEach_congr (fun x o => ih.2 _ _ _ _ _ _ _ _ _ (rootLiterals_same h depth _)) es out
    · intro siblings a b pp fd key v depth out h
      rw [runPair.eq_def, runPair.eq_def]
      simp only
      rw [tryFold_same h]
      congr 1
      funext _
      cases tryFold key v siblings opts b pp fd with
      | some folded =>
        simp only
        cases folded.leaf with
        | prim p => rfl
        | arr items => rfl
        | obj es =>
          simp only
          split
          · rfl
          · exact ih.1 _ _ _ _ _ _ _ h
      | none =>
        simp only
        cases v with
        | prim p => rfl
        | arr items => rfl
        | obj es =>
          simp only
          split
          · rfl
          · exact ih.1 _ _ _ _ _ _ _ h

theorem encodeKeyValue_same {a b : Option (List Str)} (h : SameLiterals a b) (siblings : List Str) (pp : Option Str) (fd : Nat)
    (key : Str) (v : Json F) (depth : Nat) :
    encodeKeyValue opts siblings a pp fd key v depth = encodeKeyValue opts siblings b pp fd key v depth := by
  have ha := (encRuns opts (3 * height v + 1)).pair siblings a pp fd key v depth [] (Nat.le_refl _)
  have hb := (encRuns opts (3 * height v + 1)).pair siblings b pp fd key v depth [] (Nat.le_refl _)
  rw [(run_same opts _).2 siblings a b pp fd key v depth [] h, hb] at ha
  exact (Except.ok.inj ha).symm

theorem encodeEntries_same {a b : Option (List Str)} (h : SameLiterals a b) (siblings : List Str) (pp : Option Str) (fd : Nat)
    (es : List (Str × Json F)) (depth : Nat) :
    encodeEntries opts siblings a pp fd es depth = encodeEntries opts siblings b pp fd es depth := by
  rw [encodeEntries_flatten, encodeEntries_flatten]
  congr 1
  funext e
  exact encodeKeyValue_same opts h siblings pp fd e.1 e.2 depth

end

end Toon
