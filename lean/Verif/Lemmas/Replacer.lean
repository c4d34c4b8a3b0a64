import Verif.Spec.Replacer
import Verif.Lemmas.Output

namespace Toon

variable {S F : Type} [F64 F]

/-! ## More fuel -/

theorem transformObject_mono {child child' : List PathSeg → Json F → S → Option (Json F × S)}
    (hc : ∀ p v s x, child p v s = some x → child' p v s = some x) (r : Replacer S F) (path) :
    ∀ es s x, transformObject child r path es s = some x →
      transformObject child' r path es s = some x
  | [], _, _, h => h
  | (k, v) :: es, s, x, h => by
    rw [transformObject] at h ⊢
    have ih := transformObject_mono hc r path es
    rcases hr : r k v (path ++ [.key k]) s with ⟨_ | w, s1⟩ <;> simp only [hr] at h ⊢
    · exact ih _ _ h
    · split at h
      · simp at h
      · rename_i hch
        simp only [hc _ _ _ _ hch]
        split at h
        · simp at h
        · rename_i hrest
          simp only [ih _ _ hrest]; exact h

theorem transformArray_mono {child child' : List PathSeg → Json F → S → Option (Json F × S)}
    (hc : ∀ p v s x, child p v s = some x → child' p v s = some x) (r : Replacer S F) (path) :
    ∀ vs i s x, transformArray child r path i vs s = some x →
      transformArray child' r path i vs s = some x
  | [], _, _, _, h => h
  | v :: vs, i, s, x, h => by
    rw [transformArray] at h ⊢
    have ih := transformArray_mono hc r path vs
    rcases hr : r (indexKey i) v (path ++ [.index i]) s with ⟨_ | w, s1⟩ <;> simp only [hr] at h ⊢
    · exact ih _ _ _ h
    · split at h
      · simp at h
      · rename_i hch
        simp only [hc _ _ _ _ hch]
        split at h
        · simp at h
        · rename_i hrest
          simp only [ih _ _ _ hrest]; exact h

theorem transformChildren_succ (r : Replacer S F) :
    ∀ n p v s x, transformChildren r n p v s = some x → transformChildren r (n + 1) p v s = some x
  | 0, _, _, _, _, h => by simp [transformChildren] at h
  | n + 1, p, .prim q, s, x, h => by simpa [transformChildren] using h
  | n + 1, p, .obj es, s, x, h => by
    rw [transformChildren] at h ⊢
    split at h
    · simp at h
    · rename_i he
      simp only [transformObject_mono (transformChildren_succ r n) r p es s _ he]; exact h
  | n + 1, p, .arr es, s, x, h => by
    rw [transformChildren] at h ⊢
    split at h
    · simp at h
    · rename_i he
      simp only [transformArray_mono (transformChildren_succ r n) r p es 0 s _ he]; exact h

theorem transformChildren_mono (r : Replacer S F) {n m : Nat} (hnm : n ≤ m) {p v s x}
    (h : transformChildren r n p v s = some x) : transformChildren r m p v s = some x := by
  induction hnm with
  | refl => exact h
  | step _ ih => exact transformChildren_succ r _ _ _ _ _ ih

/-! ## Termination -/

theorem transformObject_ok {child : List PathSeg → Json F → S → Option (Json F × S)}
    (r : Replacer S F) (path) : ∀ es s,
    (∀ k v s w s', (k, v) ∈ es → r k v (path ++ [.key k]) s = (some w, s') →
      ∀ s, ∃ x, child (path ++ [.key k]) (normalize w) s = some x) →
    ∃ x, transformObject child r path es s = some x
  | [], s, _ => ⟨_, rfl⟩
  | (k, v) :: es, s, h => by
    have ih := fun s => transformObject_ok (child := child) r path es s
      (fun k v s w s' hm => h k v s w s' (List.mem_cons_of_mem _ hm))
    rw [transformObject]
    rcases hr : r k v (path ++ [.key k]) s with ⟨_ | w, s1⟩ <;> simp only [hr]
    · exact ih _
    · obtain ⟨⟨t, s1⟩, hx⟩ := h k v _ _ _ (List.mem_cons_self ..) hr s1
      simp only [hx]
      obtain ⟨⟨ts, s2⟩, hy⟩ := ih s1
      simp only [hy]
      exact ⟨_, rfl⟩

theorem transformArray_ok {child : List PathSeg → Json F → S → Option (Json F × S)}
    (r : Replacer S F) (path) : ∀ vs i s,
    (∀ j v s w s', v ∈ vs → r (indexKey j) v (path ++ [.index j]) s = (some w, s') →
      ∀ s, ∃ x, child (path ++ [.index j]) (normalize w) s = some x) →
    ∃ x, transformArray child r path i vs s = some x
  | [], i, s, _ => ⟨_, rfl⟩
  | v :: vs, i, s, h => by
    have ih := fun s => transformArray_ok (child := child) r path vs (i + 1) s
      (fun j v s w s' hm => h j v s w s' (List.mem_cons_of_mem _ hm))
    rw [transformArray]
    rcases hr : r (indexKey i) v (path ++ [.index i]) s with ⟨_ | w, s1⟩ <;> simp only [hr]
    · exact ih _
    · obtain ⟨⟨t, s1⟩, hx⟩ := h i v _ _ _ (List.mem_cons_self ..) hr s1
      simp only [hx]
      obtain ⟨⟨ts, s2⟩, hy⟩ := ih s1
      simp only [hy]
      exact ⟨_, rfl⟩

omit [F64 F] in
theorem height_mem_entries : ∀ {es : List (Str × Json F)} {k v}, (k, v) ∈ es →
    height v ≤ heightEntries es
  | (k', v') :: es, k, v, h => by
    rw [heightEntries]
    rcases List.mem_cons.mp h with h | h
    · cases h; omega
    · have := height_mem_entries h; omega

omit [F64 F] in
theorem height_mem_items : ∀ {vs : List (Json F)} {v}, v ∈ vs → height v ≤ heightItems vs
  | v' :: vs, v, h => by
    rw [heightItems]
    rcases List.mem_cons.mp h with h | h
    · cases h; omega
    · have := height_mem_items h; omega

theorem transformChildren_ok (r : Replacer S F)
    (hr : ∀ k v p s w s', r k v p s = (some w, s') → height w ≤ height v) :
    ∀ n p v s, height v < n → ∃ x, transformChildren r n p v s = some x
  | n + 1, p, .prim q, s, _ => ⟨_, rfl⟩
  | n + 1, p, .obj es, s, hn => by
    rw [height] at hn
    obtain ⟨x, hx⟩ := transformObject_ok (child := transformChildren r n) r p es s
      (fun k v s w s' hm he s1 => transformChildren_ok r hr n _ _ s1 (by
        rw [height_normalize]
        have := hr _ _ _ _ _ _ he; have := height_mem_entries hm; omega))
    rw [transformChildren]; simp only [hx]; exact ⟨_, rfl⟩
  | n + 1, p, .arr es, s, hn => by
    rw [height] at hn
    obtain ⟨x, hx⟩ := transformArray_ok (child := transformChildren r n) r p es 0 s
      (fun k v s w s' hm he s1 => transformChildren_ok r hr n _ _ s1 (by
        rw [height_normalize]
        have := hr _ _ _ _ _ _ he; have := height_mem_items hm; omega))
    rw [transformChildren]; simp only [hx]; exact ⟨_, rfl⟩

theorem hasParts_normalize {v : Json F} (h : HasParts v) : HasParts (normalize v) := by
  cases v with
  | prim p => exact h
  | arr vs => cases vs <;> simp_all [HasParts, normalize, normalizeItems]
  | obj es => cases es <;> simp_all [HasParts, normalize, normalizeEntries]

theorem transformChildren_none (r : Replacer S F)
    (hr : ∀ k v p s, ∃ w s', r k v p s = (some w, s') ∧ HasParts w) :
    ∀ n p v s, HasParts v → transformChildren r n p v s = none
  | 0, _, _, _, _ => rfl
  | n + 1, p, .prim _, s, h => h.elim
  | n + 1, p, .obj [], s, h => absurd rfl h
  | n + 1, p, .arr [], s, h => absurd rfl h
  | n + 1, p, .obj ((k, v) :: es), s, _ => by
    rw [transformChildren, transformObject]
    obtain ⟨w, s', he, hw⟩ := hr k v (p ++ [.key k]) s
    simp only [he, transformChildren_none r hr n _ _ s' (hasParts_normalize hw)]
  | n + 1, p, .arr (v :: vs), s, _ => by
    rw [transformChildren, transformArray]
    obtain ⟨w, s', he, hw⟩ := hr (indexKey 0) v (p ++ [.index 0]) s
    simp only [he, transformChildren_none r hr n _ _ s' (hasParts_normalize hw)]

/-! ## The identity replacer -/

/-- Hands every value back. -/
def identityReplacer : Replacer S F := fun _ v _ s => (some v, s)

theorem transformObject_id {child : List PathSeg → Json F → S → Option (Json F × S)} (path) :
    ∀ es s, NormalEntries es →
    (∀ k v p s, (k, v) ∈ es → child p v s = some (v, s)) →
    transformObject child identityReplacer path es s = some (es, s)
  | [], _, _, _ => rfl
  | (k, v) :: es, s, hn, hc => by
    rw [NormalEntries] at hn
    have := transformObject_id (child := child) path es s hn.2
      (fun k v p s hm => hc k v p s (List.mem_cons_of_mem _ hm))
    rw [transformObject]
    simp only [show ∀ k v p s, (identityReplacer : Replacer S F) k v p s = (some v, s) from fun _ _ _ _ => rfl,
      normalize_normal hn.1, hc k v _ _ (List.mem_cons_self ..), this]

theorem transformArray_id {child : List PathSeg → Json F → S → Option (Json F × S)} (path) :
    ∀ vs i s, NormalItems vs →
    (∀ v p s, v ∈ vs → child p v s = some (v, s)) →
    transformArray child identityReplacer path i vs s = some (vs, s)
  | [], _, _, _, _ => rfl
  | v :: vs, i, s, hn, hc => by
    rw [NormalItems] at hn
    have := transformArray_id (child := child) path vs (i + 1) s hn.2
      (fun v p s hm => hc v p s (List.mem_cons_of_mem _ hm))
    rw [transformArray]
    simp only [show ∀ k v p s, (identityReplacer : Replacer S F) k v p s = (some v, s) from fun _ _ _ _ => rfl,
      normalize_normal hn.1, hc v _ _ (List.mem_cons_self ..), this]

theorem normalEntries_mem : ∀ {es : List (Str × Json F)} {k v}, NormalEntries es → (k, v) ∈ es → Normal v
  | (k', v') :: es, k, v, hn, h => by
    rw [NormalEntries] at hn
    rcases List.mem_cons.mp h with h | h
    · cases h; exact hn.1
    · exact normalEntries_mem hn.2 h

theorem transformChildren_id : ∀ n p (v : Json F) (s : S), height v < n → Normal v →
    transformChildren identityReplacer n p v s = some (v, s)
  | n + 1, p, .prim q, s, _, _ => rfl
  | n + 1, p, .obj es, s, hh, hn => by
    rw [height] at hh; rw [Normal] at hn
    rw [transformChildren, transformObject_id p es s hn (fun k v p s hm =>
      transformChildren_id n p v s (by have := height_mem_entries hm; omega) (normalEntries_mem hn hm))]
  | n + 1, p, .arr vs, s, hh, hn => by
    rw [height] at hh; rw [Normal] at hn
    rw [transformChildren, transformArray_id p vs 0 s hn (fun v p s hm =>
      transformChildren_id n p v s (by have := height_mem_items hm; omega) (normalItems_mem hn hm))]

/-! ## The result is normalized -/

theorem transformObject_normal {child : List PathSeg → Json F → S → Option (Json F × S)}
    (hc : ∀ p v s x s', child p (normalize v) s = some (x, s') → Normal x) (r : Replacer S F) (path) :
    ∀ es s out s', transformObject child r path es s = some (out, s') → NormalEntries out
  | [], _, _, _, h => by simp [transformObject] at h; rw [h.1]; trivial
  | (k, v) :: es, s, out, s', h => by
    rw [transformObject] at h
    have ih := transformObject_normal hc r path es
    rcases hr : r k v (path ++ [.key k]) s with ⟨_ | w, s1⟩ <;> simp only [hr] at h
    · exact ih _ _ _ h
    · split at h
      · simp at h
      · rename_i hch
        split at h
        · simp at h
        · rename_i hrest
          simp only [Option.some.injEq, Prod.mk.injEq] at h
          rw [← h.1, NormalEntries]
          exact ⟨hc _ _ _ _ _ hch, ih _ _ _ hrest⟩

theorem transformArray_normal {child : List PathSeg → Json F → S → Option (Json F × S)}
    (hc : ∀ p v s x s', child p (normalize v) s = some (x, s') → Normal x) (r : Replacer S F) (path) :
    ∀ vs i s out s', transformArray child r path i vs s = some (out, s') → NormalItems out
  | [], _, _, _, _, h => by simp [transformArray] at h; rw [h.1]; trivial
  | v :: vs, i, s, out, s', h => by
    rw [transformArray] at h
    have ih := transformArray_normal hc r path vs
    rcases hr : r (indexKey i) v (path ++ [.index i]) s with ⟨_ | w, s1⟩ <;> simp only [hr] at h
    · exact ih _ _ _ _ h
    · split at h
      · simp at h
      · rename_i hch
        split at h
        · simp at h
        · rename_i hrest
          simp only [Option.some.injEq, Prod.mk.injEq] at h
          rw [← h.1, NormalItems]
          exact ⟨hc _ _ _ _ _ hch, ih _ _ _ _ hrest⟩

theorem transformChildren_normal [LawfulF64 F] (r : Replacer S F) : ∀ n p v s out s', Normal v →
    transformChildren r n p v s = some (out, s') → Normal out
  | 0, _, _, _, _, _, _, h => by simp [transformChildren] at h
  | n + 1, p, .prim q, s, out, s', hn, h => by
    simp [transformChildren] at h; rw [← h.1]; exact hn
  | n + 1, p, .obj es, s, out, s', hn, h => by
    rw [transformChildren] at h
    split at h
    · simp at h
    · rename_i he
      simp only [Option.some.injEq, Prod.mk.injEq] at h
      rw [← h.1, Normal]
      exact transformObject_normal (fun p v s x s' => transformChildren_normal r n p _ s x s' (normal_normalize v)) r p _ _ _ _ he
  | n + 1, p, .arr es, s, out, s', hn, h => by
    rw [transformChildren] at h
    split at h
    · simp at h
    · rename_i he
      simp only [Option.some.injEq, Prod.mk.injEq] at h
      rw [← h.1, Normal]
      exact transformArray_normal (fun p v s x s' => transformChildren_normal r n p _ s x s' (normal_normalize v)) r p _ _ _ _ _ he

/-! ## Replacers without state -/

theorem transformObject_iff (child : List PathSeg → Json F → Unit → Option (Json F × Unit))
    (r : Str → Json F → List PathSeg → Option (Json F)) (path) : ∀ es out,
    transformObject child (stateless r) path es () = some (out, ()) ↔
    Pairwise2 (fun a b => a.1 = b.1 ∧ child (path ++ [.key a.1]) (normalize a.2) () = some (b.2, ()))
      (es.filterMap fun e => (r e.1 e.2 (path ++ [.key e.1])).map fun w => (e.1, w)) out
  | [], out => by
    simp only [transformObject, List.filterMap_nil, Option.some.injEq, Prod.mk.injEq, and_true]
    constructor
    · rintro rfl; exact .nil
    · intro h; cases h; rfl
  | (k, v) :: es, out => by
    have ih := transformObject_iff child r path es
    rw [transformObject]
    simp only [stateless] at ih ⊢
    cases hr : r k v (path ++ [.key k]) with
    | none =>
      rw [List.filterMap_cons_none (by simp [hr])]
      exact ih out
    | some w =>
      rw [List.filterMap_cons_some (b := (k, w)) (by simp [hr])]
      simp only []
      constructor
      · intro h
        split at h
        · simp at h
        · rename_i t _ hch
          split at h
          · simp at h
          · rename_i ts _ hrest
            simp only [Option.some.injEq, Prod.mk.injEq, and_true] at h
            rw [← h]
            exact .cons ⟨rfl, hch⟩ ((ih ts).mp hrest)
      · intro h
        cases h with
        | cons hh ht =>
          rename_i b bs
          obtain ⟨k', t⟩ := b
          obtain ⟨rfl, hch⟩ := hh
          simp only [hch, (ih bs).mpr ht]

theorem transformArray_iff (child : List PathSeg → Json F → Unit → Option (Json F × Unit))
    (r : Str → Json F → List PathSeg → Option (Json F)) (path) : ∀ vs i out,
    transformArray child (stateless r) path i vs () = some (out, ()) ↔
    Pairwise2 (fun a b => child (path ++ [.index a.2]) (normalize a.1) () = some (b, ()))
      ((vs.zipIdx i).filterMap fun e =>
        (r (indexKey e.2) e.1 (path ++ [.index e.2])).map fun w => (w, e.2)) out
  | [], i, out => by
    simp only [transformArray, List.zipIdx_nil, List.filterMap_nil, Option.some.injEq, Prod.mk.injEq, and_true]
    constructor
    · rintro rfl; exact .nil
    · intro h; cases h; rfl
  | v :: vs, i, out => by
    have ih := transformArray_iff child r path vs (i + 1)
    rw [transformArray, List.zipIdx_cons]
    simp only [stateless] at ih ⊢
    cases hr : r (indexKey i) v (path ++ [.index i]) with
    | none =>
      rw [List.filterMap_cons_none (by simp [hr])]
      exact ih out
    | some w =>
      rw [List.filterMap_cons_some (b := (w, i)) (by simp [hr])]
      simp only []
      constructor
      · intro h
        split at h
        · simp at h
        · rename_i t _ hch
          split at h
          · simp at h
          · rename_i ts _ hrest
            simp only [Option.some.injEq, Prod.mk.injEq, and_true] at h
            rw [← h]
            exact .cons hch ((ih ts).mp hrest)
      · intro h
        cases h with
        | cons hh ht =>
          rename_i b bs
          simp only [hh, (ih bs).mpr ht]

omit [F64 F] in
theorem Pairwise2.imp {α β : Type} {R R' : α → β → Prop} (h : ∀ a b, R a b → R' a b) {as bs}
    (hp : Pairwise2 R as bs) : Pairwise2 R' as bs := by
  induction hp with
  | nil => exact .nil
  | cons hh _ ih => exact .cons (h _ _ hh) ih

omit [F64 F] in
theorem Pairwise2.exists_fuel {α β : Type} {R : Nat → α → β → Prop}
    (hm : ∀ n m a b, n ≤ m → R n a b → R m a b) {as bs}
    (hp : Pairwise2 (fun a b => ∃ n, R n a b) as bs) : ∃ n, Pairwise2 (R n) as bs := by
  induction hp with
  | nil => exact ⟨0, .nil⟩
  | cons hh _ ih =>
    obtain ⟨n, hn⟩ := hh
    obtain ⟨m, hm'⟩ := ih
    exact ⟨max n m, .cons (hm _ _ _ _ (by omega) hn) (hm'.imp fun a b => hm _ _ a b (by omega))⟩

/-! ## The calls made -/

/-- `new` is a complete account of the calls made for `due`: as a collection they are the calls
due and those due after each of them, and each call was due when it was made. -/
def Account (due : List (CallArgs F)) (new : List (Call F)) : Prop :=
  (new.map Call.toCallArgs).Perm (due ++ new.flatMap dueAfter) ∧
  ∀ pre c post, new = pre ++ c :: post → c.toCallArgs ∈ due ++ pre.flatMap dueAfter

theorem Account.nil : Account (F := F) [] [] := ⟨.nil, fun pre c post h => by cases pre <;> simp at h⟩

/-- First a call, then the account of its parts, then the rest. -/
theorem Account.cons {c : Call F} {due new new'} (h1 : Account (dueAfter c) new) (h2 : Account due new') :
    Account (c.toCallArgs :: due) (c :: new ++ new') := by
  constructor
  · simp only [List.map_append, List.map_cons, List.cons_append, List.flatMap_cons, List.flatMap_append]
    refine .cons _ ?_
    refine (h1.1.append h2.1).trans ?_
    rw [List.append_assoc]
    have : ∀ A B C D : List (CallArgs F), (A ++ (B ++ (C ++ D))).Perm (C ++ (A ++ (B ++ D))) := by
      intro A B C D
      rw [← List.append_assoc A B, ← List.append_assoc A B]
      exact (List.perm_append_comm_assoc ..)
    exact this ..
  · intro pre d post h
    cases pre with
    | nil => simp at h; simp [h.1]
    | cons p pre =>
      simp only [List.cons_append, List.cons.injEq] at h
      obtain ⟨rfl, h⟩ := h
      simp only [List.flatMap_cons]
      rcases List.append_eq_append_iff.mp h with ⟨as, hp, hn⟩ | ⟨bs, hn, hp⟩
      · subst hp
        have := h2.2 as d post hn
        simp only [List.flatMap_append, List.mem_append, List.mem_cons] at this ⊢
        rcases this with h | h <;> simp [h]
      · cases bs with
        | nil =>
          simp only [List.append_nil] at hn
          simp only [List.nil_append] at hp
          subst hn
          have := h2.2 [] d post hp.symm
          simp only [List.flatMap_nil, List.append_nil] at this
          simp [this]
        | cons b bs =>
          simp only [List.cons_append, List.cons.injEq] at hp
          obtain ⟨rfl, hp⟩ := hp
          have := h1.2 pre d bs hn
          simp only [List.mem_append, List.mem_cons] at this ⊢
          rcases this with h | h <;> simp [h]

theorem transformObject_log {child : List PathSeg → Json F → S × List (Call F) → Option (Json F × S × List (Call F))}
    (hc : ∀ p v s l x s' l', child p v (s, l) = some (x, s', l') → ∃ new, l' = l ++ new ∧ Account (dueCalls p v) new)
    (r : Replacer S F) (path) : ∀ es s l out s' l',
    transformObject child (logged r) path es (s, l) = some (out, s', l') →
    ∃ new, l' = l ++ new ∧ Account (es.map fun e => ⟨e.1, e.2, path ++ [.key e.1]⟩) new
  | [], _, _, _, _, _, h => by
    simp [transformObject] at h
    exact ⟨[], by simp [h], .nil⟩
  | (k, v) :: es, s, l, out, s', l', h => by
    have ih := transformObject_log hc r path es
    rw [transformObject] at h
    simp only [logged] at h
    rcases hr : r k v (path ++ [.key k]) s with ⟨_ | w, s1⟩ <;> simp only [hr] at h
    · obtain ⟨new, hl, hn⟩ := ih _ _ _ _ _ h
      exact ⟨_ :: [] ++ new, by simp [hl], Account.cons (c := ⟨⟨k, v, path ++ [PathSeg.key k]⟩, none⟩) Account.nil hn⟩
    · rcases hch : child (path ++ [PathSeg.key k]) (normalize w) (s1, l ++ [⟨⟨k, v, path ++ [PathSeg.key k]⟩, some w⟩])
        with _ | ⟨t, s2, l2⟩ <;> simp only [hch] at h
      · simp at h
      · rcases hrest : transformObject child (logged r) path es (s2, l2) with _ | ⟨ts, st3⟩ <;> simp only [hrest] at h
        · simp at h
        · obtain ⟨new1, hl1, hn1⟩ := hc _ _ _ _ _ _ _ hch
          simp only [Option.some.injEq, Prod.mk.injEq] at h
          obtain ⟨_, rfl⟩ := h
          obtain ⟨new2, hl2, hn2⟩ := ih _ _ _ _ _ hrest
          exact ⟨_ :: new1 ++ new2, by simp [hl1, hl2],
            Account.cons (c := ⟨⟨k, v, path ++ [PathSeg.key k]⟩, some w⟩) hn1 hn2⟩

theorem transformArray_log {child : List PathSeg → Json F → S × List (Call F) → Option (Json F × S × List (Call F))}
    (hc : ∀ p v s l x s' l', child p v (s, l) = some (x, s', l') → ∃ new, l' = l ++ new ∧ Account (dueCalls p v) new)
    (r : Replacer S F) (path) : ∀ vs i s l out s' l',
    transformArray child (logged r) path i vs (s, l) = some (out, s', l') →
    ∃ new, l' = l ++ new ∧
      Account ((vs.zipIdx i).map fun e => ⟨indexKey e.2, e.1, path ++ [.index e.2]⟩) new
  | [], _, _, _, _, _, _, h => by
    simp [transformArray] at h
    exact ⟨[], by simp [h], .nil⟩
  | v :: vs, i, s, l, out, s', l', h => by
    have ih := transformArray_log hc r path vs (i + 1)
    rw [transformArray] at h
    simp only [logged] at h
    rcases hr : r (indexKey i) v (path ++ [.index i]) s with ⟨_ | w, s1⟩ <;> simp only [hr] at h
    · obtain ⟨new, hl, hn⟩ := ih _ _ _ _ _ h
      exact ⟨_ :: [] ++ new, by simp [hl], Account.cons (c := ⟨⟨indexKey i, v, path ++ [PathSeg.index i]⟩, none⟩) Account.nil hn⟩
    · rcases hch : child (path ++ [PathSeg.index i]) (normalize w) (s1, l ++ [⟨⟨indexKey i, v, path ++ [PathSeg.index i]⟩, some w⟩])
        with _ | ⟨t, s2, l2⟩ <;> simp only [hch] at h
      · simp at h
      · rcases hrest : transformArray child (logged r) path (i + 1) vs (s2, l2) with _ | ⟨ts, st3⟩ <;> simp only [hrest] at h
        · simp at h
        · obtain ⟨new1, hl1, hn1⟩ := hc _ _ _ _ _ _ _ hch
          simp only [Option.some.injEq, Prod.mk.injEq] at h
          obtain ⟨_, rfl⟩ := h
          obtain ⟨new2, hl2, hn2⟩ := ih _ _ _ _ _ hrest
          exact ⟨_ :: new1 ++ new2, by simp [hl1, hl2],
            Account.cons (c := ⟨⟨indexKey i, v, path ++ [PathSeg.index i]⟩, some w⟩) hn1 hn2⟩

theorem transformChildren_log (r : Replacer S F) : ∀ n p v s l x s' l',
    transformChildren (logged r) n p v (s, l) = some (x, s', l') →
    ∃ new, l' = l ++ new ∧ Account (dueCalls p v) new
  | 0, _, _, _, _, _, _, _, h => by simp [transformChildren] at h
  | n + 1, p, .prim q, s, l, x, s', l', h => by
    simp [transformChildren] at h
    exact ⟨[], by simp [h], .nil⟩
  | n + 1, p, .obj es, s, l, x, s', l', h => by
    rw [transformChildren] at h
    split at h
    · simp at h
    · rename_i he
      simp only [Option.some.injEq, Prod.mk.injEq] at h
      obtain ⟨_, rfl⟩ := h
      exact transformObject_log (transformChildren_log r n) r p _ _ _ _ _ _ he
  | n + 1, p, .arr es, s, l, x, s', l', h => by
    rw [transformChildren] at h
    split at h
    · simp at h
    · rename_i he
      simp only [Option.some.injEq, Prod.mk.injEq] at h
      obtain ⟨_, rfl⟩ := h
      exact transformArray_log (transformChildren_log r n) r p _ _ _ _ _ _ _ he

end Toon
