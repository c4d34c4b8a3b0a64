import Verif.Model.Frames

/-! A run that does not overflow has the same result, after the same number of steps, in a larger stack. -/

namespace Toon

/-- The first run overflows, or both do the same. -/
def LeStop {α : Type} (a b : Run α) : Prop := a.result = .error .overflow ∨ a = b

theorem LeStop.refl {α : Type} (a : Run α) : LeStop a a := Or.inr rfl

theorem LeStop.trans {α : Type} {a b c : Run α} (h1 : LeStop a b) (h2 : LeStop b c) : LeStop a c := by
  rcases h1 with h1 | h1
  · exact Or.inl h1
  · rw [h1]; exact h2

theorem LeStop.bind {α β : Type} {x y : Run α} {f g : α → Run β} (h1 : LeStop x y) (h2 : ∀ a, LeStop (f a) (g a)) :
    LeStop (x >>= f) (y >>= g) := by
  rcases h1 with h1 | rfl
  · refine Or.inl ?_
    show (match x.result with | .ok a => (f a).result | .error e => .error e) = _
    rw [h1]
  · cases hx : x.result with
    | error e =>
      refine Or.inr ?_
      show Run.mk _ _ = Run.mk _ _
      rw [hx]
    | ok a =>
      rcases h2 a with h2 | h2
      · refine Or.inl ?_
        show (match x.result with | .ok a => (f a).result | .error e => .error e) = _
        rw [hx]
        exact h2
      · refine Or.inr ?_
        show Run.mk _ _ = Run.mk _ _
        rw [hx]
        simp only [h2]

theorem LeStop.then {α β : Type} (x : Run α) {f g : α → Run β} (h2 : ∀ a, LeStop (f a) (g a)) :
    LeStop (x >>= f) (x >>= g) := (LeStop.refl x).bind h2

theorem LeStop.stop {α : Type} (b : Run α) : LeStop (Run.stop .overflow) b := Or.inl rfl

section
variable {F : Type}

/-- The two functions are related at all arguments. -/
def LeKV (kv kv' : Str → Machine F → Nat → Run (Machine F)) : Prop := ∀ c m b, LeStop (kv c m b) (kv' c m b)

theorem fieldsLoop_mono (lines : List Line) {kv kv' : Str → Machine F → Nat → Run (Machine F)} (h : LeKV kv kv') (base : Nat) :
    ∀ n comp m, LeStop (fieldsLoop lines kv base n comp m) (fieldsLoop lines kv' base n comp m) := by
  intro n
  induction n with
  | zero => intro comp m; exact .refl _
  | succ n ih =>
    intro comp m
    rw [fieldsLoop, fieldsLoop]
    refine .then _ fun _ => ?_
    split
    · exact .refl _
    · split
      · exact .refl _
      · split
        · exact .refl _
        · cases comp
          all_goals
            simp only
            split
            · exact (h _ _ _).bind fun m' => ih _ _
            · exact .refl _

theorem entriesLoop_mono (lines : List Line) {kv kv' : Str → Machine F → Nat → Run (Machine F)} (h : LeKV kv kv') (depth : Nat) :
    ∀ n m, LeStop (entriesLoop lines kv depth n m) (entriesLoop lines kv' depth n m) := by
  intro n
  induction n with
  | zero => intro m; exact .refl _
  | succ n ih =>
    intro m
    rw [entriesLoop, entriesLoop]
    refine .then _ fun _ => ?_
    split
    · exact .refl _
    · split
      · exact .refl _
      · split
        · exact .refl _
        · split
          · exact (h _ _ _).bind fun m' => ih _
          · exact .refl _

theorem topLoop_mono (lines : List Line) {kv kv' : Str → Machine F → Nat → Run (Machine F)} (h : LeKV kv kv') :
    ∀ n m, LeStop (topLoop lines kv n m) (topLoop lines kv' n m) := by
  intro n
  induction n with
  | zero => intro m; exact .refl _
  | succ n ih =>
    intro m
    rw [topLoop, topLoop]
    refine .then _ fun _ => ?_
    split
    · exact .refl _
    · split
      · exact .refl _
      · split
        · exact .refl _
        · exact (h _ _ _).bind fun m' => ih _

theorem itemsLoop_mono (lines : List Line) {item item' : Machine F → Nat → Run (Machine F)}
    (h : ∀ m b, LeStop (item m b) (item' m b)) (length depth : Nat) :
    ∀ n c m, LeStop (itemsLoop lines item length depth n c m) (itemsLoop lines item' length depth n c m) := by
  intro n
  induction n with
  | zero => intro c m; exact .refl _
  | succ n ih =>
    intro c m
    rw [itemsLoop, itemsLoop]
    refine .then _ fun _ => ?_
    split
    · exact .refl _
    · split
      · exact .refl _
      · split
        · exact .refl _
        · split
          · exact (h _ _).bind fun m' => ih _ _
          · exact .refl _

variable [F64 F]

theorem itemRest_mono (lines : List Line) {kv kv' : Str → Machine F → Nat → Run (Machine F)} (h : LeKV kv kv')
    (after : Str) (m : Machine F) (base : Nat) : LeStop (itemRest lines kv after m base) (itemRest lines kv' after m base) := by
  rw [itemRest, itemRest]
  split
  · exact (h _ _ _).bind fun m' => (entriesLoop_mono lines h _ _ _).bind fun _ => .refl _
  · exact .refl _

structure MonoClaims (F : Type) [F64 F] (ctx : Ctx) (lines : List Line) (s : Nat) : Prop where
  kv : LeKV (F := F) (callKV ctx lines s) (callKV ctx lines (s + 1))
  fields : ∀ (m : Machine F) b, LeStop (callFields ctx lines s m b) (callFields ctx lines (s + 1) m b)
  array : ∀ h (m : Machine F) b, LeStop (callArray ctx lines s h m b) (callArray ctx lines (s + 1) h m b)
  list : ∀ h (m : Machine F) b, LeStop (callList ctx lines s h m b) (callList ctx lines (s + 1) h m b)
  item : ∀ (m : Machine F) b, LeStop (callItem ctx lines s m b) (callItem ctx lines (s + 1) m b)

theorem monoClaims (ctx : Ctx) (lines : List Line) (s : Nat) : MonoClaims F ctx lines s := by
  induction s with
  | zero =>
    constructor
    · intro c m b; rw [callKV]; exact .stop _
    · intro m b; rw [callFields]; exact .stop _
    · intro h m b; rw [callArray]; exact .stop _
    · intro h m b; rw [callList]; exact .stop _
    · intro m b; rw [callItem]; exact .stop _
  | succ s ih =>
    constructor
    · intro c m b
      rw [callKV, callKV]
      refine .then _ fun _ => .then _ fun hdr => ?_
      cases keyedHeader hdr with
      | some kh => exact ih.array _ _ _
      | none =>
        refine .then _ fun k => ?_
        simp only
        split
        · split
          · split
            · exact (ih.fields _ _).bind fun _ => .refl _
            · exact .refl _
          · exact .refl _
        · exact .refl _
    · intro m b
      rw [callFields, callFields]
      exact .then _ fun _ => fieldsLoop_mono lines ih.kv _ _ _ _
    · intro h m b
      rw [callArray, callArray]
      refine .then _ fun _ => ?_
      simp only
      split
      · exact .refl _
      · split
        · exact (ih.list _ _ _).bind fun _ => .refl _
        · exact .refl _
    · intro h m b
      rw [callList, callList]
      exact .then _ fun _ => (itemsLoop_mono lines ih.item _ _ _ _ _).bind fun _ => .refl _
    · intro m b
      rw [callItem, callItem]
      refine .then _ fun _ => ?_
      split
      · exact .refl _
      · simp only
        split
        · exact .refl _
        · split
          · split
            · exact .refl _
            · refine .then _ fun hdr => ?_
              split
              · exact ih.array _ _ _
              · split
                · split
                  · exact (ih.array _ _ _).bind fun _ => (entriesLoop_mono lines ih.kv _ _ _).bind fun _ => .refl _
                  · exact itemRest_mono lines ih.kv _ _ _
                · exact itemRest_mono lines ih.kv _ _ _
          · exact .refl _

theorem runLines_mono (ctx : Ctx) (lines : List Line) (s : Nat) :
    LeStop (runLines (F := F) ctx lines s) (runLines ctx lines (s + 1)) := by
  have mc := fun s => monoClaims (F := F) ctx lines s
  cases s with
  | zero => exact Or.inl rfl
  | succ s =>
    rw [runLines, runLines]
    refine .then _ fun _ => ?_
    simp only
    split
    · exact .refl _
    · refine .then _ fun hdr => ?_
      split
      · exact ((mc s).array _ _ _).bind fun _ => .refl _
      · split
        · exact .refl _
        · exact ((mc s).kv _ _ _).bind fun _ => (topLoop_mono lines (mc s).kv _ _).bind fun _ => .refl _

theorem runLines_more (ctx : Ctx) (lines : List Line) (s k : Nat) :
    LeStop (runLines (F := F) ctx lines s) (runLines ctx lines (s + k)) := by
  induction k with
  | zero => exact .refl _
  | succ k ih => exact ih.trans (runLines_mono ctx lines (s + k))

end

end Toon
