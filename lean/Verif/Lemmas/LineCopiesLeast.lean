import Verif.Lemmas.LineCopiesBound
import Verif.Spec.Consumed

/-!
Every line that is taken is copied at least twice.
-/

namespace Toon

/-- What `x` spends and twice the weight of the lines that it leaves come to at least `T`. -/
def Spends {α : Type} (w : Line → Nat) (T : Nat) (μ : α → Cur) (x : Run α) : Prop :=
  ∀ a, x.result = .ok a → T ≤ x.steps + 2 * totalW w (μ a).rest

section
variable {α β : Type} {w : Line → Nat} {T : Nat} {μ : α → Cur} {ν : β → Cur}

theorem Spends.bind {x : Run α} {f : α → Run β} (h : Spends w T μ x) (hf : ∀ a, Spends w (2 * totalW w (μ a).rest) ν (f a)) :
    Spends w T ν (x >>= f) := by
  intro b hb
  rw [Run.result_bind] at hb
  cases hx : x.result with
  | error e => rw [hx] at hb; simp at hb
  | ok a =>
    rw [hx] at hb
    have h1 := h a hx
    have h2 := hf a b hb
    rw [Run.steps_bind, hx]
    simp only
    omega

theorem Spends.lift {y : Except Err β} {f : β → Run α} (hf : ∀ b, Spends w T μ (f b)) : Spends w T μ (Run.lift y >>= f) := by
  cases y with
  | error e => intro a ha; simp [Run.result_bind, Run.result_lift, liftErr] at ha
  | ok b => rw [Run.lift_ok_bind]; exact hf b

theorem Spends.fail {e : Err} : Spends w T μ (Run.lift (.error e)) := by
  intro a ha; simp [Run.result_lift, liftErr] at ha

theorem Spends.pure {a : α} (h : T ≤ 2 * totalW w (μ a).rest) : Spends w T μ (Pure.pure a) := by
  intro a' ha'
  cases ha'
  omega

theorem Spends.after {x y : Run α} {n : Nat} (h : Spends w (T - n) μ y) (hr : x.result = y.result) (hs : x.steps = n + y.steps) :
    Spends w T μ x := by
  intro a ha
  have := h a (hr ▸ ha)
  omega

theorem Spends.peek {cur : Cur} {f : Option Line → Run α} (h : Spends w (T - nextW w cur) μ (f cur.rest.head?)) :
    Spends w T μ (peekCopied w cur >>= f) := h.after rfl rfl

theorem Spends.advance {line : Line} {rest : List Line} {last : Option Line} {f : Cur → Run α}
    (h : Spends w (T - w line) μ (f ⟨rest, some line⟩)) : Spends w T μ (advanceCopied w ⟨line :: rest, last⟩ >>= f) := h.after rfl rfl

theorem Spends.next {line : Line} {rest : List Line} {last : Option Line} {f : Option Line × Cur → Run α}
    (h : Spends w (T - (w line + w line)) μ (f (some line, ⟨rest, some line⟩))) :
    Spends w T μ (nextCopied w ⟨line :: rest, last⟩ >>= f) := h.after rfl rfl

theorem Spends.mono {x : Run α} {T' : Nat} (h : Spends w T μ x) (ht : T' ≤ T) : Spends w T' μ x := fun a ha => Nat.le_trans ht (h a ha)

end

section
variable {w : Line → Nat} {F : Type} [F64 F] (ctx : Ctx)

theorem copyRows_spends (fields : List FieldName) (delim : Char) (length depth : Nat) : ∀ n (cur : Cur) count (start «end» : Option Nat),
    Spends w (2 * totalW w cur.rest) LoopOut.cur (copyRows (F := F) w ctx fields delim length depth n cur count start «end») := by
  intro n
  induction n with
  | zero => intro cur count start «end»; rw [copyRows]; exact .pure (Nat.le_refl _)
  | succ n ih =>
    intro cur count start «end»
    rw [copyRows]
    split
    · exact .pure (Nat.le_refl _)
    · obtain ⟨rest, last⟩ := cur
      cases rest with
      | nil => rename_i hne; simp at hne
      | cons line rest =>
        refine .peek ?_
        simp only [List.head?_cons]
        split
        · exact .pure (Nat.sub_le _ _)
        · split
          · refine .advance (.lift fun _ => .lift fun prims => .bind ((ih ⟨rest, some line⟩ _ _ _).mono ?_) fun out => .pure (Nat.le_refl _))
            simp only [nextW_cons, totalW_cons]; omega
          · exact .pure (Nat.sub_le _ _)

theorem copyTabular_spends (h : Header) (fields : List FieldName) (cur : Cur) (base : Nat) :
    Spends w (2 * totalW w cur.rest) Prod.snd (copyTabular (F := F) w ctx h fields cur base) := by
  rw [copyTabular]
  exact .bind (copyRows_spends ctx _ _ _ _ _ cur _ _ _) fun out => .lift fun _ => .lift fun _ => .lift fun _ => .pure (Nat.le_refl _)

structure CopySpends (F : Type) [F64 F] (w : Line → Nat) (ctx : Ctx) (fuel : Nat) : Prop where
  kv : ∀ s (cur : Cur) b, Spends w (2 * totalW w cur.rest) Prod.snd (copyKV (F := F) w ctx fuel s cur b)
  fields : ∀ (cur : Cur) b c, Spends w (2 * totalW w cur.rest) Prod.snd (copyFields (F := F) w ctx fuel cur b c)
  array : ∀ h (cur : Cur) b, Spends w (2 * totalW w cur.rest) Prod.snd (copyArray (F := F) w ctx fuel h cur b)
  items : ∀ n d (cur : Cur) c s e, Spends w (2 * totalW w cur.rest) LoopOut.cur (copyItems (F := F) w ctx fuel n d cur c s e)
  item : ∀ (cur : Cur) b, Spends w (2 * totalW w cur.rest) Prod.snd (copyItem (F := F) w ctx fuel cur b)
  itemRest : ∀ s (cur : Cur) b, Spends w (2 * totalW w cur.rest) Prod.snd (copyItemRest (F := F) w ctx fuel s cur b)
  follow : ∀ (cur : Cur) d, Spends w (2 * totalW w cur.rest) Prod.snd (copyFollow (F := F) w ctx fuel cur d)

theorem copySpends (fuel : Nat) : CopySpends F w ctx fuel := by
  induction fuel with
  | zero =>
    constructor
    · intros; rw [copyKV]; exact .fail
    · intros; rw [copyFields]; exact .fail
    · intros; rw [copyArray]; exact .fail
    · intros; rw [copyItems]; exact .fail
    · intros; rw [copyItem]; exact .fail
    · intros; rw [copyItemRest]; exact .fail
    · intros; rw [copyFollow]; exact .fail
  | succ fuel ih =>
    constructor
    · intro s cur b
      rw [copyKV]
      refine .lift fun hdr => ?_
      cases keyedHeader hdr with
      | some kh => exact .bind (ih.array _ _ _) fun _ => .pure (Nat.le_refl _)
      | none =>
        refine .lift fun k => ?_
        simp only
        split
        · split
          · split
            · exact .bind (ih.fields _ _ _) fun _ => .pure (Nat.le_refl _)
            · exact .pure (Nat.le_refl _)
          · exact .pure (Nat.le_refl _)
        · exact .lift fun _ => .pure (Nat.le_refl _)
    · intro cur b c
      obtain ⟨rest, last⟩ := cur
      rw [copyFields]
      cases rest with
      | nil => exact .pure (Nat.le_refl _)
      | cons line rest =>
        rw [if_neg (by simp)]
        refine .peek ?_
        simp only [List.head?_cons]
        split
        · exact .pure (Nat.sub_le _ _)
        · split
          · refine .advance (.bind ((ih.kv _ ⟨rest, some line⟩ _).mono ?_) fun r => .bind (ih.fields _ _ _) fun _ => .pure (Nat.le_refl _))
            simp only [nextW_cons, totalW_cons]; omega
          · exact .pure (Nat.sub_le _ _)
    · intro h cur b
      rw [copyArray]
      split
      · exact .lift fun _ => .pure (Nat.le_refl _)
      · split
        · exact .bind (ih.items _ _ _ _ _ _) fun out => .lift fun _ => .lift fun _ => .lift fun _ => .pure (Nat.le_refl _)
        · exact .bind (copyTabular_spends ctx _ _ _ _) fun _ => .pure (Nat.le_refl _)
    · intro n d cur c s e
      obtain ⟨rest, last⟩ := cur
      rw [copyItems]
      split
      · exact .pure (Nat.le_refl _)
      · cases rest with
        | nil => rename_i hne; simp at hne
        | cons line rest =>
          refine .peek ?_
          simp only [List.head?_cons]
          split
          · exact .pure (Nat.sub_le _ _)
          · split
            · exact .bind ((ih.item _ _).mono (Nat.sub_le _ _)) fun r => .bind (ih.items _ _ _ _ _ _) fun _ => .pure (Nat.le_refl _)
            · exact .pure (Nat.sub_le _ _)
    · intro cur b
      obtain ⟨rest, last⟩ := cur
      rw [copyItem]
      cases rest with
      | nil => exact fun a ha => by simp [nextCopied, Run.result_bind, Run.result_pure, Run.result_lift, liftErr] at ha
      | cons line rest =>
        refine .next ?_
        have hle : 2 * totalW w (line :: rest) - (w line + w line) ≤ 2 * totalW w rest := by rw [totalW_cons]; omega
        simp only
        split
        · exact .pure hle
        · split
          · split
            · exact .pure hle
            · refine .lift fun hdr => ?_
              have hrest := (ih.itemRest (line.content.drop 2) ⟨rest, some line⟩ b).mono hle
              split
              · exact (ih.array _ ⟨rest, some line⟩ _).mono hle
              · split
                · split
                  · exact .bind ((ih.array _ ⟨rest, some line⟩ _).mono hle) fun r => .bind (ih.follow _ _) fun _ => .pure (Nat.le_refl _)
                  · exact hrest
                · exact hrest
          · exact .fail
    · intro s cur b
      rw [copyItemRest]
      split
      · exact .bind (ih.kv _ _ _) fun r => .bind (ih.follow _ _) fun _ => .pure (Nat.le_refl _)
      · exact .lift fun _ => .pure (Nat.le_refl _)
    · intro cur d
      obtain ⟨rest, last⟩ := cur
      rw [copyFollow]
      cases rest with
      | nil => exact .pure (Nat.le_refl _)
      | cons line rest =>
        rw [if_neg (by simp)]
        refine .peek ?_
        simp only [List.head?_cons]
        split
        · exact .pure (Nat.sub_le _ _)
        · split
          · refine .advance (.bind ((ih.kv _ ⟨rest, some line⟩ _).mono ?_) fun r => .bind (ih.follow _ _) fun _ => .pure (Nat.le_refl _))
            simp only [nextW_cons, totalW_cons]; omega
          · exact .pure (Nat.sub_le _ _)

theorem copyRoot_spends : ∀ (fuel : Nat) (cur : Cur), Spends w (2 * totalW w cur.rest) Prod.snd (copyRoot (F := F) w ctx fuel cur) := by
  intro fuel
  induction fuel with
  | zero => intro cur; rw [copyRoot]; exact .fail
  | succ fuel ih =>
    intro cur
    obtain ⟨rest, last⟩ := cur
    rw [copyRoot]
    cases rest with
    | nil => exact .pure (Nat.le_refl _)
    | cons line rest =>
      rw [if_neg (by simp)]
      refine .peek ?_
      simp only [List.head?_cons]
      split
      · exact .pure (Nat.sub_le _ _)
      · refine .advance (.bind (((copySpends ctx fuel).kv _ ⟨rest, some line⟩ _).mono ?_) fun r => .bind (ih _) fun _ => .pure (Nat.le_refl _))
        simp only [nextW_cons, totalW_cons]; omega

theorem copyLines_least (lines rest : List Line) (evs : List (Ev F)) (h : decodeLinesRest ctx lines = .ok (evs, rest)) :
    2 * totalW w lines ≤ (copyLines (F := F) w ctx lines).steps + 2 * totalW w rest := by
  cases lines with
  | nil => exact Nat.zero_le _
  | cons first more =>
    rw [decodeLinesRest] at h
    rw [copyLines]
    have hpeek : ∀ {α : Type} (f : Option Line → Run α), (peekCopied w ⟨first :: more, none⟩ >>= f).steps = w first + (f (some first)).steps :=
      fun _ => rfl
    have hadv : ∀ {α : Type} (f : Cur → Run α), (advanceCopied w ⟨first :: more, none⟩ >>= f).steps = w first + (f ⟨more, some first⟩).steps :=
      fun _ => rfl
    have ok : ∀ {α : Type} {y : Except Err α} {f : α → Except Err (List (Ev F) × List Line)} {out}, (y >>= f) = .ok out →
        ∃ a, y = .ok a ∧ f a = .ok out := by
      intro α y f out hy
      cases y with
      | error e => cases hy
      | ok a => exact ⟨a, rfl, hy⟩
    obtain ⟨hdr, hh, h⟩ := ok h
    rw [hpeek]
    simp only
    rw [hh, Run.lift_ok_bind, hadv]
    rw [totalW_cons]
    cases hdr with
    | some hd =>
      obtain ⟨⟨evs', cur⟩, ha, h⟩ := ok h
      cases h
      have h1 := (copyAgrees (F := F) (w := w) ctx (5 * (first :: more).length + 5)).array hd ⟨more, some first⟩ 0
      rw [Run.Agrees, ha] at h1
      have h2 := (copySpends ctx _).array _ _ _ _ h1
      simp only
      rw [Run.steps_bind, h1]
      simp only at h2 ⊢
      omega
    | none =>
      simp only at h ⊢
      split at h
      · rename_i he
        rw [if_pos he]
        have : more = [] := by
          rw [Bool.and_eq_true, List.isEmpty_iff] at he
          exact he.1
        subst this
        rw [show totalW w [] = 0 from rfl]
        omega
      · rename_i he
        rw [if_neg he]
        obtain ⟨⟨evs1, cur⟩, ha, h⟩ := ok h
        obtain ⟨⟨evs2, cur'⟩, hb, h⟩ := ok h
        cases h
        have h1 := (copyAgrees (F := F) (w := w) ctx (5 * (first :: more).length + 5)).kv first.content ⟨more, some first⟩ 0
        rw [Run.Agrees, ha] at h1
        have h2 := (copySpends ctx _).kv _ _ _ _ h1
        have h3 := copyRoot_agrees (F := F) (w := w) ctx (5 * (first :: more).length + 5) cur
        rw [Run.Agrees, hb] at h3
        have h4 := copyRoot_spends ctx _ _ _ h3
        rw [Run.steps_bind, h1]
        simp only [liftErr]
        rw [Run.steps_bind, h3]
        simp only at h2 h4 ⊢
        omega

end

end Toon
