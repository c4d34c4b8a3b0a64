import Verif.Lemmas.LineCopies

/-!
A bound on what is copied.

A run that begins where lines of the total weight `T` are left has `K·T` to spend.  It pays for the copies of the lines it takes; what
the copies of the line after them cost is left to the caller as a debt of at most `q` times the weight of that line.  Who takes the line
pays the debt as well.
-/

namespace Toon

/-- The weight of lines. -/
def totalW (w : Line → Nat) (lines : List Line) : Nat := (lines.map w).sum

/-- The weight of the next line. -/
def nextW (w : Line → Nat) (cur : Cur) : Nat := (cur.rest.head?.map w).getD 0

theorem nextW_le (w : Line → Nat) (cur : Cur) : nextW w cur ≤ totalW w cur.rest := by
  obtain ⟨rest, last⟩ := cur
  cases rest with
  | nil => exact Nat.zero_le _
  | cons line rest => simp [nextW, totalW]

/-- `Charged w K P p W q μ x`: with a debt of `p`, the run `x` spends no more than `W`, keeps `K` times the weight of the lines that
are left, and leaves a debt of at most `q` times the weight of the next line.  All lines that are left satisfy `P`. -/
def Charged {α : Type} (w : Line → Nat) (K : Nat) (P : Line → Prop) (p W q : Nat) (μ : α → Cur) (x : Run α) : Prop :=
  match x.result with
  | .ok a => p + x.steps + K * totalW w (μ a).rest ≤ W + q * nextW w (μ a) ∧ ∀ l ∈ (μ a).rest, P l
  | .error _ => p + x.steps ≤ W

section
variable {α β : Type} {w : Line → Nat} {K : Nat} {P : Line → Prop} {p W q p' W' q' : Nat} {μ : α → Cur} {ν : β → Cur}

theorem Charged.shift {x : Run α} (h : Charged w K P p W q μ x) (hs : p' + W ≤ W' + p) (hq : q ≤ q') :
    Charged w K P p' W' q' μ x := by
  unfold Charged at *
  split at h
  · rename_i a _
    have := Nat.mul_le_mul_right (nextW w (μ a)) hq
    exact ⟨by omega, h.2⟩
  · omega

theorem Charged.bind {x : Run α} {f : α → Run β} (h : Charged w K P p W q μ x)
    (hf : ∀ a, (∀ l ∈ (μ a).rest, P l) → Charged w K P (q * nextW w (μ a)) (K * totalW w (μ a).rest) q' ν (f a)) :
    Charged w K P p W q' ν (x >>= f) := by
  unfold Charged at h ⊢
  rw [Run.result_bind, Run.steps_bind]
  cases hx : x.result with
  | error e => rw [hx] at h; simp only at h ⊢; omega
  | ok a =>
    rw [hx] at h
    simp only at h ⊢
    have := hf a h.2
    unfold Charged at this
    split at this
    · rename_i b hb
      exact ⟨by omega, this.2⟩
    · rename_i e hb
      omega

theorem Charged.after {x y : Run α} {n : Nat} (h : Charged w K P (p + n) W q μ y) (hr : x.result = y.result) (hs : x.steps = n + y.steps) :
    Charged w K P p W q μ x := by
  unfold Charged at *
  rw [hr, hs]
  split at h
  · exact ⟨by omega, h.2⟩
  · omega

theorem Charged.lift {y : Except Err α} {f : α → Run β} (hp : p ≤ W) (hf : ∀ a, Charged w K P p W q ν (f a)) :
    Charged w K P p W q ν (Run.lift y >>= f) := by
  cases y with
  | error e => exact hp
  | ok a => rw [Run.lift_ok_bind]; exact hf a

theorem Charged.fail {e : Err} (hp : p ≤ W) : Charged w K P p W q μ (Run.lift (.error e)) := hp

theorem Charged.pure {a : α} (h : p + K * totalW w (μ a).rest ≤ W + q * nextW w (μ a)) (hP : ∀ l ∈ (μ a).rest, P l) :
    Charged w K P p W q μ (Pure.pure a) := ⟨h, hP⟩

theorem Charged.peek {cur : Cur} {f : Option Line → Run α} (h : Charged w K P (p + nextW w cur) W q μ (f cur.rest.head?)) :
    Charged w K P p W q μ (peekCopied w cur >>= f) := h.after rfl rfl

theorem Charged.advance {line : Line} {rest : List Line} {last : Option Line} {f : Cur → Run α}
    (h : Charged w K P (p + w line) W q μ (f ⟨rest, some line⟩)) :
    Charged w K P p W q μ (advanceCopied w ⟨line :: rest, last⟩ >>= f) := h.after rfl rfl

theorem Charged.next {line : Line} {rest : List Line} {last : Option Line} {f : Option Line × Cur → Run α}
    (h : Charged w K P (p + (w line + w line)) W q μ (f (some line, ⟨rest, some line⟩))) :
    Charged w K P p W q μ (nextCopied w ⟨line :: rest, last⟩ >>= f) := h.after rfl rfl

end

section
variable {w : Line → Nat} {K : Nat} {P : Line → Prop} {r : Nat → Nat}

theorem totalW_cons (line : Line) (rest : List Line) : totalW w (line :: rest) = w line + totalW w rest := rfl

theorem nextW_cons (line : Line) (rest : List Line) (last : Option Line) : nextW w ⟨line :: rest, last⟩ = w line := rfl

variable {F : Type} [F64 F] (ctx : Ctx)

theorem copyRows_charged (hK : 3 ≤ K) (fields : List FieldName) (delim : Char) (length depth : Nat) : ∀ n (cur : Cur) count
    (start «end» : Option Nat), (∀ l ∈ cur.rest, P l) →
    Charged w K P 0 (K * totalW w cur.rest) 1 LoopOut.cur
      (copyRows (F := F) w ctx fields delim length depth n cur count start «end») := by
  intro n
  induction n with
  | zero => intro cur count start «end» hP; rw [copyRows]; exact .pure (by simp only; omega) hP
  | succ n ih =>
    intro cur count start «end» hP
    rw [copyRows]
    split
    · exact .pure (by simp only; omega) hP
    · obtain ⟨rest, last⟩ := cur
      cases rest with
      | nil => rename_i hne; simp at hne
      | cons line rest =>
        refine .peek ?_
        have stop : Charged w K P (0 + nextW w ⟨line :: rest, last⟩) (K * totalW w (line :: rest)) 1 LoopOut.cur
            (pure (⟨[], ⟨line :: rest, last⟩, count, start, «end»⟩ : LoopOut F)) := .pure (by simp only; omega) hP
        have pay := Nat.mul_le_mul_right (w line) hK
        simp only [List.head?_cons]
        split
        · exact stop
        · split
          · refine .advance ?_
            simp only [nextW_cons, totalW_cons, Nat.mul_add]
            refine .lift (by omega) fun _ => .lift (by omega) fun prims => ?_
            refine .bind ((ih ⟨rest, some line⟩ _ _ _ fun l hl => hP l (by simp [hl])).shift (by simp only; omega) (Nat.le_refl _)) ?_
            intro out hout
            exact .pure (by simp only; omega) hout
          · exact stop

theorem copyTabular_charged (hK : 3 ≤ K) (h : Header) (fields : List FieldName) (cur : Cur) (base : Nat) (hP : ∀ l ∈ cur.rest, P l) :
    Charged w K P 0 (K * totalW w cur.rest) 1 Prod.snd (copyTabular (F := F) w ctx h fields cur base) := by
  rw [copyTabular]
  refine .bind (copyRows_charged ctx hK _ _ _ _ _ cur _ _ _ hP) fun out hout => ?_
  have := Nat.mul_le_mul hK (nextW_le w out.cur)
  have hle : 1 * nextW w out.cur ≤ K * totalW w out.cur.rest := by omega
  exact .lift hle fun _ => .lift hle fun _ => .lift hle fun _ => .pure (by simp only; omega) hout

/-- `r b` is an upper bound on the number of loops that can be open inside a call at the depth `b`. -/
structure Ranks (K : Nat) (P : Line → Prop) (r : Nat → Nat) : Prop where
  pos : ∀ b, 1 ≤ r b
  anti : ∀ b c, b ≤ c → r c ≤ r b
  top : r 0 + 4 ≤ K
  line : ∀ l, P l → ∀ b, b < l.depth → r l.depth + 2 ≤ r b

structure CopyCharges (F : Type) [F64 F] (w : Line → Nat) (K : Nat) (P : Line → Prop) (r : Nat → Nat) (ctx : Ctx) (fuel : Nat) :
    Prop where
  kv : ∀ s (cur : Cur) b, (∀ l ∈ cur.rest, P l) →
    Charged w K P 0 (K * totalW w cur.rest) (r b) Prod.snd (copyKV (F := F) w ctx fuel s cur b)
  fields : ∀ (cur : Cur) b, (∀ l ∈ cur.rest, P l) →
    Charged w K P 0 (K * totalW w cur.rest) (r b) Prod.snd (copyFields (F := F) w ctx fuel cur (b + 1) none)
  fieldsMore : ∀ (cur : Cur) b c, (∀ l ∈ cur.rest, P l) →
    Charged w K P (r c * nextW w cur) (K * totalW w cur.rest) (r c + 1) Prod.snd (copyFields (F := F) w ctx fuel cur b (some c))
  array : ∀ h (cur : Cur) b, (∀ l ∈ cur.rest, P l) →
    Charged w K P 0 (K * totalW w cur.rest) (r b) Prod.snd (copyArray (F := F) w ctx fuel h cur b)
  items : ∀ n b (cur : Cur) c s e, (∀ l ∈ cur.rest, P l) →
    Charged w K P 0 (K * totalW w cur.rest) (r b) LoopOut.cur (copyItems (F := F) w ctx fuel n (b + 1) cur c s e)
  itemsMore : ∀ n d (cur : Cur) c s e, (∀ l ∈ cur.rest, P l) →
    Charged w K P ((r d + 1) * nextW w cur) (K * totalW w cur.rest) (r d + 2) LoopOut.cur
      (copyItems (F := F) w ctx fuel n d cur c s e)
  item : ∀ line rest last b, (∀ l ∈ rest, P l) →
    Charged w K P 0 (2 * w line + K * totalW w rest) (r b + 1) Prod.snd (copyItem (F := F) w ctx fuel ⟨line :: rest, last⟩ b)
  itemRest : ∀ s (cur : Cur) b, (∀ l ∈ cur.rest, P l) →
    Charged w K P 0 (K * totalW w cur.rest) (r b + 1) Prod.snd (copyItemRest (F := F) w ctx fuel s cur b)
  follow : ∀ (cur : Cur) d, (∀ l ∈ cur.rest, P l) →
    Charged w K P (r d * nextW w cur) (K * totalW w cur.rest) (r d + 1) Prod.snd (copyFollow (F := F) w ctx fuel cur d)

variable (hr : Ranks K P r)
include hr

/-- What the debt on the next line amounts to is there. -/
theorem Ranks.debt {a : Nat} (ha : a ≤ r 0 + 4) (cur : Cur) : a * nextW w cur ≤ K * totalW w cur.rest :=
  Nat.mul_le_mul (Nat.le_trans ha hr.top) (nextW_le w cur)

theorem Ranks.le (b : Nat) : r b ≤ r 0 := hr.anti 0 b (Nat.zero_le _)

theorem copyCharges (fuel : Nat) : CopyCharges F w K P r ctx fuel := by
  induction fuel with
  | zero =>
    constructor
    · intro s cur b _; rw [copyKV]; exact .fail (Nat.zero_le _)
    · intro cur b _; rw [copyFields]; exact .fail (Nat.zero_le _)
    · intro cur b c _; rw [copyFields]; exact .fail (hr.debt (by have := hr.le c; omega) cur)
    · intro h cur b _; rw [copyArray]; exact .fail (Nat.zero_le _)
    · intro n b cur c s e _; rw [copyItems]; exact .fail (Nat.zero_le _)
    · intro n d cur c s e _; rw [copyItems]; exact .fail (hr.debt (by have := hr.le d; omega) cur)
    · intro line rest last b _; rw [copyItem]; exact .fail (Nat.zero_le _)
    · intro s cur b _; rw [copyItemRest]; exact .fail (Nat.zero_le _)
    · intro cur d _; rw [copyFollow]; exact .fail (hr.debt (by have := hr.le d; omega) cur)
  | succ fuel ih =>
    have back : ∀ {α : Type} {μ : α → Cur} {cur : Cur} {q : Nat} (a : α), (∀ l ∈ cur.rest, P l) → μ a = cur →
        Charged w K P 0 (K * totalW w cur.rest) q μ (pure a : Run α) := by
      intro α μ cur q a hP ha
      exact .pure (by rw [ha]; omega) (by rw [ha]; exact hP)
    -- passing a result on
    have pass : ∀ {α : Type} {μ : α → Cur} {cur : Cur} {q : Nat} (a : α), (∀ l ∈ cur.rest, P l) → μ a = cur →
        Charged w K P (q * nextW w cur) (K * totalW w cur.rest) q μ (pure a : Run α) := by
      intro α μ cur q a hP ha
      exact .pure (by rw [ha]; omega) (by rw [ha]; exact hP)
    have hkvLine : ∀ s line rest d, (∀ l ∈ rest, P l) →
        Charged w K P (r d * w line + w line + w line) (K * (w line + totalW w rest)) (r d) Prod.snd
          (copyKV (F := F) w ctx fuel s ⟨rest, some line⟩ d) := by
      intro s line rest d hP
      refine (ih.kv s ⟨rest, some line⟩ d hP).shift ?_ (Nat.le_refl _)
      have h1 := Nat.mul_le_mul_right (w line) (show r d + 2 ≤ K by have := hr.le d; have := hr.top; omega)
      simp only [Nat.add_mul, Nat.mul_add] at h1 ⊢
      omega
    have hfields : ∀ (cur : Cur) b c, (∀ l ∈ cur.rest, P l) →
        Charged w K P (r c * nextW w cur) (K * totalW w cur.rest) (r c + 1) Prod.snd (copyFields (F := F) w ctx (fuel + 1) cur b (some c)) := by
      intro cur b c hP
      obtain ⟨rest, last⟩ := cur
      rw [copyFields]
      cases rest with
      | nil => exact .pure (by simp [nextW, totalW]) hP
      | cons line rest =>
        rw [if_neg (by simp)]
        refine .peek ?_
        have stop : Charged w K P (r c * nextW w ⟨line :: rest, last⟩ + nextW w ⟨line :: rest, last⟩) (K * totalW w (line :: rest)) (r c + 1)
            Prod.snd (pure (([], ⟨line :: rest, last⟩) : List (Ev F) × Cur)) := .pure (by simp only [Nat.add_mul]; omega) hP
        simp only [List.head?_cons]
        split
        · exact stop
        · split
          · rename_i hd
            have hd : c = line.depth := hd
            subst hd
            refine .advance (.bind (hkvLine _ _ _ _ fun l hl => hP l (by simp [hl])) fun a ha => ?_)
            exact .bind (ih.fieldsMore _ _ _ ha) fun a' ha' => pass _ ha' rfl
          · exact stop
    have hitems : ∀ n d (cur : Cur) c s e, (∀ l ∈ cur.rest, P l) →
        Charged w K P ((r d + 1) * nextW w cur) (K * totalW w cur.rest) (r d + 2) LoopOut.cur
          (copyItems (F := F) w ctx (fuel + 1) n d cur c s e) := by
      intro n d cur c s e hP
      obtain ⟨rest, last⟩ := cur
      rw [copyItems]
      split
      · exact .pure (by simp only [Nat.add_mul]; omega) hP
      · cases rest with
        | nil => rename_i hne; simp at hne
        | cons line rest =>
          refine .peek ?_
          have stop : Charged w K P ((r d + 1) * nextW w ⟨line :: rest, last⟩ + nextW w ⟨line :: rest, last⟩) (K * totalW w (line :: rest))
              (r d + 2) LoopOut.cur (pure (⟨[], ⟨line :: rest, last⟩, c, s, e⟩ : LoopOut F)) :=
            .pure (by simp only [Nat.add_mul]; omega) hP
          simp only [List.head?_cons]
          split
          · exact stop
          · split
            · have h1 := Nat.mul_le_mul_right (w line) (show r d + 4 ≤ K by have := hr.le d; have := hr.top; omega)
              refine .bind (((ih.item line rest last d fun l hl => hP l (by simp [hl]))).shift (q' := r d + 1) ?_ (Nat.le_refl _)) fun a ha => ?_
              · simp only [nextW_cons, totalW_cons, Nat.add_mul, Nat.mul_add] at h1 ⊢
                omega
              · exact .bind (ih.itemsMore _ _ _ _ _ _ ha) fun a' ha' => pass _ ha' rfl
            · exact stop
    constructor
    · intro s cur b hP
      rw [copyKV]
      refine .lift (Nat.zero_le _) fun hdr => ?_
      cases keyedHeader hdr with
      | some kh => exact .bind (ih.array _ _ _ hP) fun a ha => pass _ ha rfl
      | none =>
        refine .lift (Nat.zero_le _) fun k => ?_
        simp only
        split
        · split
          · split
            · exact .bind (ih.fields _ _ hP) fun a ha => pass _ ha rfl
            · exact back _ hP rfl
          · exact back _ hP rfl
        · exact .lift (Nat.zero_le _) fun _ => back _ hP rfl
    · intro cur b hP
      obtain ⟨rest, last⟩ := cur
      rw [copyFields]
      cases rest with
      | nil => exact back _ hP rfl
      | cons line rest =>
        rw [if_neg (by simp)]
        refine .peek ?_
        have stop : Charged w K P (0 + nextW w ⟨line :: rest, last⟩) (K * totalW w (line :: rest)) (r b)
            Prod.snd (pure (([], ⟨line :: rest, last⟩) : List (Ev F) × Cur)) :=
          .pure (by have := Nat.mul_le_mul_right (nextW w ⟨line :: rest, last⟩) (hr.pos b); simp only at *; omega) hP
        simp only [List.head?_cons]
        split
        · exact stop
        · rename_i hge
          split
          · have hrank := hr.line line (hP line (by simp)) b (by omega)
            refine .advance (.bind ((hkvLine line.content line rest line.depth fun l hl => hP l (by simp [hl])).shift (q' := r line.depth) ?_ (Nat.le_refl _))
              fun a ha => ?_)
            · simp only [nextW_cons, totalW_cons]; omega
            · refine .bind ((ih.fieldsMore _ _ _ ha).shift (q' := r b) (Nat.le_of_eq (Nat.add_comm _ _)) (by omega)) fun a' ha' => pass _ ha' rfl
          · exact stop
    · exact hfields
    · intro h cur b hP
      rw [copyArray]
      split
      · exact .lift (Nat.zero_le _) fun _ => back _ hP rfl
      · split
        · refine .bind (ih.items _ _ _ _ _ _ hP) fun out hout => ?_
          have hle := hr.debt (w := w) (show r b ≤ r 0 + 4 by have := hr.le b; omega) out.cur
          exact .lift hle fun _ => .lift hle fun _ => .lift hle fun _ => pass _ hout rfl
        · refine .bind ((copyTabular_charged ctx (by have := hr.top; omega) _ _ _ _ hP).shift (q' := r b) (by omega) (hr.pos b)) fun a ha => pass _ ha rfl
    · intro n b cur c s e hP
      obtain ⟨rest, last⟩ := cur
      cases rest with
      | nil =>
        rw [copyItems, if_pos (by simp)]
        exact back _ hP rfl
      | cons line rest =>
        by_cases hd : line.depth = b + 1
        · have hrank := hr.line line (hP line (by simp)) b (by omega)
          rw [hd] at hrank
          exact (hitems n (b + 1) _ c s e hP).shift (by omega) hrank
        · rw [copyItems]
          split
          · exact back _ hP rfl
          · refine .peek ?_
            have stop : Charged w K P (0 + nextW w ⟨line :: rest, last⟩) (K * totalW w (line :: rest)) (r b)
                LoopOut.cur (pure (⟨[], ⟨line :: rest, last⟩, c, s, e⟩ : LoopOut F)) :=
              .pure (by have := Nat.mul_le_mul_right (nextW w ⟨line :: rest, last⟩) (hr.pos b); simp only at *; omega) hP
            simp only [List.head?_cons]
            split
            · exact stop
            · rw [if_neg (by simp [hd])]
              exact stop
    · exact hitems
    · intro line rest last b hP
      rw [copyItem]
      refine .next ?_
      have done : ∀ evs : List (Ev F), Charged w K P (0 + (w line + w line)) (2 * w line + K * totalW w rest) (r b + 1) Prod.snd
          (pure ((evs, ⟨rest, some line⟩) : List (Ev F) × Cur)) := fun evs => .pure (by simp only; omega) hP
      have pre : 0 + (w line + w line) + K * totalW w rest ≤ 2 * w line + K * totalW w rest + 0 := by omega
      have hle : 0 + (w line + w line) ≤ 2 * w line + K * totalW w rest := by omega
      simp only
      split
      · exact done _
      · split
        · split
          · exact done _
          · refine .lift hle fun hdr => ?_
            have hrest := (ih.itemRest (line.content.drop 2) ⟨rest, some line⟩ b hP).shift pre (Nat.le_refl _)
            split
            · exact (ih.array _ ⟨rest, some line⟩ _ hP).shift pre (by omega)
            · split
              · split
                · refine .bind ((ih.array _ ⟨rest, some line⟩ (b + 1) hP).shift pre (Nat.le_refl _)) fun a ha => ?_
                  refine .bind ((ih.follow _ _ ha).shift (q' := r b + 1) (Nat.le_of_eq (Nat.add_comm _ _)) ?_) fun a' ha' => pass _ ha' rfl
                  have := hr.anti b (b + 1) (by omega)
                  omega
                · exact hrest
              · exact hrest
        · exact .fail hle
    · intro s cur b hP
      rw [copyItemRest]
      split
      · refine .bind (ih.kv _ _ (b + 1) hP) fun a ha => ?_
        refine .bind ((ih.follow _ _ ha).shift (q' := r b + 1) (Nat.le_of_eq (Nat.add_comm _ _)) ?_) fun a' ha' => pass _ ha' rfl
        have := hr.anti b (b + 1) (by omega)
        omega
      · exact .lift (Nat.zero_le _) fun _ => back _ hP rfl
    · intro cur d hP
      obtain ⟨rest, last⟩ := cur
      rw [copyFollow]
      cases rest with
      | nil => exact .pure (by simp [nextW, totalW]) hP
      | cons line rest =>
        rw [if_neg (by simp)]
        refine .peek ?_
        have stop : Charged w K P (r d * nextW w ⟨line :: rest, last⟩ + nextW w ⟨line :: rest, last⟩) (K * totalW w (line :: rest)) (r d + 1)
            Prod.snd (pure (([], ⟨line :: rest, last⟩) : List (Ev F) × Cur)) := .pure (by simp only [Nat.add_mul]; omega) hP
        simp only [List.head?_cons]
        split
        · exact stop
        · split
          · refine .advance (.bind (hkvLine _ _ _ _ fun l hl => hP l (by simp [hl])) fun a ha => ?_)
            exact .bind (ih.follow _ _ ha) fun a' ha' => pass _ ha' rfl
          · exact stop

theorem copyRoot_charged : ∀ (fuel : Nat) (cur : Cur), (∀ l ∈ cur.rest, P l) →
    Charged w K P (r 0 * nextW w cur) (K * totalW w cur.rest) (r 0 + 1) Prod.snd (copyRoot (F := F) w ctx fuel cur) := by
  intro fuel
  induction fuel with
  | zero => intro cur hP; rw [copyRoot]; exact .fail (hr.debt (by omega) cur)
  | succ fuel ih =>
    intro cur hP
    obtain ⟨rest, last⟩ := cur
    rw [copyRoot]
    cases rest with
    | nil => exact .pure (by simp [nextW, totalW]) hP
    | cons line rest =>
      rw [if_neg (by simp)]
      refine .peek ?_
      simp only [List.head?_cons]
      split
      · exact .pure (by simp only [Nat.add_mul]; omega) hP
      · refine .advance (.bind (((copyCharges ctx hr fuel).kv _ ⟨rest, some line⟩ 0 fun l hl => hP l (by simp [hl])).shift (q' := r 0) ?_ (Nat.le_refl _))
          fun a ha => ?_)
        · have h1 := Nat.mul_le_mul_right (w line) (show r 0 + 2 ≤ K by have := hr.top; omega)
          simp only [nextW_cons, totalW_cons, Nat.add_mul, Nat.mul_add] at h1 ⊢
          omega
        · refine .bind (ih _ ha) fun a' ha' => ?_
          exact .pure (by simp only; omega) ha'

theorem copyLines_bound (lines : List Line) (hP : ∀ l ∈ lines, P l) : (copyLines (F := F) w ctx lines).steps ≤ K * totalW w lines := by
  suffices h : Charged w K P 0 (K * totalW w lines) 0 (fun _ => ⟨[], none⟩) (copyLines (F := F) w ctx lines) by
    unfold Charged at h
    split at h
    · have := h.1; simp [totalW, nextW] at this; simp only [totalW]; omega
    · omega
  rw [copyLines]
  cases lines with
  | nil => exact ⟨by simp [totalW, nextW]; rfl, by simp⟩
  | cons first rest =>
    have pay := Nat.mul_le_mul_right (w first) (show 2 ≤ K by have := hr.top; omega)
    have hP' : ∀ l ∈ rest, P l := fun l hl => hP l (by simp [hl])
    have hle : 0 + w first + w first + K * totalW w rest ≤ K * (w first + totalW w rest) + 0 := by rw [Nat.mul_add]; omega
    refine .peek ?_
    simp only [List.head?_cons, nextW_cons, totalW_cons]
    refine .lift (by omega) fun hdr => .advance ?_
    have ends : ∀ {q : Nat} (cur : Cur) (evs : List (Ev F)), q ≤ r 0 + 4 →
        Charged w K P (q * nextW w cur) (K * totalW w cur.rest) 0 (fun _ => ⟨[], none⟩) (pure evs : Run (List (Ev F))) := by
      intro q cur evs hq
      have := hr.debt (w := w) hq cur
      exact .pure (by simp only [totalW, nextW, List.map_nil, List.sum_nil] at *; omega) (by simp)
    cases hdr with
    | some h =>
      exact .bind (((copyCharges ctx hr _).array _ ⟨rest, some first⟩ 0 hP').shift hle (Nat.le_refl _)) fun a ha => ends _ _ (by omega)
    | none =>
      simp only
      split
      · exact .lift (by omega) fun _ => .pure (by simp only [totalW, nextW, List.map_nil, List.sum_nil] at *; omega) (by simp)
      · refine .bind (((copyCharges ctx hr _).kv _ ⟨rest, some first⟩ 0 hP').shift hle (Nat.le_refl _)) fun a ha => ?_
        exact .bind (copyRoot_charged ctx hr _ _ ha) fun a' ha' => ends _ _ (by omega)

end

end Toon
