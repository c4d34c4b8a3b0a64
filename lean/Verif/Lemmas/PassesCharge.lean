import Verif.Lemmas.PassesBound
import Verif.Lemmas.DecodeAll

/-!
A bound on the passes: what decoding the lines that are taken goes over, and the next line twice after a table.
-/

namespace Toon

/-- The characters of a line after its indentation. -/
def contentChars (line : Line) : Nat := line.content.length

section
variable {α β : Type} {w : Line → Nat} {K : Nat} {P : Line → Prop} {p W q : Nat} {μ : α → Cur} {ν : β → Cur}

theorem Charged.spend {n : Nat} {y : Except Err α} {f : α → Run β} (hp : p + n ≤ W)
    (hf : ∀ a, y = .ok a → Charged w K P (p + n) W q ν (f a)) : Charged w K P p W q ν (Run.spend n y >>= f) := by
  cases y with
  | error e => exact hp
  | ok a => exact (hf a rfl).after rfl rfl

theorem Charged.tick {n : Nat} {f : Unit → Run α} (h : Charged w K P (p + n) W q μ (f ())) :
    Charged w K P p W q μ (Toon.tick n >>= f) := h.after rfl rfl

theorem Charged.liftEq {y : Except Err α} {f : α → Run β} (hp : p ≤ W) (hf : ∀ a, y = .ok a → Charged w K P p W q ν (f a)) :
    Charged w K P p W q ν (Run.lift y >>= f) := by
  cases y with
  | error e => exact hp
  | ok a => rw [Run.lift_ok_bind]; exact hf a rfl

end

/-- With a debt of `p`: no more than `W`, and of the next line at most two more passes. -/
abbrev Pays {α : Type} (p W : Nat) (μ : α → Cur) (x : Run α) : Prop := Charged contentChars 94 (fun _ => True) p W 2 μ x

/-- What is left for the lines. -/
abbrev budget (cur : Cur) : Nat := 94 * totalW contentChars cur.rest

/-- Two passes over the next line. -/
abbrev owed (cur : Cur) : Nat := 2 * nextW contentChars cur

theorem owed_le (cur : Cur) : owed cur ≤ budget cur := Nat.mul_le_mul (by omega) (nextW_le _ cur)

theorem budget_cons (line : Line) (rest : List Line) (last last' : Option Line) :
    budget ⟨line :: rest, last⟩ = 94 * line.content.length + budget ⟨rest, last'⟩ := by
  simp only [budget, totalW_cons, Nat.mul_add]; rfl

theorem owed_cons (line : Line) (rest : List Line) (last : Option Line) : owed ⟨line :: rest, last⟩ = 2 * line.content.length := rfl

section
variable {F : Type} [F64 F] (ctx : Ctx)

/-- Nothing is spent. -/
theorem Pays.back {α : Type} {μ : α → Cur} {cur : Cur} {p W : Nat} (a : α) (ha : μ a = cur) (h : p + budget cur ≤ W + owed cur) :
    Pays p W μ (pure a : Run α) := .pure (by rw [ha]; exact h) (fun _ _ => trivial)

theorem Pays.andThen {α β : Type} {μ : α → Cur} {ν : β → Cur} {x : Run α} {f : α → Run β} {p W : Nat} (h : Pays p W μ x)
    (hf : ∀ a, Pays (owed (μ a)) (budget (μ a)) ν (f a)) : Pays p W ν (x >>= f) :=
  Charged.bind h fun a _ => hf a

theorem Pays.ret {α : Type} {μ : α → Cur} {cur : Cur} (a : α) (ha : μ a = cur) : Pays (owed cur) (budget cur) μ (pure a : Run α) :=
  Pays.back a ha (by omega)

theorem Pays.move {α : Type} {μ : α → Cur} {x : Run α} {p W p' W' : Nat} (h : Pays p W μ x) (hs : p' + W ≤ W' + p) : Pays p' W' μ x :=
  Charged.shift h hs (Nat.le_refl _)

theorem lookRows_pays (fields : List FieldName) (delim : Char) (length depth : Nat) : ∀ (rest : List Line) (last : Option Line) count
    (start «end» : Option Nat),
    Charged contentChars 94 (fun _ => True) 0 (94 * totalW contentChars rest) 0 LoopOut.cur
      (lookRows (F := F) ctx fields delim length depth rest last count start «end») := by
  intro rest
  induction rest with
  | nil => intro last count start «end»; rw [lookRows]; exact .pure (by simp only; omega) fun _ _ => trivial
  | cons line rest ih =>
    intro last count start «end»
    have stop : ∀ (out : LoopOut F), out.cur = ⟨line :: rest, last⟩ →
        Charged contentChars 94 (fun _ => True) 0 (94 * totalW contentChars (line :: rest)) 0 LoopOut.cur (pure out : Run (LoopOut F)) :=
      fun out ho => .pure (by rw [ho]; simp only; omega) fun _ _ => trivial
    have hrow := rowPasses_le line.content delim
    have hw : totalW contentChars (line :: rest) = line.content.length + totalW contentChars rest := rfl
    rw [lookRows.eq_def]
    simp only
    split
    · split
      · exact stop _ rfl
      · split
        · refine .tick (.lift (by omega) fun _ => .lift (by omega) fun prims => ?_)
          refine .bind ((ih (some line) _ _ _).shift (by omega) (Nat.le_refl _)) fun out _ => ?_
          exact .pure (by simp only; omega) fun _ _ => trivial
        · exact stop _ rfl
    · exact stop _ rfl

theorem lookTabular_pays (h : Header) (fields : List FieldName) (cur : Cur) (base : Nat) :
    Pays 0 (budget cur) Prod.snd (lookTabular (F := F) ctx h fields cur base) := by
  rw [lookTabular]
  refine .bind (lookRows_pays ctx _ _ _ _ _ _ _ _ _) fun out _ => ?_
  have hle : 0 * nextW contentChars out.cur ≤ 94 * totalW contentChars out.cur.rest := by omega
  have hx : extraRowPasses out.cur.rest.head? (base + 1) ctx.strict ≤ owed out.cur := by
    rw [extraRowPasses.eq_def, owed, nextW]
    cases out.cur.rest with
    | nil => exact Nat.zero_le _
    | cons line rest =>
      simp only [List.head?_cons, Option.map_some, Option.getD_some]
      split
      · exact Nat.le_refl _
      · exact Nat.zero_le _
  have ho := owed_le out.cur
  refine .lift hle fun _ => .lift hle fun _ => .spend (by simp only [budget] at ho; omega) fun _ _ => ?_
  exact Pays.back _ rfl (by simp only [budget] at ho ⊢; omega)

/-- The characters after the colon of a header. -/
def inlineChars (h : Header) : Nat := (h.inline.map List.length).getD 0

theorem inlineChars_le {content : Str} {d : Char} {h : Header} (hp : parseArrayHeaderLine content d = .ok (some h)) :
    inlineChars h ≤ content.length := by
  rw [inlineChars]
  cases hi : h.inline with
  | none => exact Nat.zero_le _
  | some inline => exact header_inline_length hp hi

structure LookPays (F : Type) [F64 F] (ctx : Ctx) (fuel : Nat) : Prop where
  kv : ∀ s cur b, Pays 0 (37 * s.length + budget cur) Prod.snd (lookKV (F := F) ctx fuel s cur b)
  fields : ∀ cur b c, Pays (owed cur) (budget cur) Prod.snd (lookFields (F := F) ctx fuel cur b c)
  array : ∀ h cur b, Pays 0 (11 * inlineChars h + budget cur) Prod.snd (lookArray (F := F) ctx fuel h cur b)
  items : ∀ n d cur c s e, Pays (owed cur) (budget cur) LoopOut.cur (lookItems (F := F) ctx fuel n d cur c s e)
  item : ∀ line rest last b, Pays 0 (92 * line.content.length + budget ⟨rest, none⟩) Prod.snd
    (lookItem (F := F) ctx fuel ⟨line :: rest, last⟩ b)
  itemRest : ∀ s cur b, Pays 0 (38 * s.length + budget cur) Prod.snd (lookItemRest (F := F) ctx fuel s cur b)
  follow : ∀ cur d, Pays (owed cur) (budget cur) Prod.snd (lookFollow (F := F) ctx fuel cur d)

theorem lookPays (fuel : Nat) : LookPays F ctx fuel := by
  induction fuel with
  | zero =>
    constructor
    · intro s cur b; rw [lookKV]; exact .fail (Nat.zero_le _)
    · intro cur b c; rw [lookFields]; exact .fail (owed_le cur)
    · intro h cur b; rw [lookArray]; exact .fail (Nat.zero_le _)
    · intro n d cur c s e; rw [lookItems]; exact .fail (owed_le cur)
    · intro line rest last b; rw [lookItem]; exact .fail (Nat.zero_le _)
    · intro s cur b; rw [lookItemRest]; exact .fail (Nat.zero_le _)
    · intro cur d; rw [lookFollow]; exact .fail (owed_le cur)
  | succ fuel ih =>
    -- a line that is taken as a field
    have line_kv : ∀ (line : Line) rest last b, Pays (owed ⟨line :: rest, last⟩) (budget ⟨line :: rest, last⟩) Prod.snd
        (lookKV (F := F) ctx fuel line.content ⟨rest, some line⟩ b) := by
      intro line rest last b
      refine (ih.kv line.content ⟨rest, some line⟩ b).move ?_
      rw [budget_cons line rest last (some line), owed_cons]
      omega
    constructor
    · intro s cur b
      have h1 := headerPasses_le s ','
      have h2 := keyPasses_le s
      rw [lookKV]
      refine .spend (by omega) fun hdr hhdr => .tick ?_
      have h3 := headerCloned_le hdr s
      cases hk : keyedHeader hdr with
      | some kh =>
        obtain ⟨k, h⟩ := kh
        have := keyedHeader_some hk
        subst this
        have h4 := inlineChars_le hhdr
        exact Pays.andThen ((ih.array h cur b).move (by omega)) fun a => .ret _ rfl
      | none =>
        have h5 : headerCloned hdr s = 0 := by rw [headerCloned, hk]
        refine .spend (by omega) fun k _ => .tick ?_
        obtain ⟨key, e, quoted⟩ := k
        have h6 := tokenPasses_le (trim (s.drop e))
        have h7 := trim_length_le (s.drop e)
        rw [List.length_drop] at h7
        simp only
        split
        · split
          · split
            · exact Pays.andThen ((ih.fields cur _ _).move (by omega)) fun a => .ret _ rfl
            · exact Pays.back (cur := cur) _ rfl (by omega)
          · exact Pays.back (cur := cur) _ rfl (by omega)
        · exact .spend (by omega) fun _ _ => Pays.back (cur := cur) _ rfl (by omega)
    · intro cur b c
      obtain ⟨rest, last⟩ := cur
      rw [lookFields]
      cases rest with
      | nil => exact .ret _ rfl
      | cons line rest =>
        simp only
        split
        · exact .ret _ rfl
        · split
          · exact Pays.andThen (line_kv _ _ _ _) fun a => Pays.andThen (ih.fields _ _ _) fun a' => .ret _ rfl
          · exact .ret _ rfl
    · intro h cur b
      rw [lookArray]
      cases hi : h.inline with
      | some inline =>
        have h1 := inlinePasses_le h inline
        have h2 : inlineChars h = inline.length := by rw [inlineChars, hi]; rfl
        exact .spend (by omega) fun _ _ => Pays.back (cur := cur) _ rfl (by omega)
      | none =>
        simp only
        split
        · refine Pays.andThen ((ih.items _ _ cur _ _ _).move (by omega)) fun out => ?_
          have hle := owed_le out.cur
          exact .lift hle fun _ => .lift hle fun _ => .lift hle fun _ => Pays.ret _ rfl
        · exact Pays.andThen ((lookTabular_pays ctx _ _ cur _).move (by omega)) fun a => .ret _ rfl
    · intro n d cur c s e
      obtain ⟨rest, last⟩ := cur
      rw [lookItems]
      cases rest with
      | nil => exact .ret _ rfl
      | cons line rest =>
        simp only
        split
        · split
          · exact .ret _ rfl
          · split
            · refine Pays.andThen ((ih.item line rest last d).move ?_) fun a => Pays.andThen (ih.items _ _ _ _ _ _) fun a' => .ret _ rfl
              rw [budget_cons line rest last none, owed_cons]
              omega
            · exact .ret _ rfl
        · exact .ret _ rfl
    · intro line rest last b
      rw [lookItem]
      simp only
      have hb : budget ⟨rest, some line⟩ = budget ⟨rest, none⟩ := rfl
      have hd : (line.content.drop 2).length ≤ line.content.length := by rw [List.length_drop]; omega
      split
      · exact Pays.back (cur := ⟨rest, some line⟩) _ rfl (by omega)
      · split
        · generalize line.content.drop 2 = after at hd
          have h1 := headerPasses_le after ','
          have ht : arrayTestPasses after = 2 * after.length := rfl
          refine .tick ?_
          split
          · exact Pays.back (cur := ⟨rest, some line⟩) _ rfl (by omega)
          · refine .tick (.liftEq (by omega) fun hdr hhdr => ?_)
            have hrest := ih.itemRest after ⟨rest, some line⟩ b
            split
            · have h4 := inlineChars_le hhdr
              exact (ih.array _ ⟨rest, some line⟩ _).move (by omega)
            · refine .tick ?_
              split
              · rename_i k h hk
                have := keyedHeader_some hk
                subst this
                have h4 := inlineChars_le hhdr
                split
                · refine .tick ?_
                  exact Pays.andThen ((ih.array h ⟨rest, some line⟩ (b + 1)).move (by omega)) fun a =>
                    Pays.andThen (ih.follow _ _) fun a' => .ret _ rfl
                · exact hrest.move (by omega)
              · exact hrest.move (by omega)
        · exact .fail (Nat.zero_le _)
    · intro s cur b
      have h1 := tokenPasses_le s
      have h2 : keyTestPasses s = s.length := rfl
      rw [lookItemRest]
      refine .tick ?_
      split
      · exact Pays.andThen ((ih.kv s cur (b + 1)).move (by omega)) fun a => Pays.andThen (ih.follow _ _) fun a' => .ret _ rfl
      · exact .spend (by omega) fun _ _ => Pays.back (cur := cur) _ rfl (by omega)
    · intro cur d
      obtain ⟨rest, last⟩ := cur
      rw [lookFollow]
      cases rest with
      | nil => exact .ret _ rfl
      | cons line rest =>
        simp only
        split
        · exact .ret _ rfl
        · split
          · exact Pays.andThen (line_kv _ _ _ _) fun a => Pays.andThen (ih.follow _ _) fun a' => .ret _ rfl
          · exact .ret _ rfl

theorem lookRoot_pays : ∀ (fuel : Nat) (cur : Cur), Pays (owed cur) (budget cur) Prod.snd (lookRoot (F := F) ctx fuel cur) := by
  intro fuel
  induction fuel with
  | zero => intro cur; rw [lookRoot]; exact .fail (owed_le cur)
  | succ fuel ih =>
    intro cur
    obtain ⟨rest, last⟩ := cur
    rw [lookRoot]
    cases rest with
    | nil => exact .ret _ rfl
    | cons line rest =>
      simp only
      split
      · exact .ret _ rfl
      · refine Pays.andThen (((lookPays ctx fuel).kv line.content ⟨rest, some line⟩ 0).move ?_) fun a => Pays.andThen (ih _) fun a' => .ret _ rfl
        rw [budget_cons line rest last (some line), owed_cons]
        omega

theorem lookLines_bound (lines : List Line) : (lookLines (F := F) ctx lines).steps ≤ 94 * (lines.map fun l => l.content.length).sum := by
  suffices h : Pays 0 (budget ⟨lines, none⟩) (fun _ => ⟨[], none⟩) (lookLines (F := F) ctx lines) by
    have e : budget ⟨lines, none⟩ = 94 * (lines.map fun l => l.content.length).sum := rfl
    rw [← e]
    unfold Pays Charged at h
    split at h
    · have := h.1; simp only [totalW, nextW, List.map_nil, List.sum_nil, List.head?_nil, Option.map_none, Option.getD_none] at this; omega
    · omega
  -- what is left over is of no use
  have done : ∀ {p W : Nat} (evs : List (Ev F)), p ≤ W → Pays p W (fun _ => ⟨[], none⟩) (pure evs : Run (List (Ev F))) :=
    fun evs hpw => .pure (by simp only [totalW, nextW, List.map_nil, List.sum_nil, List.head?_nil, Option.map_none, Option.getD_none]; omega)
      fun _ _ => trivial
  rw [lookLines.eq_def]
  cases lines with
  | nil => exact done _ (Nat.le_refl _)
  | cons first rest =>
    have h1 := headerPasses_le first.content ','
    have h2 := keyLineTestPasses_le first.content
    have h3 := tokenPasses_le (trim first.content)
    have h4 := trim_length_le first.content
    have ht : arrayTestPasses first.content = 2 * first.content.length := rfl
    rw [budget_cons first rest none (some first)]
    simp only
    refine .spend (by omega) fun hdr hhdr => ?_
    cases hdr with
    | some h =>
      have h5 : inlineChars h ≤ first.content.length := by
        rw [rootHeader] at hhdr
        split at hhdr
        · exact inlineChars_le hhdr
        · simp at hhdr
      exact Pays.andThen (((lookPays ctx _).array h ⟨rest, some first⟩ 0).move (by omega)) fun a => done _ (owed_le _)
    | none =>
      refine .tick ?_
      split
      · exact .spend (by omega) fun _ _ => done _ (by omega)
      · refine Pays.andThen (((lookPays ctx _).kv first.content ⟨rest, some first⟩ 0).move (by omega)) fun a => ?_
        exact Pays.andThen (lookRoot_pays ctx _ _) fun a' => done _ (owed_le _)

end

end Toon
