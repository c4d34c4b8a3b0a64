import Verif.Lemmas.Frames
import Verif.Model.LineCopies

/-!
Counting the copies does not change what is decoded.
-/

namespace Toon

section
variable {α β : Type}

/-- The run and the function end in the same way. -/
def Run.Agrees (x : Run α) (y : Except Err α) : Prop := x.result = liftErr y

theorem Run.Agrees.bind {x : Run α} {y : Except Err α} {f : α → Run β} {g : α → Except Err β} (h : x.Agrees y)
    (hfg : ∀ a, (f a).Agrees (g a)) : (x >>= f).Agrees (y >>= g) := by
  unfold Run.Agrees at *
  rw [Run.result_bind, h]
  cases y with
  | error e => rfl
  | ok a => exact hfg a

theorem Run.Agrees.lift {y : Except Err α} {f : α → Run β} {g : α → Except Err β}
    (hfg : ∀ a, (f a).Agrees (g a)) : (Run.lift y >>= f).Agrees (y >>= g) := Run.Agrees.bind rfl hfg

theorem Run.Agrees.pure (a : α) : (Pure.pure a : Run α).Agrees (.ok a) := rfl

theorem Run.Agrees.fail (e : Err) : (Run.lift (.error e) : Run α).Agrees (.error e) := rfl

end

section
variable {w : Line → Nat} {α : Type}

theorem peekCopied_agrees {cur : Cur} {f : Option Line → Run α} {y : Except Err α} (h : (f cur.rest.head?).Agrees y) :
    (peekCopied w cur >>= f).Agrees y := h

theorem advanceCopied_agrees {line : Line} {rest : List Line} {last : Option Line} {f : Cur → Run α} {y : Except Err α}
    (h : (f ⟨rest, some line⟩).Agrees y) : (advanceCopied w ⟨line :: rest, last⟩ >>= f).Agrees y := h

theorem nextCopied_agrees {line : Line} {rest : List Line} {last : Option Line} {f : Option Line × Cur → Run α} {y : Except Err α}
    (h : (f (some line, ⟨rest, some line⟩)).Agrees y) : (nextCopied w ⟨line :: rest, last⟩ >>= f).Agrees y := h

variable {F : Type} [F64 F] (ctx : Ctx)

theorem copyRows_agrees (fields : List FieldName) (delim : Char) (length depth : Nat) : ∀ (rest : List Line) (last : Option Line) n count
    (start «end» : Option Nat), rest.length < n →
    (copyRows (F := F) w ctx fields delim length depth n ⟨rest, last⟩ count start «end»).Agrees
      (tabularLoop ctx fields delim length depth rest last count start «end») := by
  intro rest
  induction rest with
  | nil =>
    intro last n count start «end» hn
    cases n with
    | zero => simp at hn
    | succ n => rw [copyRows, tabularLoop]; exact .pure _
  | cons line rest ih =>
    intro last n count start «end» hn
    cases n with
    | zero => simp at hn
    | succ n =>
      rw [copyRows, tabularLoop.eq_def]
      simp only
      by_cases hc : count < length
      · rw [if_pos hc, if_neg (by simp [hc])]
        refine peekCopied_agrees ?_
        simp only [List.head?_cons]
        by_cases h1 : line.depth < depth
        · rw [if_pos h1, if_pos h1]; exact .pure _
        · rw [if_neg h1, if_neg h1]
          by_cases h2 : line.depth = depth
          · rw [if_pos h2, if_pos h2]
            refine advanceCopied_agrees (.lift fun _ => .lift fun prims => ?_)
            exact .bind (ih _ _ _ _ _ (by simp only [List.length_cons] at hn; omega)) fun out => .pure _
          · rw [if_neg h2, if_neg h2]; exact .pure _
      · rw [if_neg hc, if_pos (by simp [hc])]; exact .pure _

theorem copyTabular_agrees (h : Header) (fields : List FieldName) (cur : Cur) (base : Nat) :
    (copyTabular (F := F) w ctx h fields cur base).Agrees (decodeTabular ctx h fields cur base) := by
  rw [copyTabular, decodeTabular]
  refine .bind (copyRows_agrees ctx _ _ _ _ _ _ _ _ _ _ (by omega)) fun out => ?_
  exact .lift fun _ => .lift fun _ => .lift fun _ => .pure _

structure CopyAgrees (F : Type) [F64 F] (w : Line → Nat) (ctx : Ctx) (fuel : Nat) : Prop where
  kv : ∀ s cur b, (copyKV (F := F) w ctx fuel s cur b).Agrees (decodeKV ctx fuel s cur b)
  fields : ∀ cur b c, (copyFields (F := F) w ctx fuel cur b c).Agrees (decodeFields ctx fuel cur b c)
  array : ∀ h cur b, (copyArray (F := F) w ctx fuel h cur b).Agrees (decodeArray ctx fuel h cur b)
  items : ∀ n d cur c s e, (copyItems (F := F) w ctx fuel n d cur c s e).Agrees (listLoop ctx fuel n d cur c s e)
  item : ∀ cur b, (copyItem (F := F) w ctx fuel cur b).Agrees (decodeItem ctx fuel cur b)
  itemRest : ∀ s cur b, (copyItemRest (F := F) w ctx fuel s cur b).Agrees (decodeItemRest ctx fuel s cur b)
  follow : ∀ cur d, (copyFollow (F := F) w ctx fuel cur d).Agrees (followLoop ctx fuel cur d)

theorem copyAgrees (fuel : Nat) : CopyAgrees F w ctx fuel := by
  induction fuel with
  | zero =>
    constructor
    · intros; rw [copyKV, decodeKV]; exact .fail _
    · intros; rw [copyFields, decodeFields]; exact .fail _
    · intros; rw [copyArray, decodeArray]; exact .fail _
    · intros; rw [copyItems, listLoop]; exact .fail _
    · intros; rw [copyItem, decodeItem]; exact .fail _
    · intros; rw [copyItemRest, decodeItemRest]; exact .fail _
    · intros; rw [copyFollow, followLoop]; exact .fail _
  | succ fuel ih =>
    constructor
    · intro s cur b
      rw [copyKV, decodeKV]
      refine .lift fun hdr => ?_
      cases keyedHeader hdr with
      | some kh => exact .bind (ih.array _ _ _) fun _ => .pure _
      | none =>
        refine .lift fun k => ?_
        simp only
        split
        · obtain ⟨rest, last⟩ := cur
          cases rest with
          | nil => exact .pure _
          | cons next rest =>
            simp only
            split
            · exact .bind (ih.fields _ _ _) fun _ => .pure _
            · exact .pure _
        · exact .lift fun _ => .pure _
    · intro cur b c
      obtain ⟨rest, last⟩ := cur
      rw [copyFields, decodeFields]
      cases rest with
      | nil => exact .pure _
      | cons line rest =>
        rw [if_neg (by simp)]
        refine peekCopied_agrees ?_
        simp only [List.head?_cons]
        split
        · exact .pure _
        · split
          · exact advanceCopied_agrees (.bind (ih.kv _ _ _) fun r => .bind (ih.fields _ _ _) fun _ => .pure _)
          · exact .pure _
    · intro h cur b
      rw [copyArray, decodeArray]
      cases h.inline with
      | some inline => exact .lift fun _ => .pure _
      | none =>
        simp only
        split
        · exact .bind (ih.items _ _ _ _ _ _) fun out => .lift fun _ => .lift fun _ => .lift fun _ => .pure _
        · exact .bind (copyTabular_agrees ctx _ _ _ _) fun _ => .pure _
    · intro n d cur c s e
      obtain ⟨rest, last⟩ := cur
      rw [copyItems, listLoop]
      cases rest with
      | nil => exact .pure _
      | cons line rest =>
        by_cases hc : c < n
        · simp only [hc, if_true]
          rw [if_neg (by simp)]
          refine peekCopied_agrees ?_
          simp only [List.head?_cons]
          split
          · exact .pure _
          · split
            · exact .bind (ih.item _ _) fun r => .bind (ih.items _ _ _ _ _ _) fun _ => .pure _
            · exact .pure _
        · simp only [hc, if_false]
          rw [if_pos (by simp)]
          exact .pure _
    · intro cur b
      obtain ⟨rest, last⟩ := cur
      rw [copyItem, decodeItem]
      cases rest with
      | nil => rfl
      | cons line rest =>
        refine nextCopied_agrees ?_
        simp only
        split
        · exact .pure _
        · split
          · split
            · exact .pure _
            · refine .lift fun hdr => ?_
              cases isArrayHeaderContent (line.content.drop 2) <;> cases hdr
              case true.some h => exact ih.array _ _ _
              all_goals
                simp only
                generalize keyedHeader _ = kh
                cases kh with
                | none => exact ih.itemRest _ _ _
                | some kh =>
                  simp only
                  split
                  · exact .bind (ih.array _ _ _) fun r => .bind (ih.follow _ _) fun _ => .pure _
                  · exact ih.itemRest _ _ _
          · exact .fail _
    · intro s cur b
      rw [copyItemRest, decodeItemRest]
      split
      · exact .bind (ih.kv _ _ _) fun r => .bind (ih.follow _ _) fun _ => .pure _
      · exact .lift fun _ => .pure _
    · intro cur d
      obtain ⟨rest, last⟩ := cur
      rw [copyFollow, followLoop]
      cases rest with
      | nil => exact .pure _
      | cons line rest =>
        rw [if_neg (by simp)]
        refine peekCopied_agrees ?_
        simp only [List.head?_cons]
        split
        · exact .pure _
        · split
          · exact advanceCopied_agrees (.bind (ih.kv _ _ _) fun r => .bind (ih.follow _ _) fun _ => .pure _)
          · exact .pure _

theorem copyRoot_agrees : ∀ (fuel : Nat) (cur : Cur), (copyRoot (F := F) w ctx fuel cur).Agrees (rootLoop ctx fuel cur) := by
  intro fuel
  induction fuel with
  | zero => intro cur; rw [copyRoot, rootLoop]; exact .fail _
  | succ fuel ih =>
    intro cur
    obtain ⟨rest, last⟩ := cur
    rw [copyRoot, rootLoop]
    cases rest with
    | nil => exact .pure _
    | cons line rest =>
      rw [if_neg (by simp)]
      refine peekCopied_agrees ?_
      simp only [List.head?_cons]
      split
      · exact .pure _
      · exact advanceCopied_agrees (.bind ((copyAgrees ctx fuel).kv _ _ _) fun r => .bind (ih _) fun _ => .pure _)

theorem copyLines_agrees (lines : List Line) : (copyLines (F := F) w ctx lines).Agrees (decodeLines ctx lines) := by
  rw [copyLines, decodeLines.eq_def]
  refine peekCopied_agrees ?_
  cases lines with
  | nil => exact .pure _
  | cons first rest =>
    simp only [List.head?_cons]
    refine .lift fun hdr => advanceCopied_agrees ?_
    cases hdr with
    | some h => exact .bind ((copyAgrees ctx _).array _ _ _) fun _ => .pure _
    | none =>
      simp only
      split
      · exact .lift fun _ => .pure _
      · exact .bind ((copyAgrees ctx _).kv _ _ _) fun r => .bind (copyRoot_agrees ctx _ _) fun _ => .pure _

end

end Toon
