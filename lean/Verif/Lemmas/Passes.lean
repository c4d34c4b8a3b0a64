import Verif.Lemmas.LineCopiesBound
import Verif.Model.Passes

/-!
Counting the passes does not change what is decoded.
-/

namespace Toon

section
variable {α β : Type}

theorem Run.Agrees.spend {n : Nat} {y : Except Err α} {f : α → Run β} {g : α → Except Err β}
    (hfg : ∀ a, (f a).Agrees (g a)) : (Run.spend n y >>= f).Agrees (y >>= g) := Run.Agrees.bind rfl hfg

theorem Run.Agrees.tick {n : Nat} {f : Unit → Run α} {y : Except Err α} (h : (f ()).Agrees y) : (Toon.tick n >>= f).Agrees y := h

end

section
variable {F : Type} [F64 F] (ctx : Ctx)

theorem lookScan_agrees (indent : Nat) (strict : Bool) : ∀ (source : List Str) (num : Nat),
    (lookScan indent strict source num).Agrees (parseLines indent strict source num) := by
  intro source
  induction source with
  | nil => intro num; exact .pure _
  | cons raw rest ih =>
    intro num
    rw [lookScan, parseLines]
    have h := ih (num + 1)
    unfold Run.Agrees at h ⊢
    cases parseLine raw (num + 1) indent strict with
    | error e => rfl
    | ok sc =>
      rw [Run.result_bind]
      simp only [Run.spend, liftErr]
      rw [Run.result_bind, h]
      cases parseLines indent strict rest (num + 1) with
      | error e => rfl
      | ok out => cases sc <;> rfl

theorem lookRows_agrees (fields : List FieldName) (delim : Char) (length depth : Nat) : ∀ (rest : List Line) (last : Option Line) count
    (start «end» : Option Nat),
    (lookRows (F := F) ctx fields delim length depth rest last count start «end»).Agrees
      (tabularLoop ctx fields delim length depth rest last count start «end») := by
  intro rest
  induction rest with
  | nil => intro last count start «end»; rw [lookRows, tabularLoop]; exact .pure _
  | cons line rest ih =>
    intro last count start «end»
    rw [lookRows.eq_def, tabularLoop.eq_def]
    simp only
    split
    · split
      · exact .pure _
      · split
        · exact .tick (.lift fun _ => .lift fun prims => .bind (ih _ _ _ _) fun out => .pure _)
        · exact .pure _
    · exact .pure _

theorem lookTabular_agrees (h : Header) (fields : List FieldName) (cur : Cur) (base : Nat) :
    (lookTabular (F := F) ctx h fields cur base).Agrees (decodeTabular ctx h fields cur base) := by
  rw [lookTabular, decodeTabular]
  exact .bind (lookRows_agrees ctx _ _ _ _ _ _ _ _ _) fun out => .lift fun _ => .lift fun _ => .spend fun _ => .pure _

structure LookAgrees (F : Type) [F64 F] (ctx : Ctx) (fuel : Nat) : Prop where
  kv : ∀ s cur b, (lookKV (F := F) ctx fuel s cur b).Agrees (decodeKV ctx fuel s cur b)
  fields : ∀ cur b c, (lookFields (F := F) ctx fuel cur b c).Agrees (decodeFields ctx fuel cur b c)
  array : ∀ h cur b, (lookArray (F := F) ctx fuel h cur b).Agrees (decodeArray ctx fuel h cur b)
  items : ∀ n d cur c s e, (lookItems (F := F) ctx fuel n d cur c s e).Agrees (listLoop ctx fuel n d cur c s e)
  item : ∀ cur b, (lookItem (F := F) ctx fuel cur b).Agrees (decodeItem ctx fuel cur b)
  itemRest : ∀ s cur b, (lookItemRest (F := F) ctx fuel s cur b).Agrees (decodeItemRest ctx fuel s cur b)
  follow : ∀ cur d, (lookFollow (F := F) ctx fuel cur d).Agrees (followLoop ctx fuel cur d)

theorem lookAgrees (fuel : Nat) : LookAgrees F ctx fuel := by
  induction fuel with
  | zero =>
    constructor
    · intros; rw [lookKV, decodeKV]; exact .fail _
    · intros; rw [lookFields, decodeFields]; exact .fail _
    · intros; rw [lookArray, decodeArray]; exact .fail _
    · intros; rw [lookItems, listLoop]; exact .fail _
    · intros; rw [lookItem, decodeItem]; exact .fail _
    · intros; rw [lookItemRest, decodeItemRest]; exact .fail _
    · intros; rw [lookFollow, followLoop]; exact .fail _
  | succ fuel ih =>
    constructor
    · intro s cur b
      rw [lookKV, decodeKV]
      refine .spend fun hdr => .tick ?_
      cases keyedHeader hdr with
      | some kh => exact .bind (ih.array _ _ _) fun _ => .pure _
      | none =>
        refine .spend fun k => .tick ?_
        simp only
        split
        · obtain ⟨rest, last⟩ := cur
          cases rest with
          | nil => exact .pure _
          | cons next rest =>
            simp only
            split
            · exact .bind (ih.fields _ _ _) fun _ => .pure _
            · exact .pure _
        · exact .spend fun _ => .pure _
    · intro cur b c
      obtain ⟨rest, last⟩ := cur
      rw [lookFields, decodeFields]
      cases rest with
      | nil => exact .pure _
      | cons line rest =>
        simp only
        split
        · exact .pure _
        · split
          · exact .bind (ih.kv _ _ _) fun r => .bind (ih.fields _ _ _) fun _ => .pure _
          · exact .pure _
    · intro h cur b
      rw [lookArray, decodeArray]
      cases h.inline with
      | some inline => exact .spend fun _ => .pure _
      | none =>
        simp only
        split
        · exact .bind (ih.items _ _ _ _ _ _) fun out => .lift fun _ => .lift fun _ => .lift fun _ => .pure _
        · exact .bind (lookTabular_agrees ctx _ _ _ _) fun _ => .pure _
    · intro n d cur c s e
      obtain ⟨rest, last⟩ := cur
      rw [lookItems, listLoop]
      cases rest with
      | nil => exact .pure _
      | cons line rest =>
        simp only
        split
        · split
          · exact .pure _
          · split
            · exact .bind (ih.item _ _) fun r => .bind (ih.items _ _ _ _ _ _) fun _ => .pure _
            · exact .pure _
        · exact .pure _
    · intro cur b
      obtain ⟨rest, last⟩ := cur
      rw [lookItem, decodeItem]
      cases rest with
      | nil => rfl
      | cons line rest =>
        simp only
        split
        · exact .pure _
        · split
          · refine .tick ?_
            split
            · exact .pure _
            · refine .tick (.lift fun hdr => ?_)
              cases isArrayHeaderContent (line.content.drop 2) <;> cases hdr
              case true.some h => exact ih.array _ _ _
              all_goals
                simp only
                refine .tick ?_
                generalize keyedHeader _ = kh
                cases kh with
                | none => exact ih.itemRest _ _ _
                | some kh =>
                  simp only
                  split
                  · refine .tick ?_
                    exact .bind (ih.array _ _ _) fun r => .bind (ih.follow _ _) fun _ => .pure _
                  · exact ih.itemRest _ _ _
          · exact .fail _
    · intro s cur b
      rw [lookItemRest, decodeItemRest]
      refine .tick ?_
      split
      · exact .bind (ih.kv _ _ _) fun r => .bind (ih.follow _ _) fun _ => .pure _
      · exact .spend fun _ => .pure _
    · intro cur d
      obtain ⟨rest, last⟩ := cur
      rw [lookFollow, followLoop]
      cases rest with
      | nil => exact .pure _
      | cons line rest =>
        simp only
        split
        · exact .pure _
        · split
          · exact .bind (ih.kv _ _ _) fun r => .bind (ih.follow _ _) fun _ => .pure _
          · exact .pure _

theorem lookRoot_agrees : ∀ (fuel : Nat) (cur : Cur), (lookRoot (F := F) ctx fuel cur).Agrees (rootLoop ctx fuel cur) := by
  intro fuel
  induction fuel with
  | zero => intro cur; rw [lookRoot, rootLoop]; exact .fail _
  | succ fuel ih =>
    intro cur
    obtain ⟨rest, last⟩ := cur
    rw [lookRoot, rootLoop]
    cases rest with
    | nil => exact .pure _
    | cons line rest =>
      simp only
      split
      · exact .pure _
      · exact .bind ((lookAgrees ctx fuel).kv _ _ _) fun r => .bind (ih _) fun _ => .pure _

theorem lookLines_agrees (lines : List Line) : (lookLines (F := F) ctx lines).Agrees (decodeLines ctx lines) := by
  rw [lookLines.eq_def, decodeLines.eq_def]
  cases lines with
  | nil => exact .pure _
  | cons first rest =>
    simp only
    refine .spend fun hdr => ?_
    cases hdr with
    | some h => exact .bind ((lookAgrees ctx _).array _ _ _) fun _ => .pure _
    | none =>
      refine .tick ?_
      simp only
      split
      · exact .spend fun _ => .pure _
      · exact .bind ((lookAgrees ctx _).kv _ _ _) fun r => .bind (lookRoot_agrees ctx _ _) fun _ => .pure _

end

end Toon
