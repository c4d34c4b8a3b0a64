import Verif.Lemmas.Sequence
import Verif.Lemmas.ExpandLeaves
import Verif.Lemmas.ResourcesSize

/-!
# The primitives of a value among its leaves

Lemmas for C116: the primitives of a value in order are its leaves without paths and without empty containers, for the tree of a text before
and after path expansion.
-/

namespace Toon

variable {F : Type}

/-- The primitive at the end of a path, if there is one. -/
def leafPrim (l : List Step × Leaf F) : Option (Prim F) :=
  match l.2 with
  | .prim p => some p
  | _ => none

theorem leafPrim_solid (ls : List (List Step × Leaf F)) : (solid ls).filterMap leafPrim = ls.filterMap leafPrim := by
  unfold solid
  rw [List.filterMap_filter]
  congr 1
  funext ⟨p, l⟩
  cases l <;> simp [Leaf.solid, leafPrim]

theorem leafPrim_moved (f : List Step → List Step) (ls : List (List Step × Leaf F)) :
    (ls.map fun l => (f l.1, l.2)).filterMap leafPrim = ls.filterMap leafPrim := by
  rw [List.filterMap_map]
  rfl

mutual
theorem inside_leaves : (v : Json F) → (leaves v).filterMap leafPrim = inside v
  | .prim p => by simp [leaves, leafPrim, inside]
  | .arr [] => by simp [leaves, leafPrim, inside, insideItems]
  | .arr (v :: vs) => by rw [leaves, inside]; exact insideItems_leaves 0 (v :: vs)
  | .obj [] => by simp [leaves, leafPrim, inside, insideEntries]
  | .obj (e :: es) => by rw [leaves, inside]; exact insideEntries_leaves (e :: es)
theorem insideItems_leaves (i : Nat) : (vs : List (Json F)) → (leavesItems i vs).filterMap leafPrim = insideItems vs
  | [] => by simp [leavesItems, insideItems]
  | v :: vs => by
    rw [leavesItems, insideItems, List.filterMap_append, leafPrim_moved (fun p => .index i :: p), inside_leaves v,
      insideItems_leaves (i + 1) vs]
theorem insideEntries_leaves : (es : List (Str × Json F)) → (leavesEntries es).filterMap leafPrim = insideEntries es
  | [] => by simp [leavesEntries, insideEntries]
  | (k, v) :: es => by
    rw [leavesEntries, insideEntries, List.filterMap_append, leafPrim_moved (fun p => .key k :: p), inside_leaves v,
      insideEntries_leaves es]
end

mutual
theorem inside_pathLeaves : (t : ETree F) → (pathLeaves t).filterMap leafPrim = inside t.json
  | .prim p => by simp [pathLeaves, leafPrim, inside, ETree.json]
  | .arr _ [] => by simp [pathLeaves, leafPrim, inside, insideItems, ETree.json, ETree.jsonItems]
  | .arr _ (t :: ts) => by rw [pathLeaves, ETree.json, inside]; exact insideItems_pathLeaves 0 (t :: ts)
  | .obj [] => by simp [pathLeaves, leafPrim, inside, insideEntries, ETree.json, ETree.jsonEntries]
  | .obj (e :: es) => by rw [pathLeaves, ETree.json, inside]; exact insideEntries_pathLeaves _ (e :: es)
theorem insideItems_pathLeaves (i : Nat) :
    (ts : List (ETree F)) → (pathLeavesItems i ts).filterMap leafPrim = insideItems (ETree.jsonItems ts)
  | [] => by simp [pathLeavesItems, insideItems, ETree.jsonItems]
  | t :: ts => by
    rw [pathLeavesItems, ETree.jsonItems, insideItems, List.filterMap_append, leafPrim_moved (fun p => .index i :: p),
      inside_pathLeaves t, insideItems_pathLeaves (i + 1) ts]
theorem insideEntries_pathLeaves (quoted : Str → Bool) :
    (es : List (Str × Bool × ETree F)) → (pathLeavesEntries quoted es).filterMap leafPrim = insideEntries (ETree.jsonEntries es)
  | [] => by simp [pathLeavesEntries, insideEntries, ETree.jsonEntries]
  | (k, _, t) :: es => by
    rw [pathLeavesEntries, ETree.jsonEntries, insideEntries, List.filterMap_append,
      leafPrim_moved (fun p => (keyPath (quoted k) k).map Step.key ++ p), inside_pathLeaves t, insideEntries_pathLeaves quoted es]
end

/-- Without conflicts path expansion moves primitives, and that is all. -/
theorem inside_expanded (t : ETree F) (h : conflicting t = false) : (inside (expanded t)).Perm (inside t.json) := by
  have h1 := (expanded_leaves t h).filterMap leafPrim
  rwa [leafPrim_solid, leafPrim_solid, inside_leaves, inside_pathLeaves] at h1

/-- Values with the same leaves at the same dotted paths have the same primitives. -/
theorem inside_dotLeaves {v w : Json F} (h : (dotLeaves v).Perm (dotLeaves w)) : (inside v).Perm (inside w) := by
  have key : ∀ v : Json F, (dotLeaves v).filterMap (fun l => leafPrim ([], l.2)) = inside v := by
    intro v
    rw [dotLeaves, List.filterMap_map, ← inside_leaves v]
    rfl
  have h1 := h.filterMap fun l => leafPrim ([], l.2)
  rwa [key, key] at h1

/-! ## Replaced entries -/

section
variable {α : Type} {a b c d : List α}

theorem Among.of_perm (h : a.Perm b) : Among a b := ⟨[], by simpa using h⟩

theorem Among.refl (a : List α) : Among a a := .of_perm (.refl a)

theorem Among.trans : Among a b → Among b c → Among a c := by
  rintro ⟨r, h1⟩ ⟨s, h2⟩
  exact ⟨r ++ s, by rw [← List.append_assoc]; exact (h1.append_right s).trans h2⟩

theorem Among.append : Among a b → Among c d → Among (a ++ c) (b ++ d) := by
  rintro ⟨r, h1⟩ ⟨s, h2⟩
  refine ⟨r ++ s, .trans ?_ (h1.append h2)⟩
  rw [List.append_assoc, List.append_assoc]
  exact (List.perm_append_comm_assoc c r s).append_left a

theorem Among.left (a b : List α) : Among a (a ++ b) := ⟨b, .refl _⟩

theorem Among.right (a b : List α) : Among b (a ++ b) := ⟨a, List.perm_append_comm⟩

end

theorem insideEntries_append (a b : List (Str × Json F)) : insideEntries (a ++ b) = insideEntries a ++ insideEntries b := by
  induction a with
  | nil => rfl
  | cons e a ih => rw [List.cons_append, insideEntries, insideEntries, ih, List.append_assoc]

theorem replaceKey_among {k : Str} {c w : Json F} {ps : List (Prim F)} (h : Among (inside w) (inside c ++ ps)) :
    (a : List (Str × Json F)) → lookupKey k a = some c → Among (insideEntries (replaceKey k w a)) (insideEntries a ++ ps)
  | [], hl => by simp [lookupKey] at hl
  | (k', v') :: a, hl => by
    rw [lookupKey] at hl
    rw [replaceKey]
    split at hl
    next hk =>
      cases hl
      rw [if_pos hk, insideEntries, insideEntries]
      refine (h.append (.refl _)).trans (.of_perm ?_)
      rw [List.append_assoc, List.append_assoc]
      exact List.perm_append_comm.append_left _
    next hk =>
      rw [if_neg hk, insideEntries, insideEntries, List.append_assoc]
      exact (Among.refl _).append (replaceKey_among h a hl)

mutual
/-- A merge uses no primitive twice. -/
theorem deepMerge_among (a b : Json F) : Among (inside (deepMerge a b)) (inside a ++ inside b) := by
  match b with
  | .prim p => rw [deepMerge]; exact .right _ _
  | .arr items => rw [deepMerge]; exact .right _ _
  | .obj b =>
    match a with
    | .prim p => simp only [deepMerge]; exact .right _ _
    | .arr items => simp only [deepMerge]; exact .right _ _
    | .obj a => simp only [deepMerge, inside]; exact mergeObj_among a b
theorem mergeObj_among (a b : List (Str × Json F)) : Among (insideEntries (mergeObj a b)) (insideEntries a ++ insideEntries b) := by
  match b with
  | [] => rw [mergeObj]; exact .left _ _
  | (k, v) :: b =>
    rw [mergeObj_cons, insideEntries, ← List.append_assoc]
    refine (mergeObj_among _ b).trans (.append ?_ (.refl _))
    unfold putMerge
    cases h : lookupKey k a with
    | none => simp only [insideEntries_append, insideEntries, List.append_nil]; exact .refl _
    | some c => exact replaceKey_among (deepMerge_among c v) a h
end

theorem inside_nested (ss : List Str) (v : Json F) : inside (nested ss v) = inside v := by
  induction ss with
  | nil => rfl
  | cons s ss ih => rw [nested, inside, insideEntries, insideEntries, List.append_nil, ih]

mutual
/-- Path expansion uses no primitive twice. -/
theorem expanded_among (t : ETree F) : Among (inside (expanded t)) (inside t.json) := by
  match t with
  | .prim p => exact .refl _
  | .arr n ts => rw [expanded, ETree.json, inside, inside]; exact expandedItems_among ts
  | .obj es => rw [expanded, ETree.json, inside, inside]; exact expandedEntries_among (quotedIn es) es []
theorem expandedItems_among (ts : List (ETree F)) : Among (insideItems (expandedItems ts)) (insideItems (ETree.jsonItems ts)) := by
  match ts with
  | [] => exact .refl _
  | t :: ts =>
    rw [expandedItems, ETree.jsonItems, insideItems, insideItems]
    exact (expanded_among t).append (expandedItems_among ts)
theorem expandedEntries_among (quoted : Str → Bool) (es : List (Str × Bool × ETree F)) (acc : List (Str × Json F)) :
    Among (insideEntries (expandedEntries quoted es acc)) (insideEntries acc ++ insideEntries (ETree.jsonEntries es)) := by
  match es with
  | [] => rw [expandedEntries]; exact .left _ _
  | (k, q, t) :: es =>
    rw [expandedEntries, ETree.jsonEntries, insideEntries, ← List.append_assoc]
    refine (expandedEntries_among quoted es _).trans (.append ((mergeObj_among _ _).trans (.append (.refl _) ?_)) (.refl _))
    cases h : keyPath (quoted k) k with
    | nil => exact ⟨_, .refl _⟩
    | cons s ss =>
      rw [atPath, insideEntries, insideEntries, List.append_nil, inside_nested]
      exact expanded_among t
end

/-! ## Events -/

theorem eventPrims_append (a b : List (Ev F)) : eventPrims (a ++ b) = eventPrims a ++ eventPrims b := by
  induction a with
  | nil => rfl
  | cons e a ih => cases e <;> simp [eventPrims, ih]

mutual
theorem eventPrims_tree : (t : ETree F) → eventPrims t.events = inside t.json
  | .prim p => rfl
  | .arr n ts => by
    rw [ETree.events, ETree.json, inside, eventPrims_append, eventPrims, eventPrims_items ts]
    · simp [eventPrims]
    · simp
  | .obj es => by
    rw [ETree.events, ETree.json, inside, eventPrims_append, eventPrims, eventPrims_entries es]
    · simp [eventPrims]
    · simp
theorem eventPrims_items : (ts : List (ETree F)) → eventPrims (ETree.eventsItems ts) = insideItems (ETree.jsonItems ts)
  | [] => rfl
  | t :: ts => by rw [ETree.eventsItems, ETree.jsonItems, insideItems, eventPrims_append, eventPrims_tree t, eventPrims_items ts]
theorem eventPrims_entries :
    (es : List (Str × Bool × ETree F)) → eventPrims (ETree.eventsEntries es) = insideEntries (ETree.jsonEntries es)
  | [] => rfl
  | (k, q, t) :: es => by
    rw [ETree.eventsEntries, ETree.jsonEntries, insideEntries, eventPrims_append, eventPrims, eventPrims_tree t, eventPrims_entries es]
    simp
end

/-! ## Characters -/

theorem stringChars_append (a b : List (Prim F)) : stringChars (a ++ b) = stringChars a + stringChars b := by
  induction a with
  | nil => simp [stringChars]
  | cons p a ih => cases p <;> simp [stringChars, ih, Nat.add_assoc]

theorem stringChars_perm {a b : List (Prim F)} (h : a.Perm b) : stringChars a = stringChars b := by
  induction h with
  | nil => rfl
  | cons p _ ih => cases p <;> simp [stringChars, ih]
  | swap p q _ => cases p <;> cases q <;> simp [stringChars]; omega
  | trans _ _ ih1 ih2 => exact ih1.trans ih2

theorem stringChars_among {a b : List (Prim F)} (h : Among a b) : stringChars a ≤ stringChars b := by
  obtain ⟨rest, h⟩ := h
  rw [← stringChars_perm h, stringChars_append]
  omega

theorem stringChars_token [F64 F] {w : Str} {s : Str} (h : TokenMeans (F := F) w (.str s)) : s.length ≤ w.length := by
  cases h with
  | empty => simp
  | quoted h =>
    have := quotedDenotes_length h
    simp only [List.length_append, List.length_cons]
    omega
  | bare => exact Nat.le_refl _

theorem stringChars_loosely [F64 F] {ws : List Str} {ps : List (Prim F)} (h : Loosely ws ps) :
    stringChars ps ≤ ws.flatten.length := by
  induction h with
  | nil => simp [stringChars]
  | @take w p ws ps hm _ ih =>
    rw [List.flatten_cons, List.length_append]
    cases p with
    | str s => have := stringChars_token hm; simp only [stringChars]; omega
    | _ => simp only [stringChars]; omega
  | unused _ ih => rw [List.flatten_cons, List.length_append]; omega
  | supplied _ ih => simpa only [stringChars] using ih

theorem wordsOf_length {ws : List Str} {text : Str} (h : WordsOf ws text) : ws.flatten.length ≤ text.length := by
  induction h with
  | none => simp
  | word _ _ _ ih => simp only [List.flatten_cons, List.length_append]; omega

theorem wordsIn_length {ws : List Str} {source : List Str} (h : WordsIn ws source) :
    ws.flatten.length + source.length ≤ sourceLength source := by
  induction h with
  | nil => simp [sourceLength]
  | line h1 _ ih =>
    have := wordsOf_length h1
    unfold sourceLength at ih ⊢
    simp only [List.flatten_append, List.length_append, List.length_cons, List.map_cons, List.sum_cons]
    omega

end Toon
