import Verif.Model.Api
import Verif.Spec.Events

/-! Building a value from the events of a tree. -/

namespace Toon

variable {F : Type}

mutual
/-- The node built from a tree. -/
def ETree.node : ETree F → Node F
  | .prim p => .prim p
  | .arr _ items => .arr (ETree.nodeItems items)
  | .obj entries => .obj (ETree.nodeEntries entries) (ETree.quotedKeys entries [])
def ETree.nodeItems : List (ETree F) → List (Node F)
  | [] => []
  | t :: ts => t.node :: ETree.nodeItems ts
def ETree.nodeEntries : List (Str × Bool × ETree F) → List (Str × Node F)
  | [] => []
  | (k, _, t) :: es => (k, t.node) :: ETree.nodeEntries es
/-- The quoted keys, added in order to a list. -/
def ETree.quotedKeys : List (Str × Bool × ETree F) → List Str → List Str
  | [], acc => acc
  | (k, q, _) :: es, acc => ETree.quotedKeys es (if q then k :: acc else acc)
end

/-- Continue with the rest of the events. -/
def andThen (r : Except Err (BState F)) (rest : List (Ev F)) : Except Err (BState F) :=
  match r with
  | .error e => .error e
  | .ok st => applyEvents st rest

mutual
theorem apply_tree (t : ETree F) (st : BState F) (rest : List (Ev F)) :
    applyEvents st (t.events ++ rest) = andThen (attach st.stack st.root t.node) rest := by
  cases t with
  | prim p =>
    simp only [ETree.events, List.cons_append, List.nil_append, applyEvents, applyEvent, ETree.node, andThen]
    cases attach st.stack st.root (Node.prim p) <;> rfl
  | arr n items =>
    simp only [ETree.events, List.cons_append, List.append_assoc, List.nil_append, applyEvents, applyEvent]
    rw [apply_items items]
    simp only [applyEvents, applyEvent, ETree.node, andThen, List.nil_append]
    cases attach st.stack st.root (Node.arr (ETree.nodeItems items)) <;> rfl
  | obj es =>
    simp only [ETree.events, List.cons_append, List.append_assoc, List.nil_append, applyEvents, applyEvent]
    obtain ⟨c, h⟩ := apply_entries es [] none [] st.stack st.root (.endObj :: rest)
    rw [h]
    simp only [applyEvents, applyEvent, ETree.node, andThen, List.nil_append]
    cases attach st.stack st.root (Node.obj (ETree.nodeEntries es) (ETree.quotedKeys es [])) <;> rfl
theorem apply_items (ts : List (ETree F)) (acc : List (Node F)) (stack : List (BCtx F)) (root : Option (Node F))
    (rest : List (Ev F)) :
    applyEvents ⟨.arr acc :: stack, root⟩ (ETree.eventsItems ts ++ rest) =
      applyEvents ⟨.arr (acc ++ ETree.nodeItems ts) :: stack, root⟩ rest := by
  cases ts with
  | nil => simp only [ETree.eventsItems, List.nil_append, ETree.nodeItems, List.append_nil]
  | cons t ts =>
    simp only [ETree.eventsItems, List.append_assoc]
    rw [apply_tree t]
    simp only [attach, andThen]
    rw [apply_items ts]
    simp only [ETree.nodeItems, List.append_assoc, List.cons_append, List.nil_append]
theorem apply_entries (es : List (Str × Bool × ETree F)) (acc : List (Str × Node F)) (cur : Option Str) (qs : List Str)
    (stack : List (BCtx F)) (root : Option (Node F)) (rest : List (Ev F)) :
    ∃ cur', applyEvents ⟨.obj acc cur qs :: stack, root⟩ (ETree.eventsEntries es ++ rest) =
      applyEvents ⟨.obj (acc ++ ETree.nodeEntries es) cur' (ETree.quotedKeys es qs) :: stack, root⟩ rest := by
  cases es with
  | nil =>
    exact ⟨cur, by simp only [ETree.eventsEntries, List.nil_append, ETree.nodeEntries, List.append_nil, ETree.quotedKeys]⟩
  | cons e es =>
    obtain ⟨k, q, t⟩ := e
    obtain ⟨c, h⟩ := apply_entries es (acc ++ [(k, t.node)]) none (if q then k :: qs else qs) stack root rest
    refine ⟨c, ?_⟩
    simp only [ETree.eventsEntries, List.append_assoc, List.cons_append, applyEvents, applyEvent]
    rw [apply_tree t]
    simp only [attach, andThen]
    rw [h]
    simp only [ETree.nodeEntries, List.append_assoc, List.cons_append, List.nil_append, ETree.quotedKeys]
end

theorem buildNode_events (t : ETree F) : buildNode t.events = .ok t.node := by
  unfold buildNode
  have := apply_tree t ⟨[], none⟩ []
  rw [List.append_nil] at this
  rw [this]
  simp only [attach, andThen, applyEvents]
  rfl

mutual
theorem nodeToJson_node (t : ETree F) : nodeToJson t.node = t.json := by
  cases t with
  | prim p => rfl
  | arr n items => simp only [ETree.node, nodeToJson, ETree.json, nodesToJson_node]
  | obj es => simp only [ETree.node, nodeToJson, ETree.json, entriesToJson_node]
theorem nodesToJson_node (ts : List (ETree F)) : nodesToJson (ETree.nodeItems ts) = ETree.jsonItems ts := by
  cases ts with
  | nil => rfl
  | cons t ts => simp only [ETree.nodeItems, nodesToJson, ETree.jsonItems, nodeToJson_node t, nodesToJson_node ts]
theorem entriesToJson_node (es : List (Str × Bool × ETree F)) :
    entriesToJson (ETree.nodeEntries es) = ETree.jsonEntries es := by
  cases es with
  | nil => rfl
  | cons e es =>
    obtain ⟨k, q, t⟩ := e
    simp only [ETree.nodeEntries, entriesToJson, ETree.jsonEntries, nodeToJson_node t, entriesToJson_node es]
end

mutual
/-- The tree whose events the encoder emits for a value. -/
def treeOf : Json F → ETree F
  | .prim p => .prim p
  | .arr items => .arr items.length (treesOf items)
  | .obj es => .obj (treeEntries es)
def treesOf : List (Json F) → List (ETree F)
  | [] => []
  | v :: vs => treeOf v :: treesOf vs
def treeEntries : List (Str × Json F) → List (Str × Bool × ETree F)
  | [] => []
  | (k, v) :: es => (k, !isValidUnquotedKey k, treeOf v) :: treeEntries es
end

mutual
theorem events_treeOf (v : Json F) : (treeOf v).events = emitEvents v := by
  cases v with
  | prim p => rfl
  | arr items => simp only [treeOf, ETree.events, emitEvents, eventsItems_treesOf]
  | obj es => simp only [treeOf, ETree.events, emitEvents, eventsEntries_treeEntries]
theorem eventsItems_treesOf (vs : List (Json F)) : ETree.eventsItems (treesOf vs) = emitItems vs := by
  cases vs with
  | nil => rfl
  | cons v vs => simp only [treesOf, ETree.eventsItems, emitItems, events_treeOf v, eventsItems_treesOf vs]
theorem eventsEntries_treeEntries (es : List (Str × Json F)) :
    ETree.eventsEntries (treeEntries es) = emitEntries es := by
  cases es with
  | nil => rfl
  | cons e es =>
    obtain ⟨k, v⟩ := e
    simp only [treeEntries, ETree.eventsEntries, emitEntries, events_treeOf v, eventsEntries_treeEntries es]
end

mutual
theorem json_treeOf (v : Json F) : (treeOf v).json = v := by
  cases v with
  | prim p => rfl
  | arr items => simp only [treeOf, ETree.json, jsonItems_treesOf]
  | obj es => simp only [treeOf, ETree.json, jsonEntries_treeEntries]
theorem jsonItems_treesOf (vs : List (Json F)) : ETree.jsonItems (treesOf vs) = vs := by
  cases vs with
  | nil => rfl
  | cons v vs => simp only [treesOf, ETree.jsonItems, json_treeOf v, jsonItems_treesOf vs]
theorem jsonEntries_treeEntries (es : List (Str × Json F)) : ETree.jsonEntries (treeEntries es) = es := by
  cases es with
  | nil => rfl
  | cons e es =>
    obtain ⟨k, v⟩ := e
    simp only [treeEntries, ETree.jsonEntries, json_treeOf v, jsonEntries_treeEntries es]
end

theorem build_emit (v : Json F) :
    ∃ n, buildNode (emitEvents v) = .ok n ∧ n = (treeOf v).node ∧ nodeToJson n = v := by
  refine ⟨(treeOf v).node, ?_, rfl, ?_⟩
  · rw [← events_treeOf, buildNode_events]
  · rw [nodeToJson_node, json_treeOf]

end Toon
