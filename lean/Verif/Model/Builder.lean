import Verif.Model.Basic

/-!
# `/repo/src/decode/event_builder.rs`
-/

namespace Toon

/-- `/repo/src/decode/event_builder.rs:6-17` `NodeValue`/`ObjectNode`.  The `HashSet` of quoted
keys is a list used through membership only. -/
inductive Node (F : Type) where
  | prim (p : Prim F)
  | arr (items : List (Node F))
  | obj (entries : List (Str × Node F)) (quoted : List Str)

/-- `/repo/src/decode/event_builder.rs:19-29` `BuildContext`. -/
inductive BCtx (F : Type) where
  | obj (entries : List (Str × Node F)) (cur : Option Str) (quoted : List Str)
  | arr (items : List (Node F))

/-- `/repo/src/decode/event_builder.rs:31-35` `BuildState`; the head of `stack` is the top. -/
structure BState (F : Type) where
  stack : List (BCtx F)
  root : Option (Node F)

variable {F : Type}

/-- Storing a finished node: into the parent context, or as the root
(`event_builder.rs:97-117`, `130-150`, `170-192`). -/
def attach (stack : List (BCtx F)) (root : Option (Node F)) (node : Node F) :
    Except Err (BState F) :=
  match stack with
  | [] => .ok ⟨[], some node⟩
  | .obj entries (some k) quoted :: rest => .ok ⟨.obj (entries ++ [(k, node)]) none quoted :: rest, root⟩
  | .obj _ none _ :: _ => .error .badEvent
  | .arr items :: rest => .ok ⟨.arr (items ++ [node]) :: rest, root⟩

/-- `/repo/src/decode/event_builder.rs:72-197` `apply_event`. -/
def applyEvent (st : BState F) : Ev F → Except Err (BState F)
  | .startObj => .ok { st with stack := .obj [] none [] :: st.stack }
  | .endObj =>
    match st.stack with
    | [] => .error .badEvent
    | .obj entries _ quoted :: rest => attach rest st.root (.obj entries quoted)
    | .arr _ :: _ => .error .badEvent
  | .startArr _ => .ok { st with stack := .arr [] :: st.stack }
  | .endArr =>
    match st.stack with
    | [] => .error .badEvent
    | .arr items :: rest => attach rest st.root (.arr items)
    | .obj _ _ _ :: _ => .error .badEvent
  | .key k q =>
    match st.stack with
    | .obj entries _ quoted :: rest =>
      .ok { st with stack := .obj entries (some k) (if q then k :: quoted else quoted) :: rest }
    | _ => .error .badEvent
  | .prim p => attach st.stack st.root (.prim p)

/-- The event loop `/repo/src/decode/event_builder.rs:51-53`. -/
def applyEvents (st : BState F) : List (Ev F) → Except Err (BState F)
  | [] => .ok st
  | e :: es =>
    match applyEvent st e with
    | .error err => .error err
    | .ok st' => applyEvents st' es

/-- `/repo/src/decode/event_builder.rs:43-56`, `199-209` `build_node_from_events`,
`finalize_state`. -/
def buildNode (evs : List (Ev F)) : Except Err (Node F) :=
  match applyEvents ⟨[], none⟩ evs with
  | .error e => .error e
  | .ok st =>
    if st.stack.isEmpty then
      match st.root with
      | some n => .ok n
      | none => .error .badEvent
    else .error .badEvent

mutual
/-- `/repo/src/decode/event_builder.rs:58-69` `node_to_json`. -/
def nodeToJson : Node F → Json F
  | .prim p => .prim p
  | .arr items => .arr (nodesToJson items)
  | .obj entries _ => .obj (entriesToJson entries)
def nodesToJson : List (Node F) → List (Json F)
  | [] => []
  | n :: ns => nodeToJson n :: nodesToJson ns
def entriesToJson : List (Str × Node F) → List (Str × Json F)
  | [] => []
  | (k, n) :: ns => (k, nodeToJson n) :: entriesToJson ns
end

end Toon
