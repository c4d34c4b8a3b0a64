import Verif.Model.Api

/-!
# What a hash set leaves open

The library keeps two kinds of `HashSet`: the keys of an object that were written in quotes (`/repo/src/decode/event_builder.rs:24`) and
the dotted keys of the root object (`/repo/src/encode/encoders.rs:48-58`).  The model keeps both as lists.  Here the lists are allowed to
be any lists with the right members: in any order, with any repetitions, and rearranged at any moment.
-/

namespace Toon

variable {F : Type}

/-- Two lists stand for the same set. -/
def SameMembers (a b : List Str) : Prop := ∀ k, k ∈ a ↔ k ∈ b

mutual
/-- Two built values that differ only in how their sets of quoted keys are laid out. -/
inductive Alike : Node F → Node F → Prop where
  | prim (p : Prim F) : Alike (.prim p) (.prim p)
  | arr {xs ys : List (Node F)} : AlikeItems xs ys → Alike (.arr xs) (.arr ys)
  | obj {es fs : List (Str × Node F)} {q r : List Str} : AlikeEntries es fs → SameMembers q r → Alike (.obj es q) (.obj fs r)
/-- `Alike` item by item. -/
inductive AlikeItems : List (Node F) → List (Node F) → Prop where
  | nil : AlikeItems [] []
  | cons {x y : Node F} {xs ys : List (Node F)} : Alike x y → AlikeItems xs ys → AlikeItems (x :: xs) (y :: ys)
/-- `Alike` entry by entry, under the same keys. -/
inductive AlikeEntries : List (Str × Node F) → List (Str × Node F) → Prop where
  | nil : AlikeEntries [] []
  | cons (k : Str) {x y : Node F} {xs ys : List (Str × Node F)} :
      Alike x y → AlikeEntries xs ys → AlikeEntries ((k, x) :: xs) ((k, y) :: ys)
end

/-- Two open containers that differ only in the layout of their sets. -/
inductive AlikeCtx : BCtx F → BCtx F → Prop where
  | arr {xs ys : List (Node F)} : AlikeItems xs ys → AlikeCtx (.arr xs) (.arr ys)
  | obj {es fs : List (Str × Node F)} {q r : List Str} (cur : Option Str) :
      AlikeEntries es fs → SameMembers q r → AlikeCtx (.obj es cur q) (.obj fs cur r)

/-- Two stacks of open containers that differ only in the layout of their sets. -/
inductive AlikeStack : List (BCtx F) → List (BCtx F) → Prop where
  | nil : AlikeStack [] []
  | cons {c d : BCtx F} {cs ds : List (BCtx F)} : AlikeCtx c d → AlikeStack cs ds → AlikeStack (c :: cs) (d :: ds)

/-- Two finished roots, or none. -/
inductive AlikeRoot : Option (Node F) → Option (Node F) → Prop where
  | none : AlikeRoot none none
  | some {x y : Node F} : Alike x y → AlikeRoot (some x) (some y)

/-- Two states of the builder that differ only in the layout of their sets. -/
structure AlikeState (s t : BState F) : Prop where
  stack : AlikeStack s.stack t.stack
  root : AlikeRoot s.root t.root

/-- The building of a value from events while the sets are shaken: after every event each set of the state may be laid out anew, at will. -/
inductive Shaken : BState F → List (Ev F) → Except Err (BState F) → Prop where
  | done (s : BState F) : Shaken s [] (.ok s)
  | fails {s : BState F} {e : Ev F} {es : List (Ev F)} {err : Err} : applyEvent s e = .error err → Shaken s (e :: es) (.error err)
  | step {s t u : BState F} {e : Ev F} {es : List (Ev F)} {r : Except Err (BState F)} :
      applyEvent s e = .ok t → AlikeState t u → Shaken u es r → Shaken s (e :: es) r

/-- `/repo/src/decode/event_builder.rs:199-209` `finalize_state`. -/
def finished : Except Err (BState F) → Except Err (Node F)
  | .error e => .error e
  | .ok st =>
    if st.stack.isEmpty then
      match st.root with
      | some n => .ok n
      | none => .error .badEvent
    else .error .badEvent

/-- What decoding may return when the sets are shaken: the events of the text, a shaken building, and the rest of
`/repo/src/decode/mod.rs:58-78`. -/
inductive DecodesTo (opts : DecOpts) [F64 F] (text : Str) : Except Err (Json F) → Prop where
  | unread {e : Err} : decodeStream (F := F) opts.indent opts.strict (splitOn '\n' text) = .error e → DecodesTo opts text (.error e)
  | read {evs : List (Ev F)} {r : Except Err (BState F)} :
      decodeStream (F := F) opts.indent opts.strict (splitOn '\n' text) = .ok evs → Shaken ⟨[], none⟩ evs r →
      DecodesTo opts text (do
        let node ← finished r
        let node ← if opts.expand then expandPathsSafe opts.strict node else pure node
        return nodeToJson node)

/-- What encoding an object may return when its set of dotted root keys is any list with the right members. -/
inductive EncodesTo (opts : EncOpts) [F64 F] : Json F → List Str → Prop where
  | object {entries fields : List (Str × Json F)} {set : List Str} :
      normalize (.obj entries) = .obj fields →
      SameMembers set ((fields.map Prod.fst).filter (·.contains '.')) →
      EncodesTo opts (.obj entries)
        ((encodeEntries opts (fields.map Prod.fst) (some set) none opts.flattenDepth fields 0).map (renderLine opts.indent))
  | other {v : Json F} : v.isObj = false → EncodesTo opts v (encodeLines opts v)

end Toon
