import Verif.Model.Api
import Verif.Model.Replacer

/-!
# Asynchronous encode streams: `/repo/src/encode/async_encode.rs`

`poll_next` of both streams always returns `Poll::Ready`, so one poll is one step of a state
machine.  The replacer has run before the first poll (`try_new`); the streams below start from
the replaced value.
-/

namespace Toon

variable {F : Type} [F64 F]

/-- `/repo/src/encode/async_encode.rs:38-43` `AsyncEncodeStream`. -/
structure LineStream where
  lines : List Str
  index : Nat

/-- `/repo/src/encode/async_encode.rs:63-75` `AsyncEncodeStream::try_new` without a replacer. -/
def LineStream.new (opts : EncOpts) (v : Json F) : LineStream :=
  { lines := encodeJsonValue opts (normalize v), index := 0 }

/-- `/repo/src/encode/async_encode.rs:63-75` `AsyncEncodeStream::try_new` with a replacer, whose state
is threaded through.  `none` means that the replacement does not end within `fuel`. -/
def LineStream.newWith {S : Type} (opts : EncOpts) (r : Replacer S F) (fuel : Nat) (v : Json F) (s : S) :
    Option (LineStream × S) :=
  match applyReplacer r fuel (normalize v) s with
  | none => none
  | some (replaced, s) => some ({ lines := encodeJsonValue opts replaced, index := 0 }, s)

/-- `/repo/src/encode/async_encode.rs:78-81` `AsyncEncodeStream::len`. -/
def LineStream.len (st : LineStream) : Nat := st.lines.length

/-- `/repo/src/encode/async_encode.rs:84-87` `AsyncEncodeStream::is_empty`. -/
def LineStream.isEmpty (st : LineStream) : Bool := st.lines.isEmpty

/-- `/repo/src/encode/async_encode.rs:92-100` `poll_next` of the line stream. -/
def LineStream.poll (st : LineStream) : Option Str × LineStream :=
  if h : st.index < st.lines.length then
    (some st.lines[st.index], { st with index := st.index + 1 })
  else (none, st)

/-- `/repo/src/encode/async_encode.rs:119-129` `EncodeStackFrame`. -/
inductive EncFrame (F : Type) where
  | object (entries : List (Str × Json F)) (pending : Option (Json F))
  | array (items : List (Json F)) (length : Nat) (emittedStart : Bool)

/-- `/repo/src/encode/async_encode.rs:107-117` `AsyncEncodeEventStream`: the stack (top first), the
`started` flag and the root.  The options are never read. -/
structure EventStream (F : Type) where
  stack : List (EncFrame F)
  started : Bool
  root : Option (Json F)

/-- `/repo/src/encode/async_encode.rs:148-163` `AsyncEncodeEventStream::try_new` without a
replacer. -/
def EventStream.new (v : Json F) : EventStream F :=
  { stack := [], started := false, root := some (normalize v) }

/-- `/repo/src/encode/async_encode.rs:148-163` `AsyncEncodeEventStream::try_new` with a replacer. -/
def EventStream.newWith {S : Type} (r : Replacer S F) (fuel : Nat) (v : Json F) (s : S) :
    Option (EventStream F × S) :=
  match applyReplacer r fuel (normalize v) s with
  | none => none
  | some (replaced, s) => some ({ stack := [], started := false, root := some replaced }, s)

mutual
/-- `/repo/src/encode/async_encode.rs:165-219` `next_event`.  The code calls `start_value`, which
for an array calls `next_event` again; `fuel` bounds this mutual recursion. -/
def EventStream.nextEvent : (fuel : Nat) → EventStream F → Option (Ev F) × EventStream F
  | 0, st => (none, st)
  | fuel + 1, st =>
    match st.started, st.root with
    | false, some root =>
      EventStream.startValue fuel root { st with started := true, root := none }
    | started, root =>
      let st : EventStream F := { stack := st.stack, started := if started then started else true, root := root }
      match st.stack with
      | [] => (none, st)
      | .object entries pending :: stack =>
        match pending with
        | some value =>
          EventStream.startValue fuel value { st with stack := .object entries none :: stack }
        | none =>
          match entries with
          | (key, value) :: entries =>
            (some (.key key (!isValidUnquotedKey key)),
              { st with stack := .object entries (some value) :: stack })
          | [] => (some .endObj, { st with stack := stack })
      | .array items length emittedStart :: stack =>
        if !emittedStart then
          (some (.startArr length), { st with stack := .array items length true :: stack })
        else
          match items with
          | item :: items =>
            EventStream.startValue fuel item { st with stack := .array items length true :: stack }
          | [] => (some .endArr, { st with stack := stack })
/-- `/repo/src/encode/async_encode.rs:221-242` `start_value`. -/
def EventStream.startValue : (fuel : Nat) → Json F → EventStream F → Option (Ev F) × EventStream F
  | 0, _, st => (none, st)
  | _ + 1, .prim p, st => (some (.prim p), st)
  | fuel + 1, .arr items, st =>
    EventStream.nextEvent fuel { st with stack := .array items items.length false :: st.stack }
  | _ + 1, .obj entries, st => (some .startObj, { st with stack := .object entries none :: st.stack })
end

/-- `/repo/src/encode/async_encode.rs:248-250` `poll_next` of the event stream.  Three levels of the
mutual recursion are always enough (`EventStream.nextEvent_fuel`). -/
def EventStream.poll (st : EventStream F) : Option (Ev F) × EventStream F := st.nextEvent 3

/-- The results of `n` polls one after the other. -/
def pollN {St Item : Type} (poll : St → Option Item × St) : Nat → St → List (Option Item)
  | 0, _ => []
  | n + 1, st => (poll st).1 :: pollN poll n (poll st).2

/-- The stream after `n` polls. -/
def afterN {St Item : Type} (poll : St → Option Item × St) : Nat → St → St
  | 0, st => st
  | n + 1, st => afterN poll n (poll st).2

/-- `StreamExt::collect` bounded by `fuel`: poll until the first `None`
(`/repo/src/encode/async_encode.rs:349-363` `try_encode_events_async`). -/
def collectStream {St Item : Type} (poll : St → Option Item × St) : (fuel : Nat) → St → Option (List Item)
  | 0, _ => none
  | fuel + 1, st =>
    match poll st with
    | (none, _) => some []
    | (some x, st) => (collectStream poll fuel st).map (x :: ·)

/-- `/repo/src/encode/async_encode.rs:276-300` `try_encode_lines_async`, without a replacer: the lines
are also run through `iter(..).count()`, whose result is thrown away. -/
def encodeLinesAsync (opts : EncOpts) (v : Json F) : List Str :=
  let lines := encodeJsonValue opts (normalize v)
  let _count := lines.length
  lines

/-- `/repo/src/encode/async_encode.rs:276-300` `try_encode_lines_async` with a replacer. -/
def encodeLinesAsyncWith {S : Type} (opts : EncOpts) (r : Replacer S F) (fuel : Nat) (v : Json F) (s : S) :
    Option (List Str × S) :=
  match applyReplacer r fuel (normalize v) s with
  | none => none
  | some (replaced, s) =>
    let lines := encodeJsonValue opts replaced
    let _count := lines.length
    some (lines, s)

/-- `/repo/src/encode/async_encode.rs:318-324` `try_encode_async`, without a replacer. -/
def encodeAsync (opts : EncOpts) (v : Json F) : Str := joinWith '\n' (encodeLinesAsync opts v)

/-- `/repo/src/encode/async_encode.rs:318-324` `try_encode_async` with a replacer. -/
def encodeAsyncWith {S : Type} (opts : EncOpts) (r : Replacer S F) (fuel : Nat) (v : Json F) (s : S) :
    Option (Str × S) :=
  (encodeLinesAsyncWith opts r fuel v s).map fun (lines, s) => (joinWith '\n' lines, s)

/-- `/repo/src/encode/async_encode.rs:349-363` `try_encode_events_async` with a replacer: a loop over
`next_event`, bounded by `steps`. -/
def encodeEventsAsyncWith {S : Type} (r : Replacer S F) (fuel : Nat) (v : Json F) (s : S) (steps : Nat) :
    Option (List (Ev F) × S) :=
  match EventStream.newWith r fuel v s with
  | none => none
  | some (stream, s) => (collectStream EventStream.poll steps stream).map (·, s)

end Toon
