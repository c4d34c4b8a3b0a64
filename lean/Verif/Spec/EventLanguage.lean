import Verif.Model.Builder
import Verif.Model.JsonText

/-!
# The event sequences accepted by the two consumers of events

Both consumers accept more than the events of one tree (`ETree.events`).
-/

namespace Toon

variable {F : Type}

mutual
/-- The builder takes these events for this one value.  Declared lengths do not matter. -/
inductive Builds : List (Ev F) → Node F → Prop where
  | prim (p : Prim F) : Builds [.prim p] (.prim p)
  | arr (n : Nat) {evs : List (Ev F)} {vs : List (Node F)} (h : BuildsItems evs vs) : Builds (.startArr n :: (evs ++ [.endArr])) (.arr vs)
  | obj {evs : List (Ev F)} {es : List (Str × Node F)} {qs : List Str} (h : BuildsEntries evs es qs) :
      Builds (.startObj :: (evs ++ [.endObj])) (.obj es qs)
/-- Values one after another. -/
inductive BuildsItems : List (Ev F) → List (Node F) → Prop where
  | nil : BuildsItems [] []
  | cons {a b : List (Ev F)} {v : Node F} {vs : List (Node F)} (h : Builds a v) (ht : BuildsItems b vs) : BuildsItems (a ++ b) (v :: vs)
/-- Keys with values, and keys without a value, which are dropped.  Also the names of all quoted keys (last first), those
without a value included. -/
inductive BuildsEntries : List (Ev F) → List (Str × Node F) → List Str → Prop where
  | nil : BuildsEntries [] [] []
  | entry (k : Str) (q : Bool) {a b : List (Ev F)} {v : Node F} {es : List (Str × Node F)} {qs : List Str} (h : Builds a v) (ht : BuildsEntries b es qs) :
      BuildsEntries (.key k q :: (a ++ b)) ((k, v) :: es) (qs ++ if q then [k] else [])
  | drop (k : Str) (q : Bool) {b : List (Ev F)} {es : List (Str × Node F)} {qs : List Str} (ht : BuildsEntries b es qs) :
      BuildsEntries (.key k q :: b) es (qs ++ if q then [k] else [])
end

/-- A line break and the indentation; nothing in compact text. -/
def lineBreak (indent depth : Nat) : Str := if indent > 0 then '\n' :: List.replicate (depth * indent) ' ' else []

section
variable [F64 F] [JsonNum F]

mutual
/-- The printer writes this text for these events, one array or object at the given depth. -/
inductive Prints (indent : Nat) : Nat → List (Ev F) → Str → Prop where
  | arr (d n : Nat) {evs : List (Ev F)} {s : Str} (h : PrintsItems indent (d + 1) false evs s) :
      Prints indent d (.startArr n :: (evs ++ [.endArr])) ('[' :: (s ++ ((if evs = [] then [] else lineBreak indent d) ++ [']'])))
  | obj (d : Nat) {evs : List (Ev F)} {s : Str} (h : PrintsBody indent (d + 1) false evs s) :
      Prints indent d (.startObj :: (evs ++ [.endObj])) ('{' :: (s ++ ((if evs = [] then [] else lineBreak indent d) ++ ['}'])))
/-- The inside of an array, after a first element (`true`) or from the beginning (`false`). -/
inductive PrintsItems (indent : Nat) : Nat → Bool → List (Ev F) → Str → Prop where
  | nil (d : Nat) (c : Bool) : PrintsItems indent d c [] []
  | prim (d : Nat) (c : Bool) (p : Prim F) {b : List (Ev F)} {s : Str} (ht : PrintsItems indent d true b s) :
      PrintsItems indent d c (.prim p :: b) ((if c then [','] else []) ++ (lineBreak indent d ++ (streamPrimitive p ++ s)))
  | cons (d : Nat) (c : Bool) {a b : List (Ev F)} {r s : Str} (h : Prints indent d a r) (ht : PrintsItems indent d true b s) :
      PrintsItems indent d c (a ++ b) ((if c then [','] else []) ++ (lineBreak indent d ++ (r ++ s)))
/-- The inside of an object.  A primitive must follow a key; arrays and objects may stand anywhere, without a separator. -/
inductive PrintsBody (indent : Nat) : Nat → Bool → List (Ev F) → Str → Prop where
  | nil (d : Nat) (c : Bool) : PrintsBody indent d c [] []
  | prim (d : Nat) (c : Bool) (k : Str) (q : Bool) (p : Prim F) {b : List (Ev F)} {s : Str} (ht : PrintsBody indent d true b s) :
      PrintsBody indent d c (.key k q :: .prim p :: b)
        ((if c then [','] else []) ++ (lineBreak indent d ++ (serdeString k ++ ((if indent > 0 then [':', ' '] else [':']) ++ (streamPrimitive p ++ s)))))
  | key (d : Nat) (c : Bool) (k : Str) (q : Bool) {b : List (Ev F)} {s : Str} (ht : PrintsBody indent d true b s) :
      PrintsBody indent d c (.key k q :: b)
        ((if c then [','] else []) ++ (lineBreak indent d ++ (serdeString k ++ ((if indent > 0 then [':', ' '] else [':']) ++ s))))
  | container (d : Nat) (c : Bool) {a b : List (Ev F)} {r s : Str} (h : Prints indent d a r) (ht : PrintsBody indent d true b s) :
      PrintsBody indent d c (a ++ b) (r ++ s)
end

/-- Any number of roots, without separators. -/
inductive PrintsRoots (indent : Nat) : List (Ev F) → Str → Prop where
  | nil : PrintsRoots indent [] []
  | prim (p : Prim F) {b : List (Ev F)} {s : Str} (ht : PrintsRoots indent b s) : PrintsRoots indent (.prim p :: b) (streamPrimitive p ++ s)
  | cons {a b : List (Ev F)} {r s : Str} (h : Prints indent 0 a r) (ht : PrintsRoots indent b s) : PrintsRoots indent (a ++ b) (r ++ s)

end

end Toon
