import Verif.Spec.Replacer
import Verif.Spec.Paths

/-!
# Hiding entries with a replacer

`hide` says what becomes of the entries with a given key: `none` leaves them, `some none` drops them and `some (some p)` puts
the primitive `p` in the place of their values.
-/

namespace Toon

section
variable {F : Type}

/-- A replacer that hides entries of objects at any depth.  It looks at the last segment of the path and not at the key it is
given, which is also the index of an element or, for the root, empty. -/
def redactor (hide : Str → Option (Option (Prim F))) (_ : Str) (v : Json F) (path : List PathSeg) : Option (Json F) :=
  match path.getLast? with
  | some (.key k) =>
    match hide k with
    | none => some v
    | some none => none
    | some (some p) => some (.prim p)
  | _ => some v

mutual
/-- The value with the entries hidden. -/
def redacted (hide : Str → Option (Option (Prim F))) : Json F → Json F
  | .prim p => .prim p
  | .arr items => .arr (redactedItems hide items)
  | .obj es => .obj (redactedEntries hide es)
def redactedItems (hide : Str → Option (Option (Prim F))) : List (Json F) → List (Json F)
  | [] => []
  | v :: vs => redacted hide v :: redactedItems hide vs
def redactedEntries (hide : Str → Option (Option (Prim F))) : List (Str × Json F) → List (Str × Json F)
  | [] => []
  | (k, v) :: es =>
    match hide k with
    | none => (k, redacted hide v) :: redactedEntries hide es
    | some none => redactedEntries hide es
    | some (some p) => (k, .prim p) :: redactedEntries hide es
end

mutual
/-- Two values differ at most in what is hidden: in the values of masked entries, and in which dropped entries they have. -/
inductive SameBut (hide : Str → Option (Option (Prim F))) : Json F → Json F → Prop
  | prim (p : Prim F) : SameBut hide (.prim p) (.prim p)
  | arr {vs ws : List (Json F)} : SameButItems hide vs ws → SameBut hide (.arr vs) (.arr ws)
  | obj {es es' : List (Str × Json F)} : SameButEntries hide es es' → SameBut hide (.obj es) (.obj es')
inductive SameButItems (hide : Str → Option (Option (Prim F))) : List (Json F) → List (Json F) → Prop
  | nil : SameButItems hide [] []
  | cons {v w : Json F} {vs ws : List (Json F)} : SameBut hide v w → SameButItems hide vs ws → SameButItems hide (v :: vs) (w :: ws)
inductive SameButEntries (hide : Str → Option (Option (Prim F))) : List (Str × Json F) → List (Str × Json F) → Prop
  | nil : SameButEntries hide [] []
  | shown {k : Str} {v w : Json F} {es es' : List (Str × Json F)} : SameBut hide v w → SameButEntries hide es es' →
      SameButEntries hide ((k, v) :: es) ((k, w) :: es')
  | masked {k : Str} {p : Prim F} (v w : Json F) {es es' : List (Str × Json F)} : hide k = some (some p) → SameButEntries hide es es' →
      SameButEntries hide ((k, v) :: es) ((k, w) :: es')
  | left {k : Str} (v : Json F) {es es' : List (Str × Json F)} : hide k = some none → SameButEntries hide es es' →
      SameButEntries hide ((k, v) :: es) es'
  | right {k : Str} (w : Json F) {es es' : List (Str × Json F)} : hide k = some none → SameButEntries hide es es' →
      SameButEntries hide es ((k, w) :: es')
end

end

end Toon
