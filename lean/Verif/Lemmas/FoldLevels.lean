import Verif.Lemmas.OutcomeFold

/-! In a folded text the paths of an object start with different keys, so the levels that path expansion reaches are
those that the tree needs at least. -/

namespace Toon

section
variable {F : Type}

/-- The first key of the path that an unquoted key stands for. -/
def headOf (k : Str) : Str := (keyPath false k).headD k

mutual
/-- In every object the paths start with different keys. -/
def Apart : Json F → Prop
  | .prim _ => True
  | .arr items => ApartItems items
  | .obj es => (es.map fun e => headOf e.1).Nodup ∧ ApartEntries es
def ApartItems : List (Json F) → Prop
  | [] => True
  | v :: vs => Apart v ∧ ApartItems vs
def ApartEntries : List (Str × Json F) → Prop
  | [] => True
  | (_, v) :: es => Apart v ∧ ApartEntries es
end

theorem treeEntries_mem : ∀ (es : List (Str × Json F)) (r : Str × Bool × ETree F), r ∈ treeEntries es → r.2.1 = !isValidUnquotedKey r.1
  | [], r, h => by simp [treeEntries] at h
  | (k, v) :: es, r, h => by
    simp only [treeEntries, List.mem_cons] at h
    rcases h with rfl | h
    · rfl
    · exact treeEntries_mem es r h

theorem keyPath_treeEntries (es : List (Str × Json F)) (k : Str) :
    keyPath (quotedIn (treeEntries es) k) k = keyPath false k := by
  cases hq : quotedIn (treeEntries es) k with
  | false => rfl
  | true =>
    simp only [quotedIn, List.any_eq_true, Bool.and_eq_true, beq_iff_eq] at hq
    obtain ⟨r, hr, rfl, hq⟩ := hq
    have : ¬ DottedPath r.1 := fun hd => by
      rw [treeEntries_mem es r hr, dotted_bare hd] at hq
      simp at hq
    rw [keyPath_single (Or.inr this), keyPath_single (Or.inr this)]

theorem pathHurdles_empty (v : Json F) : ∀ (path : List Str) (n : Nat), ∀ h ∈ pathHurdles n [] path v, levelOf h ≤ n + path.length
  | [], n, h, hh => by simp [pathHurdles] at hh
  | [s], n, h, hh => by
    simp only [pathHurdles, literalHurdles, lookupKey, List.mem_cons, List.not_mem_nil, or_false] at hh
    rcases hh with rfl | rfl <;> simp [levelOf]
  | s :: s' :: ss, n, h, hh => by
    simp only [pathHurdles, lookupKey, List.mem_cons] at hh
    rcases hh with rfl | hh
    · simp [levelOf]
    · have := pathHurdles_empty v (s' :: ss) (n + 1) h hh
      simp only [List.length_cons] at this ⊢
      omega

/-- The levels of an insertion that meets nothing. -/
theorem insertHurdles_fresh {acc : List (Str × Json F)} {s : Str} (ss : List Str) (v : Json F) (n : Nat)
    (hf : s ∉ acc.map Prod.fst) : ∀ h ∈ insertHurdles (n + 1) acc (s :: ss) v,
      levelOf h ≤ n + (if 2 ≤ (s :: ss).length then (s :: ss).length + 1 else 1) := by
  cases ss with
  | nil =>
    intro h hh
    simp only [insertHurdles, literalHurdles, lookup_none.mpr hf, List.mem_singleton] at hh
    subst hh
    simp [levelOf]
  | cons s' ss =>
    intro h hh
    simp only [insertHurdles, pathHurdles, lookup_none.mpr hf, List.mem_cons] at hh
    rw [if_pos (by simp)]
    rcases hh with rfl | hh
    · simp only [levelOf, List.length_cons]; omega
    · have := pathHurdles_empty v (s' :: ss) (n + 2) h hh
      simp only [List.length_cons] at this ⊢
      omega

mutual
theorem hurdles_apart : ∀ (v : Json F) (n : Nat), Apart v →
    ∀ h ∈ hurdles (n + 1) (treeOf v), levelOf h ≤ n + depthNeeded (treeOf v)
  | .prim p, n, _ => by simp [treeOf, hurdles, levelOf, depthNeeded]
  | .arr items, n, ha => by
    simp only [Apart] at ha
    simp only [treeOf, hurdles, depthNeeded, List.forall_mem_cons]
    refine ⟨by simp only [levelOf]; omega, fun h hh => ?_⟩
    have := hurdlesItems_apart items (n + 1) ha h hh
    omega
  | .obj es, n, ha => by
    simp only [Apart] at ha
    simp only [treeOf, hurdles, depthNeeded, List.forall_mem_cons]
    refine ⟨by simp only [levelOf]; omega, by simp only [levelOf]; omega, fun h hh => ?_⟩
    have := hurdlesEntries_apart (quotedIn (treeEntries es)) es (n + 2) [] ha.2 (fun k => keyPath_treeEntries es k) ha.1
      (by simp) h hh
    omega
theorem hurdlesItems_apart : ∀ (vs : List (Json F)) (n : Nat), ApartItems vs →
    ∀ h ∈ hurdlesItems (n + 1) (treesOf vs), levelOf h ≤ n + depthNeededItems (treesOf vs)
  | [], _, _ => by simp [treesOf, hurdlesItems]
  | v :: vs, n, ha => by
    simp only [ApartItems] at ha
    simp only [treesOf, hurdlesItems, depthNeededItems, List.mem_append]
    rintro h (hh | hh)
    · have := hurdles_apart v n ha.1 h hh; omega
    · have := hurdlesItems_apart vs n ha.2 h hh; omega
theorem hurdlesEntries_apart (quoted : Str → Bool) : ∀ (es : List (Str × Json F)) (n : Nat) (acc : List (Str × Json F)),
    ApartEntries es → (∀ k, keyPath (quoted k) k = keyPath false k) → (es.map fun e => headOf e.1).Nodup →
    (∀ k ∈ es.map fun e => headOf e.1, k ∉ acc.map Prod.fst) →
    ∀ h ∈ hurdlesEntries (n + 1) quoted (treeEntries es) acc, levelOf h ≤ n + depthNeededEntries quoted (treeEntries es)
  | [], _, _, _, _, _, _ => by simp [treeEntries, hurdlesEntries]
  | (k, v) :: es, n, acc, ha, hq, hn, hf => by
    simp only [ApartEntries, List.map_cons, List.nodup_cons, List.forall_mem_cons] at ha hn hf
    obtain ⟨s, ss, hp⟩ := List.exists_cons_of_ne_nil (keyPath_ne false k)
    have hs : headOf k = s := by simp [headOf, hp]
    rw [hs] at hn hf
    simp only [treeEntries, hurdlesEntries, hq, hp, List.mem_append, atPath, mergeObj_fresh hf.1]
    have hdn := depthNeededEntries.eq_2 quoted k (!isValidUnquotedKey k) (treeOf v) (treeEntries es)
    rw [hq, hp] at hdn
    rintro h ((hh | hh) | hh)
    · have := hurdles_apart v n ha.1 h hh
      rw [hdn]; omega
    · have := insertHurdles_fresh ss (expanded (treeOf v)) n hf.1 h hh
      rw [hdn]; omega
    · have := hurdlesEntries_apart quoted es n (acc ++ [(s, nested ss (expanded (treeOf v)))]) ha.2 hq hn.2
        (by
          intro k' hk'
          simp only [List.map_append, List.map_cons, List.map_nil, List.mem_append, List.mem_singleton, not_or]
          exact ⟨hf.2 k' hk', by rintro rfl; exact hn.1 hk'⟩) h hh
      rw [hdn]; omega
end

theorem headOf_plain {k : Str} (h : ¬ DottedPath k) : headOf k = k := by simp [headOf, keyPath_single (Or.inr h)]

mutual
theorem apart_plain (v : Json F) (hd : DistinctKeys v) (hk : NoDottedKeys v) : Apart v := by
  match v, hd, hk with
  | .prim p, _, _ => trivial
  | .arr items, hd, hk =>
    simp only [DistinctKeys, NoDottedKeys, AllKeys] at hd hk
    exact apartItems_plain items hd hk
  | .obj es, hd, hk =>
    simp only [DistinctKeys, NoDottedKeys, AllKeys] at hd hk
    simp only [Apart]
    refine ⟨?_, apartEntries_plain es hd.2 hk⟩
    rw [show (es.map fun e => headOf e.1) = es.map Prod.fst from List.map_congr_left fun e he =>
      headOf_plain ((allKeysEntries_iff _ es).mp hk e he).1]
    exact hd.1
theorem apartItems_plain (vs : List (Json F)) (hd : DistinctKeysItems vs) (hk : AllKeysItems (fun k => ¬ DottedPath k) vs) :
    ApartItems vs := by
  match vs, hd, hk with
  | [], _, _ => trivial
  | v :: vs, hd, hk =>
    simp only [DistinctKeysItems, AllKeysItems] at hd hk
    exact ⟨apart_plain v hd.1 hk.1, apartItems_plain vs hd.2 hk.2⟩
theorem apartEntries_plain (es : List (Str × Json F)) (hd : DistinctKeysEntries es)
    (hk : AllKeysEntries (fun k => ¬ DottedPath k) es) : ApartEntries es := by
  match es, hd, hk with
  | [], _, _ => trivial
  | (k, v) :: es, hd, hk =>
    simp only [DistinctKeysEntries, AllKeysEntries] at hd hk
    exact ⟨apart_plain v hd.1 hk.2.1, apartEntries_plain es hd.2 hk.2.2⟩
end

variable [F64 F]

mutual
theorem apart_object {opts : EncOpts} (entries : List (Str × Json F)) (depth : Nat) (rlk : Option (List Str))
    (pp : Option Str) (rem : Option Nat) (hg : FoldOk entries) : Apart (.obj (shapeObject opts entries depth rlk pp rem)) := by
  rw [shapeObject]
  obtain ⟨h1, h2⟩ := apart_entries (opts := opts) (entries.map Prod.fst) (rootLiterals depth rlk (entries.map Prod.fst)) pp
    (rem.getD opts.flattenDepth) entries depth hg.2.1 hg.2.2
  simp only [Apart]
  exact ⟨by rw [h1]; exact hg.1, h2⟩
termination_by (sizeOf entries, 3)

theorem apart_entries {opts : EncOpts} (siblings : List Str) (rlk : Option (List Str))
    (pp : Option Str) (fd : Nat) (entries : List (Str × Json F)) (depth : Nat)
    (hd : DistinctKeysEntries entries) (hk : AllKeysEntries (fun k => ¬ DottedPath k) entries) :
    ((shapeEntries opts siblings rlk pp fd entries depth).map fun e => headOf e.1) = entries.map Prod.fst ∧
      ApartEntries (shapeEntries opts siblings rlk pp fd entries depth) := by
  match entries with
  | [] => rw [shapeEntries]; exact ⟨rfl, trivial⟩
  | (k, v) :: rest =>
    simp only [DistinctKeysEntries, AllKeysEntries] at hd hk
    rw [shapeEntries, shapeKeyValue_eq]
    have hrest := apart_entries (opts := opts) siblings rlk pp fd rest depth hd.2 hk.2.2
    rcases hr : tryFold k v siblings opts rlk pp fd with _ | r
    · simp only [List.map_cons, ApartEntries, headOf_plain hk.1, hrest.1]
      exact ⟨trivial, apart_entry rlk _ fd v depth hd.1 hk.2.1, hrest.2⟩
    · have hlt := tryFold_size hr
      obtain ⟨_, _, h2, hid, hne, hfk, hlf, _, _, _⟩ := tryFold_some hr
      obtain ⟨hc1, hc2⟩ := collectChain_facts (fd - 1) v hd.1 hk.2.1
      rw [← hlf] at hc1 hc2
      have hh : headOf r.foldedKey = k := by
        rw [headOf, hfk, ← dotted_eq, keyPath_dotted _ (fun s hs => by rw [identifier_eq]; exact hid s hs)]
        · rfl
        · simp only [List.length_cons]
          have := List.length_pos_iff.mpr hne
          omega
      simp only [List.map_cons, ApartEntries, hh, hrest.1]
      exact ⟨trivial, apart_entry rlk _ _ r.leaf depth hc1 hc2, hrest.2⟩
termination_by (sizeOf entries, 2)

theorem apart_entry {opts : EncOpts} (rlk : Option (List Str)) (path : Str) (fd : Nat)
    (value : Json F) (depth : Nat) (hd : DistinctKeys value) (hk : NoDottedKeys value) :
    Apart (shapeEntry opts rlk path fd value depth) := by
  match value with
  | .prim p => simp only [shapeEntry]; trivial
  | .arr items =>
    simp only [shapeEntry]
    exact apart_array items hd hk
  | .obj es =>
    simp only [shapeEntry]
    simp only [DistinctKeys, NoDottedKeys, AllKeys] at hd hk
    exact apart_object es (depth + 1) rlk (some path) (some fd) ⟨hd.1, hd.2, hk⟩
termination_by (sizeOf value, 0)

theorem apart_array {opts : EncOpts} (items : List (Json F))
    (hd : DistinctKeysItems items) (hk : AllKeysItems (fun k => ¬ DottedPath k) items) :
    Apart (.arr (shapeArray opts items)) := by
  rw [shapeArray]
  split
  · exact apartItems_plain items hd hk
  · cases ht : tableHeader items with
    | some cols =>
      obtain ⟨h1, h2, h3⟩ := tableRows_facts ht hd hk
      exact apartItems_plain _ h1 h2
    | none => exact apart_items items hd hk
termination_by (sizeOf items, 4)

theorem apart_items {opts : EncOpts} (items : List (Json F))
    (hd : DistinctKeysItems items) (hk : AllKeysItems (fun k => ¬ DottedPath k) items) : ApartItems (shapeItems opts items) := by
  match items with
  | [] => rw [shapeItems]; trivial
  | v :: vs =>
    simp only [DistinctKeysItems, AllKeysItems] at hd hk
    rw [shapeItems]
    exact ⟨apart_item v hd.1 hk.1, apart_items vs hd.2 hk.2⟩
termination_by (sizeOf items, 3)

theorem apart_item {opts : EncOpts} (value : Json F) (hd : DistinctKeys value)
    (hk : NoDottedKeys value) : Apart (shapeItem opts value) := by
  match value with
  | .prim p => rw [shapeItem]; trivial
  | .arr items =>
    rw [shapeItem]
    split
    · exact apartItems_plain items hd hk
    · exact apart_items items hd hk
  | .obj es =>
    rw [shapeItem]
    simp only [DistinctKeys, NoDottedKeys, AllKeys] at hd hk
    exact apart_objectItem es ⟨hd.1, hd.2, hk⟩
termination_by (sizeOf value, 1)

theorem apart_objectItem {opts : EncOpts} (entries : List (Str × Json F)) (hg : FoldOk entries) :
    Apart (.obj (shapeObjectItem opts entries)) := by
  match entries with
  | [] => rw [shapeObjectItem]; exact ⟨by simp, trivial⟩
  | (k, v) :: rest =>
    obtain ⟨hg1, hg2, hg3⟩ := hg
    simp only [DistinctKeysEntries, AllKeysEntries] at hg2 hg3
    rw [shapeObjectItem.eq_def]
    simp only [shapeObject]
    obtain ⟨h1, h2⟩ := apart_entries (opts := opts) (rest.map Prod.fst) (rootLiterals 1 none (rest.map Prod.fst)) none
      ((none : Option Nat).getD opts.flattenDepth) rest 1 hg2.2 hg3.2.2
    simp only [Apart, List.map_cons, ApartEntries, headOf_plain hg3.1, h1]
    refine ⟨hg1, ?_, h2⟩
    obtain ⟨hd, _⟩ := hg2
    obtain ⟨_, hk, _⟩ := hg3
    cases v with
    | prim p => trivial
    | arr items => exact apart_array items hd hk
    | obj es =>
      simp only [DistinctKeys, AllKeys] at hd hk
      have := apart_object (opts := opts) es 1 none none none ⟨hd.1, hd.2, hk⟩
      rw [shapeObject] at this
      exact this
termination_by (sizeOf entries, 0)
end

theorem apart_shape {opts : EncOpts} (v : Json F) (hd : DistinctKeys v) (hk : NoDottedKeys v) : Apart (shape opts v) := by
  match v with
  | .prim p => simp only [shape]; trivial
  | .arr items => simp only [shape]; exact apart_array items hd hk
  | .obj es =>
    simp only [shape]
    simp only [DistinctKeys, NoDottedKeys, AllKeys] at hd hk
    exact apart_object es 0 none none none ⟨hd.1, hd.2, hk⟩

end

end Toon
