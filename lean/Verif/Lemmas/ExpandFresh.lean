import Verif.Lemmas.FoldKeys
import Verif.Spec.Arrays

/-! Expansion without collisions. -/

namespace Toon

section
variable {F : Type}

mutual
/-- The node of a value, without quoted keys. -/
def plainNode : Json F → Node F
  | .prim p => .prim p
  | .arr items => .arr (plainNodes items)
  | .obj es => .obj (plainEntries es) []
def plainNodes : List (Json F) → List (Node F)
  | [] => []
  | v :: vs => plainNode v :: plainNodes vs
def plainEntries : List (Str × Json F) → List (Str × Node F)
  | [] => []
  | (k, v) :: es => (k, plainNode v) :: plainEntries es
end

mutual
theorem nodeToJson_plain (v : Json F) : nodeToJson (plainNode v) = v := by
  match v with
  | .prim p => rfl
  | .arr items => simp only [plainNode, nodeToJson, nodesToJson_plain items]
  | .obj es => simp only [plainNode, nodeToJson, entriesToJson_plain es]
theorem nodesToJson_plain (vs : List (Json F)) : nodesToJson (plainNodes vs) = vs := by
  match vs with
  | [] => rfl
  | v :: vs => simp only [plainNodes, nodesToJson, nodeToJson_plain v, nodesToJson_plain vs]
theorem entriesToJson_plain (es : List (Str × Json F)) : entriesToJson (plainEntries es) = es := by
  match es with
  | [] => rfl
  | (k, v) :: es => simp only [plainEntries, entriesToJson, nodeToJson_plain v, entriesToJson_plain es]
end

theorem plainEntries_keys (es : List (Str × Json F)) : (plainEntries es).map Prod.fst = es.map Prod.fst := by
  induction es with
  | nil => rfl
  | cons e es ih => obtain ⟨k, v⟩ := e; simp only [plainEntries, List.map_cons, ih]

/-- Nested objects of one entry each. -/
def nest : List Str → Node F → Node F
  | [], m => m
  | s :: ss, m => .obj [(s, nest ss m)] []

theorem entryGet_none {es : List (Str × Node F)} {k : Str} : entryGet es k = none ↔ k ∉ es.map Prod.fst := by
  induction es with
  | nil => simp [entryGet]
  | cons e es ih =>
    obtain ⟨k', v⟩ := e
    simp only [entryGet, List.map_cons, List.mem_cons]
    split
    · rename_i h; simp [h]
    · rename_i h; rw [ih]; simp [Ne.symm h]

theorem insertLiteral_fresh (strict : Bool) (depth : Nat) {entries : List (Str × Node F)} {k : Str} (m : Node F)
    (h : entryGet entries k = none) :
    insertLiteral strict depth entries k m =
      if depth < 256 then .ok (entries ++ [(k, m)]) else .error .expandDepth := by
  unfold insertLiteral
  simp only [h, maxExpandDepth]
  split <;> split <;> first | rfl | omega

theorem insertPath_fresh (strict : Bool) (segs : List Str) : ∀ (depth : Nat) {entries : List (Str × Node F)} {k : Str}
    (m : Node F), entryGet entries k = none →
    insertPath strict depth entries (k :: segs) m =
      if depth + segs.length + 1 < 256 then .ok (entries ++ [(k, nest segs m)]) else .error .expandDepth := by
  induction segs with
  | nil =>
    intro depth entries k m h
    rw [insertPath]
    simp only [insertLiteral_fresh strict _ m h, maxExpandDepth, nest, List.length_nil]
    split
    · rw [if_neg (by omega)]
    · rfl
  | cons s segs ih =>
    intro depth entries k m h
    rw [insertPath]
    · simp only [h, ih (depth + 1) (entries := []) (k := s) m rfl, maxExpandDepth, nest, List.length_cons]
      split
      · rw [if_neg (by omega)]
      · by_cases hd : depth + 1 + segs.length + 1 < 256
        · rw [if_pos hd, if_pos (by omega)]; rfl
        · rw [if_neg hd, if_neg (by omega)]
    · simp

/-- What becomes of one entry of an object when its key does not occur among the previous ones. -/
def EntryOut (strict : Bool) (quoted : List Str) (depth : Nat) (B : Prop) (e r : Str × Node F) : Prop :=
  (∃ m, expandInner strict e.2 (depth + 1) = .ok m ∧
     ((expandSegments e.1 quoted = none ∧ r = (e.1, m) ∧ (depth + 1 < 256 ∨ B)) ∨
      ∃ k segs, expandSegments e.1 quoted = some (k :: segs) ∧ r = (k, nest segs m) ∧
        (depth + 2 + segs.length < 256 ∨ B))) ∨
  (expandInner strict e.2 (depth + 1) = .error .expandDepth ∧ B)

theorem expandEntries_out {strict : Bool} {quoted : List Str} {depth : Nat} {B : Prop} {es rs : List (Str × Node F)}
    (h : Pointwise (EntryOut strict quoted depth B) es rs) : ∀ (acc : List (Str × Node F)),
    (acc.map Prod.fst ++ rs.map Prod.fst).Nodup →
    expandEntries strict quoted es depth acc = .ok (acc ++ rs) ∨
      (expandEntries strict quoted es depth acc = .error .expandDepth ∧ B) := by
  induction h with
  | nil => intro acc _; left; simp [expandEntries]
  | @cons e r es rs he _ ih =>
    intro acc hnd
    obtain ⟨key, value⟩ := e
    rw [expandEntries]
    rcases he with ⟨m, hm, ⟨hs, rfl, hb⟩ | ⟨k, segs, hs, rfl, hb⟩⟩ | ⟨hm, hb⟩
    · simp only at hm hs hnd
      have hf : entryGet acc key = none := by
        rw [entryGet_none]
        intro hmem
        exact (List.nodup_append.mp hnd).2.2 key hmem key (by simp) rfl
      simp only [hm, hs, insertLiteral_fresh strict _ m hf]
      by_cases hd : depth + 1 < 256
      · rw [if_pos hd]
        have := ih (acc ++ [(key, m)]) (by simpa using hnd)
        simpa using this
      · rw [if_neg hd]
        exact Or.inr ⟨rfl, hb.resolve_left hd⟩
    · simp only at hm hs hnd
      have hf : entryGet acc k = none := by
        rw [entryGet_none]
        intro hmem
        exact (List.nodup_append.mp hnd).2.2 k hmem k (by simp) rfl
      simp only [hm, hs, insertPath_fresh strict segs _ m hf]
      by_cases hd : depth + 2 + segs.length < 256
      · rw [if_pos (by omega)]
        have := ih (acc ++ [(k, nest segs m)]) (by simpa using hnd)
        simpa using this
      · rw [if_neg (by omega)]
        exact Or.inr ⟨rfl, hb.resolve_left hd⟩
    · simp only at hm
      simp only [hm]
      exact Or.inr ⟨by simp, hb⟩

/-- The result of expanding a part of nesting `h` at depth `d`: the given node, or the depth error, and
the latter only near the cap. -/
def Outcome (h d : Nat) (r : Except Err (Node F)) (n : Node F) : Prop :=
  r = .ok n ∨ (r = .error .expandDepth ∧ 254 < 2 * h + d)

theorem expandItems_out {strict : Bool} {d h : Nat} {ns rs : List (Node F)}
    (hp : Pointwise (fun n r => Outcome h d (expandInner strict n d) r) ns rs) :
    expandItems strict ns d = .ok rs ∨ (expandItems strict ns d = .error .expandDepth ∧ 254 < 2 * h + d) := by
  induction hp with
  | nil => left; rfl
  | @cons n r ns rs hn _ ih =>
    rw [expandItems]
    rcases hn with hn | ⟨hn, hb⟩
    · simp only [hn]
      rcases ih with ih | ⟨ih, hb⟩
      · simp [ih]
      · simp only [ih]; exact Or.inr ⟨by simp, hb⟩
    · simp only [hn]; exact Or.inr ⟨by simp, hb⟩

theorem outcome_prim (strict : Bool) (p : Prim F) (d : Nat) :
    Outcome 0 d (expandInner strict (.prim p) d) (.prim p) := by
  rw [expandInner]
  by_cases h : d ≥ maxExpandDepth
  · rw [if_pos h]; exact Or.inr ⟨rfl, by simp only [maxExpandDepth] at h; omega⟩
  · rw [if_neg h]; exact Or.inl rfl

theorem outcome_arr {strict : Bool} {h d : Nat} {ns rs : List (Node F)}
    (hp : Pointwise (fun n r => Outcome h (d + 1) (expandInner strict n (d + 1)) r) ns rs) :
    Outcome (h + 1) d (expandInner strict (.arr ns) d) (.arr rs) := by
  rw [expandInner]
  by_cases h : d ≥ maxExpandDepth
  · rw [if_pos h]; exact Or.inr ⟨rfl, by simp only [maxExpandDepth] at h; omega⟩
  · rw [if_neg h]
    rcases expandItems_out hp with he | ⟨he, hb⟩
    · simp only [he]; exact Or.inl rfl
    · simp only [he]; exact Or.inr ⟨rfl, by omega⟩

theorem outcome_obj {strict : Bool} {quoted : List Str} {h d : Nat} {es rs : List (Str × Node F)}
    (hp : Pointwise (EntryOut strict quoted (d + 1) (254 < 2 * (h + 1) + d)) es rs) (hnd : (rs.map Prod.fst).Nodup) :
    Outcome (h + 1) d (expandInner strict (.obj es quoted) d) (.obj rs []) := by
  rw [expandInner]
  by_cases h : d ≥ maxExpandDepth
  · rw [if_pos h]; exact Or.inr ⟨rfl, by simp only [maxExpandDepth] at h; omega⟩
  · rw [if_neg h]
    by_cases h : d + 1 ≥ maxExpandDepth
    · rw [if_pos h]; exact Or.inr ⟨rfl, by simp only [maxExpandDepth] at h; omega⟩
    · rw [if_neg h]
      rcases expandEntries_out hp [] (by simpa using hnd) with he | ⟨he, hb⟩
      · simp only [he]; exact Or.inl rfl
      · simp only [he]; exact Or.inr ⟨rfl, hb⟩

theorem Outcome.mono {h h' d : Nat} {r : Except Err (Node F)} {n : Node F} (ho : Outcome h d r n) (hh : h ≤ h') :
    Outcome h' d r n := by
  rcases ho with ho | ⟨ho, hb⟩
  · exact Or.inl ho
  · exact Or.inr ⟨ho, by omega⟩

theorem entryOut_literal {strict : Bool} {quoted : List Str} {h hv d : Nat} {k : Str} {n m : Node F}
    (ho : Outcome hv (d + 2) (expandInner strict n (d + 2)) m) (hs : expandSegments k quoted = none) (hh : hv ≤ h) :
    EntryOut strict quoted (d + 1) (254 < 2 * (h + 1) + d) (k, n) (k, m) := by
  rcases ho with ho | ⟨ho, hb⟩
  · refine Or.inl ⟨m, ho, Or.inl ⟨hs, rfl, ?_⟩⟩
    omega
  · exact Or.inr ⟨ho, by omega⟩

theorem entryOut_path {strict : Bool} {quoted : List Str} {h hv d : Nat} {key k : Str} {segs : List Str} {n m : Node F}
    (ho : Outcome hv (d + 2) (expandInner strict n (d + 2)) m) (hs : expandSegments key quoted = some (k :: segs))
    (hh : hv + segs.length ≤ h) :
    EntryOut strict quoted (d + 1) (254 < 2 * (h + 1) + d) (key, n) (k, nest segs m) := by
  rcases ho with ho | ⟨ho, hb⟩
  · refine Or.inl ⟨m, ho, Or.inr ⟨k, segs, hs, rfl, ?_⟩⟩
    omega
  · exact Or.inr ⟨ho, by omega⟩

/-! ## Trees without dotted keys -/

theorem mem_quotedKeys {es : List (Str × Bool × ETree F)} {acc : List Str} {k : Str} :
    k ∈ ETree.quotedKeys es acc ↔ k ∈ acc ∨ ∃ t, (k, true, t) ∈ es := by
  induction es generalizing acc with
  | nil => simp [ETree.quotedKeys]
  | cons e es ih =>
    obtain ⟨k', q, t⟩ := e
    rw [ETree.quotedKeys, ih]
    cases q with
    | true =>
      simp only [if_true, List.mem_cons, Prod.mk.injEq]
      constructor
      · rintro ((rfl | h) | ⟨t', h⟩)
        · exact Or.inr ⟨t, Or.inl (by simp)⟩
        · exact Or.inl h
        · exact Or.inr ⟨t', Or.inr h⟩
      · rintro (h | ⟨t', ⟨rfl, _⟩ | h⟩)
        · exact Or.inl (Or.inr h)
        · exact Or.inl (Or.inl rfl)
        · exact Or.inr ⟨t', h⟩
    | false => simp

theorem pointwise_map_same {α β γ : Type} {R : β → γ → Prop} {f : α → β} {g : α → γ} {l : List α}
    (h : ∀ a ∈ l, R (f a) (g a)) : Pointwise R (l.map f) (l.map g) := by
  induction l with
  | nil => exact .nil
  | cons a l ih => exact .cons (h a (by simp)) (ih (fun b hb => h b (by simp [hb])))

mutual
/-- Nesting of a tree. -/
theorem expand_literal {strict : Bool} (t : ETree F) (d : Nat) (hd : DistinctKeys t.json)
    (hk : t.AllKeys (fun k q => q = true ∨ ¬ DottedPath k)) :
    Outcome (height t.json) d (expandInner strict t.node d) (plainNode t.json) := by
  match t with
  | .prim p => exact outcome_prim strict p d
  | .arr n items =>
    simp only [ETree.json, DistinctKeys, ETree.AllKeys] at hd hk
    simp only [ETree.json, ETree.node, plainNode, height]
    exact outcome_arr (expand_literal_items items (d + 1) hd hk _ (Nat.le_refl _))
  | .obj es =>
    simp only [ETree.json, DistinctKeys, ETree.AllKeys] at hd hk
    simp only [ETree.json, ETree.node, plainNode, height]
    exact outcome_obj (expand_literal_entries es d _ hd.2 hk (fun k t h => mem_quotedKeys.mpr (Or.inr ⟨t, h⟩)) _ (Nat.le_refl _))
      (by rw [plainEntries_keys]; exact hd.1)
theorem expand_literal_items {strict : Bool} (ts : List (ETree F)) (d : Nat) (hd : DistinctKeysItems (ETree.jsonItems ts))
    (hk : ETree.AllKeysItems (fun k q => q = true ∨ ¬ DottedPath k) ts) (h : Nat) (hh : heightItems (ETree.jsonItems ts) ≤ h) :
    Pointwise (fun n r => Outcome h d (expandInner strict n d) r) (ETree.nodeItems ts) (plainNodes (ETree.jsonItems ts)) := by
  match ts with
  | [] => exact .nil
  | t :: ts =>
    simp only [ETree.jsonItems, DistinctKeysItems, ETree.AllKeysItems, heightItems] at hd hk hh
    exact .cons ((expand_literal t d hd.1 hk.1).mono (by omega)) (expand_literal_items ts d hd.2 hk.2 h (by omega))
theorem expand_literal_entries {strict : Bool} (es : List (Str × Bool × ETree F)) (d : Nat) (quoted : List Str)
    (hd : DistinctKeysEntries (ETree.jsonEntries es))
    (hk : ETree.AllKeysEntries (fun k q => q = true ∨ ¬ DottedPath k) es)
    (hq : ∀ k t, (k, true, t) ∈ es → k ∈ quoted) (h : Nat) (hh : heightEntries (ETree.jsonEntries es) ≤ h) :
    Pointwise (EntryOut strict quoted (d + 1) (254 < 2 * (h + 1) + d)) (ETree.nodeEntries es)
      (plainEntries (ETree.jsonEntries es)) := by
  match es with
  | [] => exact .nil
  | (k, q, t) :: es =>
    simp only [ETree.jsonEntries, DistinctKeysEntries, ETree.AllKeysEntries, heightEntries] at hd hk hh
    refine .cons (entryOut_literal (expand_literal t (d + 2) hd.1 hk.2.1) ?_ (by omega))
      (expand_literal_entries es d quoted hd.2 hk.2.2 (fun k t h => hq k t (by simp [h])) h (by omega))
    rw [expandSegments_iff]
    rcases hk.1 with rfl | h1
    · exact Or.inr (hq k t (by simp))
    · exact Or.inl h1
end

end

end Toon
