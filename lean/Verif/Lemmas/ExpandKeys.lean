import Verif.Lemmas.ExpandMerge
import Verif.Lemmas.Redact
import Verif.Lemmas.OutcomeFold

/-! The keys of an expanded value. -/

namespace Toon

section
variable {F : Type}

theorem treeKeys_quotedIn {P : Str → Bool → Prop} {k : Str} : ∀ {es : List (Str × Bool × ETree F)}, ETree.AllKeysEntries P es →
    quotedIn es k = true → P k true
  | (k', q', t) :: es, h, hq => by
    simp only [ETree.AllKeysEntries] at h
    simp only [quotedIn, List.any_cons, Bool.or_eq_true, Bool.and_eq_true, beq_iff_eq] at hq
    rcases hq with ⟨rfl, rfl⟩ | hq
    · exact h.1
    · exact treeKeys_quotedIn h.2.2 hq

mutual
theorem allKeys_and {P Q : Str → Prop} : ∀ {v : Json F}, AllKeys P v → AllKeys Q v → AllKeys (fun k => P k ∧ Q k) v
  | .prim p, _, _ => by rw [AllKeys]; trivial
  | .arr vs, h, h' => by rw [AllKeys] at *; exact allKeysItems_and h h'
  | .obj es, h, h' => by rw [AllKeys] at *; exact allKeysEntries_and h h'
theorem allKeysItems_and {P Q : Str → Prop} : ∀ {vs : List (Json F)}, AllKeysItems P vs → AllKeysItems Q vs →
    AllKeysItems (fun k => P k ∧ Q k) vs
  | [], _, _ => by rw [AllKeysItems]; trivial
  | v :: vs, h, h' => by rw [AllKeysItems] at *; exact ⟨allKeys_and h.1 h'.1, allKeysItems_and h.2 h'.2⟩
theorem allKeysEntries_and {P Q : Str → Prop} : ∀ {es : List (Str × Json F)}, AllKeysEntries P es → AllKeysEntries Q es →
    AllKeysEntries (fun k => P k ∧ Q k) es
  | [], _, _ => by rw [AllKeysEntries]; trivial
  | (k, v) :: es, h, h' => by
    rw [AllKeysEntries] at *
    exact ⟨⟨h.1, h'.1⟩, allKeys_and h.2.1 h'.2.1, allKeysEntries_and h.2.2 h'.2.2⟩
end

mutual
theorem deepMerge_keys {P : Str → Prop} (a b : Json F) (ha : AllKeys P a) (hb : AllKeys P b) : AllKeys P (deepMerge a b) := by
  match b with
  | .prim p => rw [deepMerge, AllKeys]; trivial
  | .arr items => rw [deepMerge]; exact hb
  | .obj es =>
    rw [deepMerge.eq_def]
    match a with
    | .prim p => exact hb
    | .arr items => exact hb
    | .obj a =>
      simp only [AllKeys] at ha hb ⊢
      exact mergeObj_keys a es ha hb
theorem mergeObj_keys {P : Str → Prop} (a b : List (Str × Json F)) (ha : AllKeysEntries P a) (hb : AllKeysEntries P b) :
    AllKeysEntries P (mergeObj a b) := by
  match b with
  | [] => rw [mergeObj]; exact ha
  | (k, v) :: b =>
    simp only [AllKeysEntries] at hb
    rw [mergeObj_cons]
    have : AllKeysEntries P (putMerge a k v) := by
      unfold putMerge
      rw [allKeysEntries_iff] at ha ⊢
      split
      · intro e he
        rcases List.mem_append.mp he with he | he
        · exact ha e he
        · simp only [List.mem_singleton] at he; subst he; exact ⟨hb.1, hb.2.1⟩
      · rename_i c h
        intro e he
        rcases replaceKey_mem he with he | rfl
        · exact ha e he
        · exact ⟨hb.1, deepMerge_keys c v (ha _ (lookup_mem h)).2 hb.2.1⟩
    exact mergeObj_keys _ b this hb.2.2
end

theorem nested_keys {P : Str → Prop} : ∀ (segs : List Str) {v : Json F}, (∀ s ∈ segs, P s) → AllKeys P v → AllKeys P (nested segs v)
  | [], _, _, h => h
  | s :: ss, _, hs, h => by
    simp only [nested, AllKeys, AllKeysEntries, and_true]
    exact ⟨hs s (by simp), nested_keys ss (fun s h => hs s (by simp [h])) h⟩

theorem atPath_keys {P : Str → Prop} : ∀ (segs : List Str) {v : Json F}, (∀ s ∈ segs, P s) → AllKeys P v → AllKeysEntries P (atPath segs v)
  | [], _, _, _ => by rw [atPath, AllKeysEntries]; trivial
  | s :: ss, _, hs, h => by
    simp only [atPath, AllKeysEntries, and_true]
    exact ⟨hs s (by simp), nested_keys ss (fun s h => hs s (by simp [h])) h⟩

mutual
theorem expanded_keys {P : Str → Bool → Prop} {Q : Str → Prop} (hPQ : ∀ k q, P k q → ∀ q', (q' = true → P k true) → ∀ s ∈ keyPath q' k, Q s) (t : ETree F)
    (h : t.AllKeys P) : AllKeys Q (expanded t) := by
  match t with
  | .prim p => rw [expanded, AllKeys]; trivial
  | .arr n items =>
    simp only [expanded, AllKeys, ETree.AllKeys] at h ⊢
    exact expandedItems_keys hPQ items h
  | .obj es =>
    simp only [expanded, AllKeys, ETree.AllKeys] at h ⊢
    exact expandedEntries_keys hPQ (quotedIn es) (fun k => treeKeys_quotedIn h) es [] (by rw [AllKeysEntries]; trivial) h
theorem expandedItems_keys {P : Str → Bool → Prop} {Q : Str → Prop} (hPQ : ∀ k q, P k q → ∀ q', (q' = true → P k true) → ∀ s ∈ keyPath q' k, Q s)
    (ts : List (ETree F)) (h : ETree.AllKeysItems P ts) : AllKeysItems Q (expandedItems ts) := by
  match ts with
  | [] => rw [expandedItems, AllKeysItems]; trivial
  | t :: ts =>
    simp only [expandedItems, AllKeysItems, ETree.AllKeysItems] at h ⊢
    exact ⟨expanded_keys hPQ t h.1, expandedItems_keys hPQ ts h.2⟩
theorem expandedEntries_keys {P : Str → Bool → Prop} {Q : Str → Prop} (hPQ : ∀ k q, P k q → ∀ q', (q' = true → P k true) → ∀ s ∈ keyPath q' k, Q s)
    (quoted : Str → Bool) (hq : ∀ k, quoted k = true → P k true) (es : List (Str × Bool × ETree F)) (acc : List (Str × Json F)) (ha : AllKeysEntries Q acc)
    (h : ETree.AllKeysEntries P es) : AllKeysEntries Q (expandedEntries quoted es acc) := by
  match es with
  | [] => rw [expandedEntries]; exact ha
  | (k, q, t) :: es =>
    simp only [ETree.AllKeysEntries] at h
    rw [expandedEntries]
    exact expandedEntries_keys hPQ quoted hq es _
      (mergeObj_keys _ _ ha (atPath_keys _ (hPQ k q h.1 (quoted k) (hq k)) (expanded_keys hPQ t h.2.1))) h.2.2
end

/-- The keys of the value of a tree are the keys of the tree. -/
theorem json_keys {P : Str → Bool → Prop} {Q : Str → Prop} (hPQ : ∀ k q, P k q → Q k) : ∀ t : ETree F, t.AllKeys P → AllKeys Q t.json :=
  fun t h => (go t h)
where
  go : ∀ t : ETree F, t.AllKeys P → AllKeys Q t.json
    | .prim p, _ => by rw [ETree.json, AllKeys]; trivial
    | .arr n items, h => by
      simp only [ETree.json, AllKeys, ETree.AllKeys] at h ⊢
      exact goItems items h
    | .obj es, h => by
      simp only [ETree.json, AllKeys, ETree.AllKeys] at h ⊢
      exact goEntries es h
  goItems : ∀ ts : List (ETree F), ETree.AllKeysItems P ts → AllKeysItems Q (ETree.jsonItems ts)
    | [], _ => by rw [ETree.jsonItems, AllKeysItems]; trivial
    | t :: ts, h => by
      simp only [ETree.jsonItems, AllKeysItems, ETree.AllKeysItems] at h ⊢
      exact ⟨go t h.1, goItems ts h.2⟩
  goEntries : ∀ es : List (Str × Bool × ETree F), ETree.AllKeysEntries P es → AllKeysEntries Q (ETree.jsonEntries es)
    | [], _ => by rw [ETree.jsonEntries, AllKeysEntries]; trivial
    | (k, q, t) :: es, h => by
      simp only [ETree.jsonEntries, AllKeysEntries, ETree.AllKeysEntries] at h ⊢
      exact ⟨hPQ k q h.1, go t h.2.1, goEntries es h.2.2⟩

/-- What a key that is no dotted path stands for, and what a dotted path stands for. -/
theorem keyPath_cases (q : Bool) (k : Str) : keyPath q k = [k] ∨ ∃ segs, 2 ≤ segs.length ∧ (∀ s ∈ segs, identifier s = true) ∧
    k = dotted segs ∧ keyPath q k = segs := by
  by_cases hd : DottedPath k
  · obtain ⟨segs, hl, hi, rfl⟩ := hd
    cases q with
    | true => exact Or.inl (keyPath_single (Or.inl rfl))
    | false => exact Or.inr ⟨segs, hl, hi, rfl, keyPath_dotted hl hi⟩
  · exact Or.inl (keyPath_single (Or.inr hd))

/-- The segments of a dotted path are determined. -/
theorem dotted_inj {a b : List Str} (ha : 2 ≤ a.length) (hb : 2 ≤ b.length) (hai : ∀ s ∈ a, identifier s = true)
    (hbi : ∀ s ∈ b, identifier s = true) (h : dotted a = dotted b) : a = b := by
  rw [← keyPath_dotted ha hai, ← keyPath_dotted hb hbi, h]

theorem dotted_noColon {k : Str} (h : DottedPath k) : ':' ∉ k := validKey_not_mem (dotted_bare h) (by decide)

end

end Toon
