import Verif.Lemmas.Hurdles
import Verif.Lemmas.Canon

/-! What equality up to the order of keys says about the parts, and when a merged object is the written
object. -/

namespace Toon

section
variable {F : Type}

/-! ## Inversion -/

theorem relItems_trans {R : Json F → Json F → Prop} (ht : ∀ a b c, R a b → R b c → R a c) :
    ∀ {xs ys zs : List (Json F)}, RelItems R xs ys → RelItems R ys zs → RelItems R xs zs
  | [], [], [], _, _ => trivial
  | x :: xs, y :: ys, z :: zs, h1, h2 => ⟨ht _ _ _ h1.1 h2.1, relItems_trans ht h1.2 h2.2⟩
  | [], [], _ :: _, _, h => h.elim
  | [], _ :: _, _, h, _ => h.elim
  | _ :: _, [], _, h, _ => h.elim
  | _ :: _, _ :: _, [], _, h => h.elim

theorem relEntries_trans {R : Json F → Json F → Prop} (ht : ∀ a b c, R a b → R b c → R a c) :
    ∀ {xs ys zs : List (Str × Json F)}, RelEntries R xs ys → RelEntries R ys zs → RelEntries R xs zs
  | [], [], [], _, _ => trivial
  | (k, x) :: xs, (k', y) :: ys, (k'', z) :: zs, h1, h2 =>
    ⟨h1.1.trans h2.1, ht _ _ _ h1.2.1 h2.2.1, relEntries_trans ht h1.2.2 h2.2.2⟩
  | [], [], _ :: _, _, h => h.elim
  | [], _ :: _, _, h, _ => h.elim
  | _ :: _, [], _, h, _ => h.elim
  | _ :: _, _ :: _, [], _, h => h.elim

theorem relEntries_refl {R : Json F → Json F → Prop} (hr : ∀ v, R v v) (xs : List (Str × Json F)) : RelEntries R xs xs := by
  induction xs with
  | nil => trivial
  | cons x xs ih => exact ⟨rfl, hr _, ih⟩

theorem relItems_middle {R : Json F → Json F → Prop} (hr : ∀ v, R v v) (pre post : List (Json F)) {a b : Json F} (h : R a b) :
    RelItems R (pre ++ a :: post) (pre ++ b :: post) := by
  induction pre with
  | nil => exact ⟨h, RelItems.refl hr post⟩
  | cons x pre ih => exact ⟨hr x, ih⟩

theorem relEntries_middle {R : Json F → Json F → Prop} (hr : ∀ v, R v v) (pre post : List (Str × Json F)) (k : Str)
    {a b : Json F} (h : R a b) : RelEntries R (pre ++ (k, a) :: post) (pre ++ (k, b) :: post) := by
  induction pre with
  | nil => exact ⟨rfl, h, relEntries_refl hr post⟩
  | cons x pre ih => exact ⟨rfl, hr _, ih⟩

theorem relEntries_keys {R : Json F → Json F → Prop} : ∀ {xs ys : List (Str × Json F)}, RelEntries R xs ys →
    xs.map Prod.fst = ys.map Prod.fst
  | [], [], _ => rfl
  | (k, x) :: xs, (k', y) :: ys, h => by simp [h.1, relEntries_keys h.2.2]
  | [], _ :: _, h => h.elim
  | _ :: _, [], h => h.elim

/-- A permutation of the right side is matched by one of the left side. -/
theorem relEntries_perm {R : Json F → Json F → Prop} {ys zs : List (Str × Json F)} (hp : ys.Perm zs) :
    ∀ {xs : List (Str × Json F)}, RelEntries R xs ys → ∃ ws, xs.Perm ws ∧ RelEntries R ws zs := by
  induction hp with
  | nil => intro xs h; exact ⟨xs, .refl _, h⟩
  | cons y _ ih =>
    intro xs h
    match xs, h with
    | (k, x) :: xs, h =>
      obtain ⟨ws, h1, h2⟩ := ih h.2.2
      exact ⟨(k, x) :: ws, h1.cons _, h.1, h.2.1, h2⟩
    | [], h => exact h.elim
  | swap y y' l =>
    intro xs h
    match xs, h with
    | (k, x) :: (k', x') :: xs, h =>
      exact ⟨(k', x') :: (k, x) :: xs, .swap _ _ _, h.2.2.1, h.2.2.2.1, h.1, h.2.1, h.2.2.2.2⟩
    | [], h => exact h.elim
    | [_], h => exact h.2.2.elim
  | trans _ _ ih1 ih2 =>
    intro xs h
    obtain ⟨ws, h1, h2⟩ := ih1 h
    obtain ⟨us, h3, h4⟩ := ih2 h2
    exact ⟨us, h1.trans h3, h4⟩

/-- The outermost layer of equality up to the order of keys. -/
def EqLayer : Json F → Json F → Prop
  | .prim p, .prim q => p = q
  | .arr xs, .arr ys => RelItems Json.Equiv xs ys
  | .obj xs, .obj ys => ∃ zs, xs.Perm zs ∧ RelEntries Json.Equiv zs ys
  | _, _ => False

theorem eqLayer_refl (v : Json F) : EqLayer v v := by
  cases v with
  | prim p => rfl
  | arr xs => exact RelItems.refl Json.Equiv.refl xs
  | obj xs => exact ⟨xs, .refl _, relEntries_refl Json.Equiv.refl xs⟩

theorem eqLayer_trans {a b c : Json F} (h1 : EqLayer a b) (h2 : EqLayer b c) : EqLayer a c := by
  cases a <;> cases b <;> try exact h1.elim
  · cases c <;> try exact h2.elim
    exact Eq.trans h1 h2
  · cases c <;> try exact h2.elim
    exact relItems_trans (fun _ _ _ h h' => h.trans h') h1 h2
  · cases c <;> try exact h2.elim
    obtain ⟨zs, h3, h4⟩ := h1
    obtain ⟨ws, h5, h6⟩ := h2
    obtain ⟨us, h7, h8⟩ := relEntries_perm h5 h4
    exact ⟨us, h3.trans h7, relEntries_trans (fun _ _ _ h h' => h.trans h') h8 h6⟩

theorem equiv_layer {a b : Json F} (h : Json.Equiv a b) : EqLayer a b := by
  induction h with
  | refl => exact eqLayer_refl _
  | trans _ _ ih1 ih2 => exact eqLayer_trans ih1 ih2
  | arr pre post h _ => exact relItems_middle Json.Equiv.refl pre post h
  | obj pre post k h _ => exact ⟨_, .refl _, relEntries_middle Json.Equiv.refl pre post k h⟩
  | perm h => exact ⟨_, h, relEntries_refl Json.Equiv.refl _⟩

theorem equiv_arr {xs ys : List (Json F)} (h : Json.Equiv (.arr xs) (.arr ys)) : RelItems Json.Equiv xs ys := equiv_layer h

theorem equiv_obj {xs ys : List (Str × Json F)} (h : Json.Equiv (.obj xs) (.obj ys)) :
    ∃ zs, xs.Perm zs ∧ RelEntries Json.Equiv zs ys := equiv_layer h

theorem perm_same_keys : ∀ {xs ys : List (Str × Json F)}, xs.Perm ys → xs.map Prod.fst = ys.map Prod.fst →
    (xs.map Prod.fst).Nodup → xs = ys
  | [], [], _, _, _ => rfl
  | [], _ :: _, _, h, _ => by simp at h
  | _ :: _, [], _, h, _ => by simp at h
  | (k, v) :: xs, (k', v') :: ys, hp, hk, hn => by
    simp only [List.map_cons, List.cons.injEq] at hk
    simp only [List.map_cons, List.nodup_cons] at hn
    obtain ⟨rfl, hk⟩ := hk
    have : (k, v') ∈ (k, v) :: xs := hp.mem_iff.mpr (by simp)
    simp only [List.mem_cons, Prod.mk.injEq, true_and] at this
    rcases this with rfl | h
    · rw [perm_same_keys (List.perm_cons _ |>.mp hp) hk hn.2]
    · exact absurd (List.mem_map_of_mem (f := Prod.fst) h) hn.1

/-- With the same distinct keys in the same order the values correspond one by one. -/
theorem equiv_obj_same {xs ys : List (Str × Json F)} (h : Json.Equiv (.obj xs) (.obj ys))
    (hk : xs.map Prod.fst = ys.map Prod.fst) (hn : (ys.map Prod.fst).Nodup) : RelEntries Json.Equiv xs ys := by
  obtain ⟨zs, hp, hr⟩ := equiv_obj h
  rw [perm_same_keys hp (hk.trans (relEntries_keys hr).symm) (hk ▸ hn)]
  exact hr

theorem equiv_nested {a b : Json F} : ∀ (ks : List Str), Json.Equiv (nested ks a) (nested ks b) → Json.Equiv a b
  | [], h => h
  | k :: ks, h => by
    have : RelEntries Json.Equiv [(k, nested ks a)] [(k, nested ks b)] :=
      equiv_obj_same (by simpa only [nested] using h) (by simp) (by simp)
    exact equiv_nested ks this.2.1

/-! ## Merged objects -/

theorem replaceKey_length (k : Str) (v : Json F) (es : List (Str × Json F)) : (replaceKey k v es).length = es.length := by
  induction es with
  | nil => rfl
  | cons e es ih =>
    obtain ⟨k', v'⟩ := e
    simp only [replaceKey]
    split <;> simp [ih]

/-- The entry that a key with its path contributes. -/
def slot (e : Str × Bool × ETree F) : Str × Json F :=
  match keyPath e.2.1 e.1 with
  | [] => ([], expanded e.2.2)
  | s :: ss => (s, nested ss (expanded e.2.2))

/-- As many merged entries as there were: nothing met anything. -/
theorem expandedEntries_count (quoted : Str → Bool) : ∀ (tes : List (Str × Bool × ETree F)) (acc : List (Str × Json F)),
    (∀ e ∈ tes, keyPath (quoted e.1) e.1 = keyPath e.2.1 e.1) →
    (expandedEntries quoted tes acc).length ≤ acc.length + tes.length ∧
    ((expandedEntries quoted tes acc).length = acc.length + tes.length → expandedEntries quoted tes acc = acc ++ tes.map slot)
  | [], acc, _ => by simp [expandedEntries]
  | (k, q, t) :: tes, acc, h => by
    obtain ⟨s, ss, hp⟩ := List.exists_cons_of_ne_nil (keyPath_ne q k)
    have hk : keyPath (quoted k) k = s :: ss := (h (k, q, t) (by simp)).trans hp
    have hsl : slot (k, q, t) = (s, nested ss (expanded t)) := by simp only [slot, hp]
    simp only [expandedEntries, hk, atPath, List.length_cons]
    by_cases hf : s ∈ acc.map Prod.fst
    · obtain ⟨h1, _⟩ := expandedEntries_count quoted tes (mergeObj acc [(s, nested ss (expanded t))]) (fun e he => h e (by simp [he]))
      have : (mergeObj acc [(s, nested ss (expanded t))]).length = acc.length := by
        rw [mergeObj_cons, mergeObj, putMerge]
        cases hl : lookupKey s acc with
        | none => exact absurd hf (lookup_none.mp hl)
        | some c => simp only [replaceKey_length]
      exact ⟨by omega, fun he => by omega⟩
    · rw [mergeObj_fresh hf]
      obtain ⟨h1, h2⟩ := expandedEntries_count quoted tes (acc ++ [(s, nested ss (expanded t))]) (fun e he => h e (by simp [he]))
      simp only [List.length_append, List.length_cons, List.length_nil] at h1 h2
      refine ⟨by omega, fun he => ?_⟩
      rw [h2 (by omega), List.map_cons, hsl]
      simp

/-- How a written entry relates to the entry that is read in its place. -/
structure EntryReads (P : Str → Json F → Prop) (e : Str × Json F) (r : Str × Bool × ETree F) : Prop where
  quoted : r.2.1 = true → ¬ DottedPath r.1
  single : ¬ DottedPath (slot r).1
  head : (slot r).1 = e.1 ∨ DottedPath e.1 ∨ e.1.length < (slot r).1.length
  value : (slot r).1 = e.1 → ¬ DottedPath e.1 → Json.Equiv (slot r).2 e.2 → P e.1 e.2

theorem pointwise_length {α β : Type} {R : α → β → Prop} {as : List α} {bs : List β} (h : Pointwise R as bs) :
    as.length = bs.length := by
  induction h with
  | nil => rfl
  | cons _ _ ih => simp [ih]

theorem pointwise_right {α β : Type} {R : α → β → Prop} {as : List α} {bs : List β} (h : Pointwise R as bs) :
    ∀ b ∈ bs, ∃ a ∈ as, R a b := by
  induction h with
  | nil => simp
  | cons h _ ih =>
    intro b hb
    rcases List.mem_cons.mp hb with rfl | hb
    · exact ⟨_, by simp, h⟩
    · obtain ⟨a, ha, hr⟩ := ih b hb
      exact ⟨a, by simp [ha], hr⟩

/-- The total length of strings. -/
def lengthSum (ks : List Str) : Nat := (ks.map List.length).sum

theorem lengthSum_perm {a b : List Str} (h : a.Perm b) : lengthSum a = lengthSum b :=
  (h.map List.length).sum_nat

theorem heads_le {P : Str → Json F → Prop} {es : List (Str × Json F)} {tes : List (Str × Bool × ETree F)}
    (h : Pointwise (EntryReads P) es tes) (hd : ∀ e ∈ es, ¬ DottedPath e.1) :
    lengthSum (es.map Prod.fst) ≤ lengthSum ((tes.map slot).map Prod.fst) ∧
    (lengthSum (es.map Prod.fst) = lengthSum ((tes.map slot).map Prod.fst) →
      (tes.map slot).map Prod.fst = es.map Prod.fst) := by
  induction h with
  | nil => simp
  | @cons e r es tes h _ ih =>
    obtain ⟨h1, h2⟩ := ih (fun e he => hd e (by simp [he]))
    simp only [lengthSum, List.map_cons, List.sum_cons] at h1 h2 ⊢
    rcases h.head with hh | hh | hh
    · rw [hh]
      exact ⟨by omega, fun he => by rw [h2 (by omega)]⟩
    · exact absurd hh (hd e (by simp))
    · exact ⟨by omega, fun he => by omega⟩

theorem values_hold {P : Str → Json F → Prop} {es : List (Str × Json F)} {tes : List (Str × Bool × ETree F)}
    (h : Pointwise (EntryReads P) es tes) (hd : ∀ e ∈ es, ¬ DottedPath e.1)
    (hr : RelEntries Json.Equiv (tes.map slot) es) : ∀ e ∈ es, P e.1 e.2 := by
  induction h with
  | nil => simp
  | @cons e r es tes h _ ih =>
    intro e' he'
    simp only [List.map_cons] at hr
    rcases List.mem_cons.mp he' with rfl | he'
    · exact h.value hr.1 (hd _ (by simp)) hr.2.1
    · exact ih (fun e he => hd e (by simp [he])) hr.2.2 e' he'

/-- An object that comes back from expansion had no dotted keys, and its values come back too. -/
theorem object_reads {P : Str → Json F → Prop} {es : List (Str × Json F)} {tes : List (Str × Bool × ETree F)}
    (h : Pointwise (EntryReads P) es tes) (hn : (es.map Prod.fst).Nodup)
    (he : Json.Equiv (expanded (.obj tes)) (.obj es)) : (∀ e ∈ es, ¬ DottedPath e.1) ∧ ∀ e ∈ es, P e.1 e.2 := by
  simp only [expanded] at he
  have hq : ∀ r ∈ tes, keyPath (quotedIn tes r.1) r.1 = keyPath r.2.1 r.1 := by
    intro r hr
    by_cases hdot : DottedPath r.1
    · have h1 : r.2.1 = false := by
        obtain ⟨e, _, h1⟩ := pointwise_right h r hr
        exact Bool.eq_false_iff.mpr fun hc => h1.quoted hc hdot
      have h2 : quotedIn tes r.1 = false := by
        refine Bool.eq_false_iff.mpr fun hc => ?_
        simp only [quotedIn, List.any_eq_true, Bool.and_eq_true, beq_iff_eq] at hc
        obtain ⟨r', hr', heq, hq'⟩ := hc
        obtain ⟨e, _, h1⟩ := pointwise_right h r' hr'
        exact h1.quoted hq' (heq ▸ hdot)
      rw [h1, h2]
    · rw [keyPath_single (Or.inr hdot), keyPath_single (Or.inr hdot)]
  obtain ⟨hle, heq⟩ := expandedEntries_count (quotedIn tes) tes [] hq
  obtain ⟨zs, hp, hr⟩ := equiv_obj he
  have hkz := relEntries_keys hr
  have hlen : (expandedEntries (quotedIn tes) tes []).length = es.length := by
    rw [hp.length_eq, ← List.length_map (f := Prod.fst) (as := zs), hkz, List.length_map]
  have hM := heq (by rw [hlen, pointwise_length h]; simp)
  rw [List.nil_append] at hM
  rw [hM] at he hp
  have hkeys : ((tes.map slot).map Prod.fst).Perm (es.map Prod.fst) := hkz ▸ hp.map Prod.fst
  have hd : ∀ e ∈ es, ¬ DottedPath e.1 := by
    intro e hm
    have : e.1 ∈ (tes.map slot).map Prod.fst := hkeys.mem_iff.mpr (List.mem_map_of_mem hm)
    simp only [List.map_map, List.mem_map, Function.comp] at this
    obtain ⟨r, hr', hre⟩ := this
    obtain ⟨_, _, h1⟩ := pointwise_right h r hr'
    exact hre ▸ h1.single
  have hsame := (heads_le h hd).2 (lengthSum_perm hkeys).symm
  exact ⟨hd, values_hold h hd (equiv_obj_same he hsame hn)⟩

end

end Toon
