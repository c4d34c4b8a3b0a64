import Verif.Lemmas.JsonFrames
import Verif.Lemmas.Utf8
import Verif.Spec.JsonNum
import Verif.Spec.Size
import Verif.Spec.Paths

/-! What is reserved for JSON text against what is printed, in bytes. -/

namespace Toon

open Utf8 (len len_append len_cons len_nil)

theorem len_ascii (c : Char) (h : c.toNat < 128) : (String.utf8EncodeChar c).length = 1 := by
  rw [Utf8.enc_ascii h]; rfl

theorem length_le_len (s : Str) : s.length ≤ len s := by
  induction s with
  | nil => exact Nat.le_refl _
  | cons c s ih => rw [len_cons, List.length_cons]; have := Utf8.enc_length_pos c; omega

theorem len_flatMap_ge {f : Char → Str} (h : ∀ c, (String.utf8EncodeChar c).length ≤ len (f c)) (s : Str) : len s ≤ len (s.flatMap f) := by
  induction s with
  | nil => exact Nat.le_refl _
  | cons c s ih => rw [List.flatMap_cons, len_append, len_cons]; have := h c; omega

theorem jsonEscapeChar_len (c : Char) : (String.utf8EncodeChar c).length ≤ len (jsonEscapeChar c) := by
  have h4 : (String.utf8EncodeChar c).length ≤ 4 := by
    rw [String.length_utf8EncodeChar]; exact Char.utf8Size_le_four c
  rw [jsonEscapeChar]
  split
  · rename_i h; subst h; decide
  · split
    · rename_i h; subst h; decide
    · split
      · rename_i h; subst h; decide
      · split
        · rename_i h; subst h; decide
        · split
          · rename_i h; subst h; decide
          · split
            · have := length_le_len ('\\' :: 'u' :: hex4 c.toNat)
              simp only [hex4, List.length_cons, List.length_nil] at this ⊢
              omega
            · simp

theorem jsonString_len_ge (s : Str) : len s + 2 ≤ len (jsonString s) := by
  have := len_flatMap_ge jsonEscapeChar_len s
  simp only [jsonString, len_cons, len_append, len_nil, len_ascii '"' (by decide)]
  omega

theorem jsonString_len_eq {s : Str} (h : ∀ c ∈ s, jsonEscapeChar c = [c]) : len (jsonString s) = len s + 2 := by
  have : s.flatMap jsonEscapeChar = s := by
    induction s with
    | nil => rfl
    | cons c s ih => rw [List.flatMap_cons, h c (by simp), ih (fun d hd => h d (by simp [hd]))]; rfl
  simp only [jsonString, this, len_cons, len_append, len_nil, len_ascii '"' (by decide)]
  omega

section
variable {F : Type} [F64 F] [JsonNum F]

/-- No number takes fewer than `m` bytes. -/
def NumberBytes (m : Nat) (p : Prim F) : Prop := ∀ x, p = .num x → m ≤ len (jsonNumber x)

theorem numberBytes_one [LawfulJsonNum F] (p : Prim F) : NumberBytes 1 p := by
  rintro x rfl
  rw [jsonNumber]
  split
  · rename_i hf
    have hg := LawfulJsonNum.text_grammar x hf
    cases ht : JsonNum.text x with
    | nil =>
      rw [ht] at hg
      obtain ⟨sg, int, fr, ex, h0, _, ⟨hi, _⟩, _⟩ := hg
      simp only [List.nil_eq, List.append_eq_nil_iff] at h0
      exact absurd h0.2.1 hi
    | cons c s => rw [len_cons]; have := Utf8.enc_length_pos c; omega
  · decide

theorem estimatePrimitive_le {m : Nat} (hm : m = 1 ∨ m = 3) (p : Prim F) (hn : NumberBytes m p) :
    m * estimatePrimitive p ≤ 20 * len (jsonPrimitive p) := by
  cases p with
  | null => have : len "null".toList = 4 := by decide
            rw [jsonPrimitive, this, estimatePrimitive]; omega
  | bool b =>
    cases b with
    | false => have : len "false".toList = 5 := by decide
               rw [jsonPrimitive, this, estimatePrimitive]; omega
    | true => have : len "true".toList = 4 := by decide
              rw [jsonPrimitive, this, estimatePrimitive]; omega
  | str s =>
    have := jsonString_len_ge s
    rw [estimatePrimitive, jsonPrimitive]
    rcases hm with rfl | rfl <;> omega
  | num x =>
    have h1 := hn x rfl
    rw [estimatePrimitive, jsonPrimitive]; omega

theorem len_jsonIndent (n : Nat) : len (jsonIndent n) = n := by
  rw [jsonIndent]
  induction n with
  | zero => rfl
  | succ n ih => rw [List.replicate_succ, len_cons, ih, len_ascii ' ' (by decide)]; omega

theorem len_newline (n : Nat) : len ('\n' :: jsonIndent n) = 1 + n := by
  rw [len_cons, len_jsonIndent, len_ascii '\n' (by decide)]

theorem len_comma (b : Bool) : len (if b then [] else [',']) = if b then 0 else 1 := by
  cases b <;> decide

mutual
theorem estimate_le {m : Nat} (hm : m = 1 ∨ m = 3) (i : Nat) (v : Json F) (d : Nat) (hn : AllPrims (NumberBytes m) v) :
    m * estimateOf i v ≤ 20 * len (jsonStringify i d v) := by
  match v with
  | .prim p => rw [estimateOf, jsonStringify]; exact estimatePrimitive_le hm p hn
  | .arr [] =>
    have : len ['[', ']'] = 2 := by decide
    rw [estimateOf, jsonStringify, estimateItems, if_pos List.isEmpty_nil, this, List.length_nil]; (rcases hm with rfl | rfl <;> omega)
  | .arr (v :: vs) =>
    have := estimateItems_le hm i (v :: vs) d hn
    rw [estimateOf, jsonStringify]
    simp only [List.isEmpty_cons, Bool.false_eq_true, if_false]
    split <;> simp only [len_cons, len_append, len_nil, len_ascii '[' (by decide), len_ascii ']' (by decide)] <;> (rcases hm with rfl | rfl <;> omega)
  | .obj [] =>
    have : len ['{', '}'] = 2 := by decide
    rw [estimateOf, jsonStringify, estimateEntries, if_pos List.isEmpty_nil, this, List.length_nil]; (rcases hm with rfl | rfl <;> omega)
  | .obj (e :: es) =>
    have := estimateEntries_le hm i (e :: es) d hn
    rw [estimateOf, jsonStringify]
    simp only [List.isEmpty_cons, Bool.false_eq_true, if_false]
    split <;> simp only [len_cons, len_append, len_nil, len_ascii '{' (by decide), len_ascii '}' (by decide)] <;> (rcases hm with rfl | rfl <;> omega)
theorem estimateItems_le {m : Nat} (hm : m = 1 ∨ m = 3) (i : Nat) (vs : List (Json F)) (d : Nat) (hn : AllPrimsItems (NumberBytes m) vs) :
    m * (estimateItems i vs + vs.length * (2 + i)) ≤ 20 * len (jsonItems i d vs) + 6 := by
  match vs with
  | [] => simp [estimateItems]
  | v :: vs =>
    rw [AllPrimsItems] at hn
    have h1 := estimate_le hm i v (d + 1) hn.1
    have h2 := estimateItems_le hm i vs d hn.2
    have h3 : (v :: vs).length * (2 + i) = vs.length * (2 + i) + 2 + i := by rw [List.length_cons, Nat.add_mul]; omega
    have h4 : i ≤ (d + 1) * i := Nat.le_mul_of_pos_left i (by omega)
    rw [h3, jsonItems, estimateItems]
    simp only [len_append]
    cases vs with
    | nil =>
      have : jsonItems i d ([] : List (Json F)) = [] := by rw [jsonItems]
      simp only [estimateItems, this, List.length_nil, Nat.zero_mul, List.isEmpty_nil, if_true, len_nil]
      split
      · rw [len_newline]; (rcases hm with rfl | rfl <;> omega)
      · rw [len_nil]; (rcases hm with rfl | rfl <;> omega)
    | cons w vs =>
      simp only [List.isEmpty_cons, Bool.false_eq_true, if_false, len_cons, len_nil, len_ascii ',' (by decide)]
      split
      · rw [len_newline]; (rcases hm with rfl | rfl <;> omega)
      · rw [len_nil]; (rcases hm with rfl | rfl <;> omega)
theorem estimateEntries_le {m : Nat} (hm : m = 1 ∨ m = 3) (i : Nat) (es : List (Str × Json F)) (d : Nat) (hn : AllPrimsEntries (NumberBytes m) es) :
    m * (estimateEntries i es + es.length * (2 + i)) ≤ 20 * len (jsonEntries i d es) := by
  match es with
  | [] => simp [estimateEntries]
  | (k, v) :: es =>
    rw [AllPrimsEntries] at hn
    have h1 := estimate_le hm i v (d + 1) hn.1
    have h2 := estimateEntries_le hm i es d hn.2
    have h3 : ((k, v) :: es).length * (2 + i) = es.length * (2 + i) + 2 + i := by rw [List.length_cons, Nat.add_mul]; omega
    have h4 : i ≤ (d + 1) * i := Nat.le_mul_of_pos_left i (by omega)
    have h5 := jsonString_len_ge k
    rw [h3, jsonEntries, estimateEntries]
    simp only [len_append]
    split
    · rw [len_newline]; (rcases hm with rfl | rfl <;> omega)
    · rw [len_nil]; (rcases hm with rfl | rfl <;> omega)
end

section
omit [F64 F] [JsonNum F]
mutual
theorem allPrims_all {P : Prim F → Prop} (h : ∀ p, P p) : (v : Json F) → AllPrims P v
  | .prim p => h p
  | .arr vs => by rw [AllPrims]; exact allPrimsItems_all h vs
  | .obj es => by rw [AllPrims]; exact allPrimsEntries_all h es
theorem allPrimsItems_all {P : Prim F → Prop} (h : ∀ p, P p) : (vs : List (Json F)) → AllPrimsItems P vs
  | [] => trivial
  | v :: vs => ⟨allPrims_all h v, allPrimsItems_all h vs⟩
theorem allPrimsEntries_all {P : Prim F → Prop} (h : ∀ p, P p) : (es : List (Str × Json F)) → AllPrimsEntries P es
  | [] => trivial
  | (_, v) :: es => ⟨allPrims_all h v, allPrimsEntries_all h es⟩
end
mutual
theorem allPrims_both {P Q : Prim F → Prop} : (v : Json F) → AllPrims P v → AllPrims Q v → AllPrims (fun p => P p ∧ Q p) v
  | .prim _, hp, hq => ⟨hp, hq⟩
  | .arr vs, hp, hq => by rw [AllPrims] at *; exact allPrimsItems_both vs hp hq
  | .obj es, hp, hq => by rw [AllPrims] at *; exact allPrimsEntries_both es hp hq
theorem allPrimsItems_both {P Q : Prim F → Prop} : (vs : List (Json F)) → AllPrimsItems P vs → AllPrimsItems Q vs → AllPrimsItems (fun p => P p ∧ Q p) vs
  | [], _, _ => trivial
  | v :: vs, hp, hq => ⟨allPrims_both v hp.1 hq.1, allPrimsItems_both vs hp.2 hq.2⟩
theorem allPrimsEntries_both {P Q : Prim F → Prop} :
    (es : List (Str × Json F)) → AllPrimsEntries P es → AllPrimsEntries Q es → AllPrimsEntries (fun p => P p ∧ Q p) es
  | [], _, _ => trivial
  | (_, v) :: es, hp, hq => ⟨allPrims_both v hp.1 hq.1, allPrimsEntries_both es hp.2 hq.2⟩
end
end

/-! ## Compact text -/

/-- Printing needs no more bytes than are reserved for a primitive. -/
def PrimFits (p : Prim F) : Prop := len (jsonPrimitive p) ≤ estimatePrimitive p

/-- No character of the text is escaped in JSON. -/
def Unescaped (s : Str) : Prop := ∀ c ∈ s, jsonEscapeChar c = [c]

mutual
theorem estimate_ge (v : Json F) (d : Nat) (hp : AllPrims PrimFits v) (hk : AllKeys Unescaped v) :
    len (jsonStringify 0 d v) ≤ estimateOf 0 v := by
  match v with
  | .prim p => rw [estimateOf, jsonStringify]; exact hp
  | .arr [] =>
    have : len ['[', ']'] = 2 := by decide
    rw [estimateOf, jsonStringify, if_pos List.isEmpty_nil, this]; omega
  | .arr (v :: vs) =>
    have := estimateItems_ge (v :: vs) d hp hk
    rw [estimateOf, jsonStringify]
    simp only [List.isEmpty_cons, Bool.false_eq_true, if_false, Nat.lt_irrefl]
    simp only [len_cons, len_append, len_nil, len_ascii '[' (by decide), len_ascii ']' (by decide)]
    omega
  | .obj [] =>
    have : len ['{', '}'] = 2 := by decide
    rw [estimateOf, jsonStringify, if_pos List.isEmpty_nil, this]; omega
  | .obj (e :: es) =>
    have := estimateEntries_ge (e :: es) d hp hk
    rw [estimateOf, jsonStringify]
    simp only [List.isEmpty_cons, Bool.false_eq_true, if_false, Nat.lt_irrefl]
    simp only [len_cons, len_append, len_nil, len_ascii '{' (by decide), len_ascii '}' (by decide)]
    omega
theorem estimateItems_ge (vs : List (Json F)) (d : Nat) (hp : AllPrimsItems PrimFits vs) (hk : AllKeysItems Unescaped vs) :
    len (jsonItems 0 d vs) ≤ estimateItems 0 vs + vs.length := by
  match vs with
  | [] => simp [jsonItems]
  | v :: vs =>
    rw [AllPrimsItems] at hp
    rw [AllKeysItems] at hk
    have h1 := estimate_ge v (d + 1) hp.1 hk.1
    have h2 := estimateItems_ge vs d hp.2 hk.2
    have h3 := len_comma vs.isEmpty
    have h4 : (if vs.isEmpty then 0 else 1) ≤ 1 := by split <;> omega
    rw [jsonItems, estimateItems, List.length_cons]
    simp only [Nat.lt_irrefl, if_false, List.nil_append, len_append, h3]
    omega
theorem estimateEntries_ge (es : List (Str × Json F)) (d : Nat) (hp : AllPrimsEntries PrimFits es) (hk : AllKeysEntries Unescaped es) :
    len (jsonEntries 0 d es) ≤ estimateEntries 0 es := by
  match es with
  | [] => simp [jsonEntries]
  | (k, v) :: es =>
    rw [AllPrimsEntries] at hp
    rw [AllKeysEntries] at hk
    have h1 := estimate_ge v (d + 1) hp.1 hk.2.1
    have h2 := estimateEntries_ge es d hp.2 hk.2.2
    have h3 := len_comma es.isEmpty
    have h4 : (if es.isEmpty then 0 else 1) ≤ 1 := by split <;> omega
    have h5 := jsonString_len_eq hk.1
    rw [jsonEntries, estimateEntries]
    simp only [Nat.lt_irrefl, if_false, List.nil_append, len_append, h3, h5, len_cons, len_nil, len_ascii ':' (by decide)]
    omega
end

/-! ## Deep values -/

omit [F64 F] [JsonNum F] in
theorem estimate_nested (i n : Nat) : estimateOf i (nestedArrays n : Json F) = n * (6 + i) + 4 := by
  induction n with
  | zero => simp [nestedArrays, estimateOf, estimateItems]
  | succ n ih =>
    rw [nestedArrays, estimateOf, estimateItems, estimateItems, ih, Nat.add_mul]
    simp only [List.length_cons, List.length_nil]
    omega

theorem nested_length (i n d : Nat) (hi : 0 < i) : i * (n * n + 2 * n * d) ≤ 2 * (jsonStringify i d (nestedArrays n : Json F)).length := by
  induction n generalizing d with
  | zero => simp
  | succ n ih =>
    have := ih (d + 1)
    rw [nestedArrays, jsonStringify]
    simp only [List.isEmpty_cons, Bool.false_eq_true, if_false, if_pos hi, jsonItems, List.isEmpty_nil, if_true, List.append_nil, List.length_cons,
      List.length_append, jsonIndent, List.length_replicate, List.length_nil]
    have e1 : i * ((n + 1) * (n + 1) + 2 * (n + 1) * d) = i * (n * n + 2 * n * d) + 2 * (n * i) + i + 2 * (d * i) := by grind
    have e2 : i * (n * n + 2 * n * (d + 1)) = i * (n * n + 2 * n * d) + 2 * (n * i) := by grind
    have e3 : (d + 1) * i = d * i + i := by grind
    omega

end

end Toon
