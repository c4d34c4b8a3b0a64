import Verif.Spec.Frames
import Verif.Lemmas.Frames
import Verif.Lemmas.FramesMono
import Verif.Lemmas.GrammarScan
import Verif.Lemmas.Resources
import Verif.Lemmas.ResourcesSize

/-! How many levels a text has, and a text that needs all the frames. -/

set_option linter.unusedSimpArgs false

namespace Toon

theorem scansTo_level {indent : Nat} {strict : Bool} {n : Nat} {source : List Str} {lines : List Line} {blanks : List Nat}
    (h : ScansTo indent strict n source lines blanks) : ∀ l ∈ lines, ∃ spaces,
      List.replicate spaces ' ' ++ l.content ∈ source ∧ l.content.head? ≠ some ' ' ∧ ¬ BlankLine l.content ∧
        l.depth = spaces / indent := by
  induction h with
  | nil => simp
  | blank _ _ ih =>
    intro l hl
    obtain ⟨spaces, h1, h2⟩ := ih l hl
    exact ⟨spaces, by simp [h1], h2⟩
  | @line n spaces content rest ls bs hb hc _ _ ih =>
    intro l hl
    rcases List.mem_cons.mp hl with rfl | hl
    · exact ⟨spaces, by simp, hc, hb, rfl⟩
    · obtain ⟨spaces, h1, h2⟩ := ih l hl
      exact ⟨spaces, by simp [h1], h2⟩

/-! ## Distinct levels -/

/-- The distinct positive depths of the lines. -/
def levelsOf : List Line → List Nat
  | [] => []
  | l :: ls => if l.depth = 0 ∨ l.depth ∈ levelsOf ls then levelsOf ls else l.depth :: levelsOf ls

theorem levelsOf_mem : ∀ {ls : List Line} {l : Line}, l ∈ ls → 0 < l.depth → l.depth ∈ levelsOf ls
  | x :: xs, l, h, hd => by
    rw [levelsOf]
    rcases List.mem_cons.mp h with rfl | h
    · split
      · rename_i hx
        rcases hx with hx | hx
        · omega
        · exact hx
      · simp
    · have := levelsOf_mem h hd
      split
      · exact this
      · simp [this]

theorem levelsOf_pos (ls : List Line) : ∀ x ∈ levelsOf ls, 0 < x := by
  induction ls with
  | nil => simp [levelsOf]
  | cons l ls ih =>
    rw [levelsOf]
    split
    · exact ih
    · rename_i hx
      intro x hm
      rcases List.mem_cons.mp hm with rfl | hm
      · omega
      · exact ih x hm

theorem levelsOf_nodup (ls : List Line) : (levelsOf ls).Nodup := by
  induction ls with
  | nil => simp [levelsOf]
  | cons l ls ih =>
    rw [levelsOf]
    split
    · exact ih
    · rename_i hx
      exact List.nodup_cons.mpr ⟨fun h => hx (Or.inr h), ih⟩

theorem levelsOf_sum (ls : List Line) : (levelsOf ls).sum ≤ depthSum ls := by
  induction ls with
  | nil => simp [levelsOf, depthSum]
  | cons l ls ih =>
    rw [levelsOf, depthSum_cons]
    split
    · omega
    · simp only [List.sum_cons]; omega

theorem nodup_short (m : Nat) : ∀ l : List Nat, l.Nodup → (∀ x ∈ l, 0 < x ∧ x ≤ m) → l.length ≤ m := by
  induction m with
  | zero =>
    intro l _ h
    cases l with
    | nil => simp
    | cons x _ => have := h x (by simp); omega
  | succ m ih =>
    intro l hn h
    have h1 := ih (l.erase (m + 1)) (hn.erase _) (fun x hx => by
      rw [hn.mem_erase_iff] at hx
      have := h x hx.2
      omega)
    rw [List.length_erase] at h1
    split at h1 <;> omega

theorem sum_erase {x : Nat} {l : List Nat} (h : x ∈ l) : l.sum = x + (l.erase x).sum := by
  have := (List.perm_cons_erase h).sum_nat
  simpa using this

theorem nodup_sum (m : Nat) : ∀ l : List Nat, l.Nodup → (∀ x ∈ l, 0 < x) → l.length = m → m * (m + 1) ≤ 2 * l.sum := by
  induction m with
  | zero => intros; simp
  | succ m ih =>
    intro l hn hp hl
    have : ∃ x ∈ l, m + 1 ≤ x := by
      apply Classical.byContradiction
      intro hc
      have := nodup_short m l hn (fun x hx => ⟨hp x hx, by
        have : ¬ m + 1 ≤ x := fun h => hc ⟨x, hx, h⟩
        omega⟩)
      omega
    obtain ⟨x, hx, hm⟩ := this
    have h1 := ih (l.erase x) (hn.erase _) (fun y hy => hp y (List.mem_of_mem_erase hy)) (by
      rw [List.length_erase_of_mem hx]; omega)
    rw [sum_erase hx]
    have e : (m + 1) * (m + 1 + 1) = m * (m + 1) + 2 * (m + 1) := by
      rw [Nat.mul_comm, ← Nat.add_mul]
    omega

/-! ## The staircase -/

section
variable {F : Type} [F64 F]

/-- The header `a[n]:`. -/
def stairHeader (n : Nat) : Header := ⟨some ['a'], false, n, ',', none, none⟩

/-- Its text for the line `i` of `k`. -/
def stairText (k i : Nat) : Str := ['a', '['] ++ (if i < k then ['1'] else ['0']) ++ [']', ':']

def stairCount (k i : Nat) : Nat := if i < k then 1 else 0

def stairLine (k i : Nat) : Line := ⟨2 * i - 1, (if i = 0 then [] else ['-', ' ']) ++ stairText k i, i + 1⟩

def stairLines (k : Nat) : List Line := (List.range (k + 1)).map (stairLine k)

theorem stair_header (k i : Nat) : parseArrayHeaderLine (stairText k i) ',' = .ok (some (stairHeader (stairCount k i))) := by
  unfold stairText stairCount
  by_cases h : i < k
  · rw [if_pos h, if_pos h]; rfl
  · rw [if_neg h, if_neg h]; rfl

theorem stairLines_get {k i : Nat} (h : i ≤ k) : (stairLines k)[i]? = some (stairLine k i) := by
  simp [stairLines, show i < k + 1 by omega]

theorem stairKV_overflow (ctx : Ctx) (k j : Nat) (base stack : Nat) (m : Machine F)
    (h : ∀ s (m' : Machine F), m'.index = m.index → s < stack → (callArray ctx (stairLines k) s (stairHeader (stairCount k j)) m' base).result = .error .overflow) :
    (callKV ctx (stairLines k) stack (stairText k j) m base).result = .error .overflow := by
  cases stack with
  | zero => rw [callKV]; rfl
  | succ s =>
    rw [callKV, stair_header]
    simp only [liftErr, keyedHeader, stairHeader]
    exact h s _ rfl (by omega)

theorem stairArray_overflow (ctx : Ctx) (k : Nat) : ∀ (n j : Nat), j + n = k → ∀ (stack : Nat) (m : Machine F), m.index = j + 1 →
    stack ≤ 4 * n + 1 → (callArray ctx (stairLines k) stack (stairHeader (stairCount k j)) m (2 * j)).result = .error .overflow := by
  intro n
  induction n with
  | zero =>
    intro j hj stack m hm hs
    cases stack with
    | zero => rw [callArray]; rfl
    | succ s =>
      obtain rfl : s = 0 := by omega
      rw [callArray]
      simp [stairHeader, callList]
  | succ n ih =>
    intro j hj stack m hm hs
    cases stack with
    | zero => rw [callArray]; rfl
    | succ s =>
      rw [callArray]
      simp only [stairHeader, Option.getD_none, List.isEmpty_nil, if_true]
      cases s with
      | zero => rw [callList]; rfl
      | succ s =>
        rw [callList]
        have hleft : (m.push [Ev.startArr (stairCount k j)]).left (stairLines k) = n + 1 := by
          simp only [Machine.left, Machine.push, hm, stairLines, List.length_map, List.length_range]; omega
        rw [hleft, itemsLoop]
        have hend : (m.push [Ev.startArr (stairCount k j)]).atEnd (stairLines k) = false := by
          simp only [Machine.atEnd, Machine.push, hm, stairLines, List.length_map, List.length_range, decide_eq_false_iff_not]; omega
        have hpk : (m.push [Ev.startArr (stairCount k j)]).peek (stairLines k) = some (stairLine k (j + 1)) := by
          simp only [Machine.peek, Machine.push, hm]
          exact stairLines_get (by omega)
        have hc : stairCount k j = 1 := by simp [stairCount, show j < k by omega]
        rw [hend, hpk, hc]
        simp only [Bool.false_or, Nat.lt_one_iff, decide_true, Bool.not_true, Bool.false_eq_true, if_false]
        have hd : (stairLine k (j + 1)).depth = 2 * j + 1 := by simp only [stairLine]; omega
        have hcont : (stairLine k (j + 1)).content = '-' :: ' ' :: stairText k (j + 1) := by simp [stairLine]
        have hi : isListItem (stairLine k (j + 1)).content = true := by rw [hcont]; simp [isListItem, startsWithDash]
        rw [hd, hi]
        simp only [Nat.lt_irrefl, if_false, beq_self_eq_true, Bool.and_self, if_true]
        have hitem : (callItem ctx (stairLines k) s (m.push [Ev.startArr 1]) (2 * j + 1)).result = .error .overflow := by
          cases s with
          | zero => rw [callItem]; rfl
          | succ s =>
            rw [hc] at hpk
            rw [callItem, hpk]
            have hidx : ((m.push [Ev.startArr 1]).advance (stairLines k)).index = j + 2 := by
              simp only [Machine.peek] at hpk
              simp only [Machine.advance, hpk]
              simp [Machine.push, hm]
            simp only [hcont]
            rw [if_neg (by simp), if_pos (by simp [startsWithDash])]
            simp only [List.drop_succ_cons, List.drop_zero]
            have htrim : (trim (stairText k (j + 1))).isEmpty = false := by
              unfold stairText; split <;> decide +kernel
            have hah : isArrayHeaderContent (stairText k (j + 1)) = false := by
              unfold stairText; split <;> decide +kernel
            have hkv : isKeyValueContent (stairText k (j + 1)) = true := by
              unfold stairText; split <;> decide +kernel
            rw [htrim, stair_header, hah]
            simp only [Bool.false_eq_true, if_false, liftErr, keyedHeader, stairHeader, Option.isSome_none]
            simp only [Run.result_bind, Run.result_pure, Run.result_tick, Run.result_lift, Run.result_stop, liftErr, Option.isSome_none, Bool.false_eq_true, if_false]
            rw [itemRest, hkv, if_pos rfl, Run.result_bind, stairKV_overflow ctx k (j + 1)]
            intro s' m' hm' hs'
            have := ih (j + 1) (by omega) s' m' (by rw [hm']; exact hidx) (by omega)
            rw [show 2 * j + 1 + 1 = 2 * (j + 1) by omega]
            exact this
        simp only [Run.result_bind, Run.result_pure, Run.result_tick, Run.result_lift, Run.result_stop, liftErr, hitem]

theorem stair_overflow (ctx : Ctx) (k stack : Nat) (hs : stack < 4 * k + 4) :
    (runLines (F := F) ctx (stairLines k) stack).result = .error .overflow := by
  cases stack with
  | zero => rfl
  | succ s =>
    rw [runLines]
    have hpk : (Machine.mk (F := F) [] 0 none).peek (stairLines k) = some (stairLine k 0) := stairLines_get (Nat.zero_le k)
    have hidx : ((Machine.mk (F := F) [] 0 none).advance (stairLines k)).index = 1 := by
      simp only [Machine.peek] at hpk
      simp only [Machine.advance, hpk]
    simp only [hpk]
    have hcont : (stairLine k 0).content = stairText k 0 := by simp [stairLine]
    have hroot : rootHeader (stairText k 0) = .ok none := by
      unfold stairText; split <;> rfl
    have hkv : isKeyValueLine (stairText k 0) = true := by
      unfold stairText; split <;> decide +kernel
    rw [hcont, hroot]
    simp only [liftErr, hkv, Bool.not_true, Bool.and_false, Bool.false_eq_true, if_false]
    simp only [Run.result_bind, Run.result_pure, Run.result_tick, Run.result_lift, Run.result_stop, liftErr, hkv, Bool.not_true, Bool.and_false, Bool.false_eq_true, if_false]
    rw [stairKV_overflow ctx k 0]
    intro s' m' hm' hs'
    exact stairArray_overflow ctx k k 0 (by omega) s' m' (by rw [hm']; exact hidx) (by omega)

end

theorem staircase_scan (indent k : Nat) (hi : 0 < indent) (strict : Bool) :
    parseLines indent strict (staircase indent k) 0 = .ok (stairLines k, []) := by
  have key : ∀ (is : List Nat) (n : Nat), (∀ p, ∀ h : p < is.length, is[p] = n + p) →
      parseLines indent strict (is.map fun i => List.replicate (indent * (2 * i - 1)) ' ' ++ (if i = 0 then [] else ['-', ' ']) ++ ['a', '['] ++
      (if i < k then ['1'] else ['0']) ++ [']', ':']) n = .ok (is.map (stairLine k), []) := by
    intro is
    induction is with
    | nil => intros; rfl
    | cons i is ih =>
      intro n hn
      have h0 : i = n := hn 0 (by simp)
      subst h0
      rw [List.map_cons, parseLines, ih (i + 1) (fun p h => by
        have := hn (p + 1) (by simpa using h)
        simp only [List.getElem_cons_succ] at this
        omega)]
      have hl : LineOk ((if i = 0 then [] else ['-', ' ']) ++ stairText k i) := by
        unfold stairText
        split <;> split <;>
          exact ⟨by simp, ⟨by intro c hc; simp at hc; subst hc; decide, by intro c hc; simp at hc; subst hc; decide⟩,
            by decide, by decide⟩
      have := parseLine_render hi (l := ⟨2 * i - 1, _⟩) hl (i + 1) strict
      simp only [renderLine, stairText, ← List.append_assoc] at this
      rw [this]
      simp [stairLine, stairText]
  exact key (List.range (k + 1)) 0 (by simp)

end Toon
