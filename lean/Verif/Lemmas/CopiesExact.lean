import Verif.Spec.EncFrames
import Verif.Lemmas.Copies
import Verif.Lemmas.FoldOff

/-! The stack and the copies that some values need. -/

namespace Toon

section
variable {F : Type}

theorem deepLists_height (k : Nat) : height (deepLists k : Json F) = 2 * k := by
  induction k with
  | zero => rfl
  | succ k ih =>
    simp only [deepLists, height, heightItems, heightEntries, ih]
    omega

theorem deepLists_nodes (k : Nat) : nodes (deepLists k : Json F) = 4 * k + 1 := by
  induction k with
  | zero => rfl
  | succ k ih =>
    simp only [deepLists, nodes, nodesItems, nodesEntries, ih]
    omega

theorem nested_height (ks : List Str) (v : Json F) : height (nested ks v) = ks.length + height v := by
  induction ks with
  | nil => simp [nested]
  | cons k ks ih => simp only [nested, height, heightEntries, ih, List.length_cons]; omega

theorem nested_nodes (ks : List Str) (v : Json F) : nodes (nested ks v) = ks.length + nodes v := by
  induction ks with
  | nil => simp [nested]
  | cons k ks ih => simp only [nested, nodes, nodesEntries, ih, List.length_cons]; omega

theorem nested_copies (ks : List Str) (p : Prim F) (budget : Nat) (hb : ks.length ≤ budget) :
    2 * loopCopies budget (nested ks (.prim p)) = ks.length * (ks.length + 1) := by
  induction ks generalizing budget with
  | nil => cases budget <;> simp [nested, loopCopies]
  | cons k ks ih =>
    cases budget with
    | zero => simp at hb
    | succ b =>
      have := ih b (by simp at hb; omega)
      rw [nested, loopCopies, nested_nodes]
      simp only [List.length_cons, nodes, Nat.mul_add, Nat.add_mul] at this ⊢
      omega

theorem nested_chainCopies (ks : List Str) (p : Prim F) (budget : Nat) (hb : ks.length ≤ budget) :
    2 * chainCopies budget (nested ks (.prim p)) = (ks.length + 1) * (ks.length + 2) := by
  have h1 := nested_copies ks p budget hb
  rw [chainCopies, collectChain_nested ks _ (by intro k w h; cases h) budget hb, nested_nodes]
  simp only [nodes, Nat.mul_add, Nat.add_mul] at h1 ⊢
  omega

theorem nested_foldCopies {opts : EncOpts} (hf : opts.fold = true) (k : Str) (ks : List Str) (p : Prim F) (fd : Nat) (hb : ks.length + 2 ≤ fd) :
    2 * foldCopies opts (nested (k :: ks) (.prim p)) fd = (ks.length + 2) * (ks.length + 3) := by
  rw [foldCopies, if_neg (by simp [hf]), if_neg (by simp [nested, Json.isObj]), if_neg (by omega)]
  exact nested_chainCopies (k :: ks) p (fd - 1) (by simp only [List.length_cons]; omega)

theorem tryFold_blocked {opts : EncOpts} (k : Str) (ks : List Str) (p : Prim F) (siblings : List Str) (rlk : Option (List Str))
    (pp : Option Str) (fd : Nat) (hb : ks.length + 1 ≤ fd) (hbad : ∃ s ∈ ks, isIdentifierSegment s = false) :
    tryFold k (nested ks (.prim p)) siblings opts rlk pp fd = none := by
  unfold tryFold
  have hc := collectChain_nested ks (.prim p : Json F) (by intro k w h; cases h) (fd - 1) (by omega)
  simp only [hc]
  split; rfl
  split; rfl
  split; rfl
  split; rfl
  rw [if_pos]
  obtain ⟨s, h1, h2⟩ := hbad
  simp only [List.all_cons, Bool.not_eq_true', Bool.and_eq_false_iff, List.all_eq_false]
  exact Or.inr ⟨s, h1, by simp [h2]⟩

variable [F64 F] (opts : EncOpts)

omit opts in
theorem normalize_deepLists (k : Nat) : normalize (deepLists k : Json F) = deepLists k := by
  induction k with
  | zero => rfl
  | succ k ih => simp [deepLists, normalize, normalizeItems, normalizeEntries, normPrim, ih]

/-! ## Stack -/

theorem deepPair_overflow (k : Nat) : ∀ s, s < 6 * k + 1 → ∀ siblings rlk pp fd key depth out,
    (runPair (F := F) opts s siblings rlk pp fd key (deepLists k) depth out).result = .error .overflow := by
  induction k with
  | zero =>
    intro s hs siblings rlk pp fd key depth out
    obtain rfl : s = 0 := by omega
    rw [runPair]
    rfl
  | succ k ih =>
    intro s hs siblings rlk pp fd key depth out
    cases s with
    | zero => rw [runPair]; rfl
    | succ s =>
      rw [runPair.eq_def]
      simp only [deepLists, tryFold_arr, Run.result_bind, Run.result_tick]
      exact list_overflow opts ih (by omega) _ _ _ _ _ _ _

theorem deepLists_overflow (k : Nat) (stack : Nat) (hs : stack < max (6 * k + 2) 3) :
    (runEncodeLines (F := F) opts stack (deepLists k)).result = .error .overflow := by
  match stack with
  | 0 => rw [runEncodeLines]; rfl
  | s + 1 =>
    rw [runEncodeLines, Run.result_bind]
    rcases runNormalize_same s (deepLists k : Json F) with h | h
    · rw [h]
    · rw [h, normalize_deepLists]
      simp only
      rw [Run.result_bind]
      match s with
      | 0 => rw [runValue]; rfl
      | s + 1 =>
        rw [runValue.eq_def]
        simp only [Run.result_bind]
        cases he : (estimateLines s (deepLists k : Json F)).result with
        | error e =>
          have : ∀ s (v : Json F) e, (estimateLines s v).result = .error e → e = .overflow := by
            intro s v e h
            have hm : ∀ n, LeStop (estimateLines s v) (estimateLines (s + n) v) := by
              intro n
              induction n with
              | zero => exact .refl _
              | succ n ih => exact ih.trans (estimateLines_more _ _)
            rcases hm (height v + 1) with h' | h'
            · rw [h] at h'; exact Except.error.inj h'
            · obtain ⟨n, hn⟩ := estimateLines_ok (s + (height v + 1)) v (by omega)
              rw [← h', h] at hn
              cases hn
          rw [this _ _ _ he]
        | ok n =>
          cases k with
          | zero =>
            obtain rfl : s = 0 := by omega
            rw [estimateLines] at he
            cases he
          | succ k =>
            simp only [deepLists]
            rw [list_overflow opts (deepPair_overflow opts k) (by omega)]

/-! ## Copies -/

omit [F64 F] in
theorem overEach_is {α β : Type} {f : α → β → Run β} {x : α} {xs : List α} {out o r : β} {n k : Nat}
    (h1 : (f x out).Is n o) (h2 : (overEach f xs o).Is k r) : (overEach f (x :: xs) out).Is (n + k) r := by
  rw [overEach]
  exact h1.bind h2

omit [F64 F] in
theorem overEach_is_last {α β : Type} {f : α → β → Run β} {x : α} {out o : β} {n : Nat}
    (h1 : (f x out).Is n o) : (overEach f [x] out).Is n o :=
  overEach_is (k := 0) h1 (Run.Is.pure o)

omit [F64 F] opts in
theorem Run.Is.of_eq {α : Type} {x : Run α} {n k : Nat} {a : α} (h : x.Is n a) (e : n = k) : x.Is k a := e ▸ h

theorem list_copies {w : Json F} {n s : Nat} (hw : ∀ siblings rlk pp fd key depth out,
      ∃ r, (runPair opts s siblings rlk pp fd key w depth out).Is n r)
    (a b : Str) (p q : Prim F) (key : Option Str) (depth : Nat) (out : List OutLine) :
    ∃ r, (runArray opts (s + 5) key [.obj [(a, .prim p), (b, w)], .prim q] depth out).Is (nodes w + 1 + n) r := by
  rw [runArray]
  simp only [List.isEmpty_cons, isArrayOfPrims, arraysOfPrims, isArrayOfArrays, isArrayOfObjs, List.all_cons, Json.isPrim, Json.isArr,
    Json.isObj, Bool.false_and, Bool.and_false, Bool.false_eq_true, if_false, runMixed]
  obtain ⟨r, hr⟩ := hw [b] (rootLiterals (depth + 1 + 1) none [b]) none ((none : Option Nat).getD opts.flattenDepth) b (depth + 1 + 1)
    (out ++ [⟨depth, formatHeader 2 key none opts.delim⟩] ++
      [⟨depth + 1, dash (encodeKey a ++ ':' :: ' ' :: encodePrimitive p opts.delim)⟩])
  have h1 : (runItem opts (s + 3) (.obj [(a, .prim p), (b, w)]) (depth + 1)
      (out ++ [⟨depth, formatHeader 2 key none opts.delim⟩])).Is (nodes w + 1 + n) r := by
    rw [runItem, runObjectItem]
    refine (Run.Is.tick (k := n) ?_).of_eq (by simp only [nodes, nodesEntries]; omega)
    refine (Run.Is.bind (Run.Is.pure _) ?_).of_eq (Nat.zero_add _)
    simp only [List.isEmpty_cons, Bool.false_eq_true, if_false]
    rw [runObject]
    exact overEach_is_last hr
  have h2 : (runItem opts (s + 3) (.prim q) (depth + 1) r).Is 0 (r ++ [⟨depth + 1, dash (encodePrimitive q opts.delim)⟩]) := by
    rw [runItem]
    exact Run.Is.pure _
  exact ⟨_, (overEach_is (f := fun v out => runItem opts (s + 3) v (depth + 1) out) h1 (overEach_is_last h2)).of_eq (Nat.add_zero _)⟩

theorem runObject_one {s n depth : Nat} {k : Str} {v : Json F} {rlk : Option (List Str)} {pp : Option Str} {rem : Option Nat}
    {out r : List OutLine} (h : (runPair opts s [k] (rootLiterals depth rlk [k]) pp (rem.getD opts.flattenDepth) k v depth out).Is n r) :
    (runObject opts (s + 1) [(k, v)] depth rlk pp rem out).Is n r := by
  rw [runObject]
  refine overEach_is_last ?_
  exact h

theorem primPair_copies (s : Nat) (siblings : List Str) (rlk : Option (List Str)) (pp : Option Str) (fd : Nat) (key : Str) (p : Prim F)
    (depth : Nat) (out : List OutLine) :
    (runPair opts (s + 1) siblings rlk pp fd key (.prim p) depth out).Is 0
      (out ++ [⟨depth, encodeKey key ++ ':' :: ' ' :: encodePrimitive p opts.delim⟩]) := by
  have h1 : tryFold (F := F) key (.prim p) siblings opts rlk pp fd = none := by simp [tryFold, Json.isObj]
  have h0 : foldCopies (F := F) opts (.prim p) fd = 0 := by simp [foldCopies, Json.isObj]
  rw [runPair.eq_def]
  simp only [h1, h0]
  exact ⟨rfl, rfl⟩

theorem deepPair_copies (k s : Nat) (siblings : List Str) (rlk : Option (List Str)) (pp : Option Str) (fd : Nat) (key : Str)
    (depth : Nat) (out : List OutLine) :
    ∃ r, (runPair (F := F) opts (s + 6 * k + 1) siblings rlk pp fd key (deepLists k) depth out).Is (2 * (k * k)) r := by
  induction k generalizing siblings rlk pp fd key depth out with
  | zero =>
    exact ⟨_, primPair_copies opts _ _ _ _ _ _ _ _ _⟩
  | succ k ih =>
    rw [runPair.eq_def]
    simp only [deepLists, tryFold_arr]
    have h0 : ∀ items, foldCopies (F := F) opts (.arr items) fd = 0 := by intro items; simp [foldCopies, Json.isObj]
    rw [h0]
    obtain ⟨r, hr⟩ := list_copies opts (w := deepLists k) (n := 2 * (k * k)) (s := s + 6 * k + 1)
      (fun _ _ _ _ _ _ _ => ih _ _ _ _ _ _ _) ['a'] ['b'] .null .null (some key) depth out
    refine ⟨r, (Run.Is.tick hr).of_eq ?_⟩
    rw [deepLists_nodes]
    simp only [Nat.add_mul, Nat.mul_add]
    omega

theorem blockedPair_copies (hf : opts.fold = true) (n s : Nat) (siblings : List Str) (rlk : Option (List Str)) (pp : Option Str) (fd : Nat)
    (hfd : n + 2 ≤ fd) (key : Str) (depth : Nat) (out : List OutLine) :
    ∃ t r, (runPair (F := F) opts (s + 2 * n + 3) siblings rlk pp fd key (nested (List.replicate n ['a'] ++ [['-']]) (.prim .null)) depth out).Is t r ∧
      6 * (t + 1) = (n + 2) * (n + 3) * (n + 4) := by
  have hb : ∀ n, ∃ t ∈ List.replicate n ['a'] ++ [['-']], isIdentifierSegment t = false := fun n => ⟨['-'], by simp, by decide⟩
  induction n generalizing siblings rlk pp key depth out with
  | zero =>
    have hc := nested_foldCopies (F := F) hf ['-'] [] .null fd hfd
    have ht := tryFold_blocked (opts := opts) key (List.replicate 0 ['a'] ++ [['-']]) (.null : Prim F) siblings rlk pp fd (by simpa using hfd) (hb 0)
    rw [runPair.eq_def]
    simp only [ht]
    simp only [List.replicate_zero, List.nil_append, nested] at hc ⊢
    refine ⟨foldCopies opts (.obj [(['-'], .prim .null)]) fd + 0, _, Run.Is.tick (runObject_one opts (primPair_copies opts _ _ _ _ _ _ _ _ _)), ?_⟩
    · simp only [List.length_nil] at hc
      omega
  | succ n ih =>
    have hc := nested_foldCopies (F := F) hf ['a'] (List.replicate n ['a'] ++ [['-']]) .null fd (by simp; omega)
    have ht := tryFold_blocked (opts := opts) key (List.replicate (n + 1) ['a'] ++ [['-']]) (.null : Prim F) siblings rlk pp fd (by simp; omega) (hb _)
    rw [runPair.eq_def]
    simp only [ht]
    simp only [List.replicate_succ, List.cons_append, nested] at hc ⊢
    obtain ⟨t, r, h1, h2⟩ := ih [['a']] (rootLiterals (depth + 1) rlk [['a']]) (some (extendPath pp key)) (by omega) ['a'] (depth + 1)
      (out ++ [⟨depth, encodeKey key ++ [':']⟩])
    refine ⟨foldCopies opts (.obj [(['a'], nested (List.replicate n ['a'] ++ [['-']]) (.prim .null))]) fd + t, r, Run.Is.tick ?_, ?_⟩
    · simp only [List.isEmpty_cons, Bool.false_eq_true, if_false, runObject]
      refine overEach_is_last ?_
      exact h1
    · simp only [List.length_append, List.length_replicate, List.length_cons, List.length_nil, Nat.zero_add] at hc
      have e : (n + 1 + 2) * (n + 1 + 3) * (n + 1 + 4) = (n + 2) * (n + 3) * (n + 4) + 3 * ((n + 3) * (n + 4)) := by
        rw [show n + 1 + 2 = n + 3 by omega, show n + 1 + 3 = n + 4 by omega, show n + 1 + 4 = (n + 2) + 3 by omega,
          Nat.mul_add, Nat.mul_comm _ 3, Nat.mul_assoc (n + 2), Nat.mul_comm (n + 2)]
      rw [e, ← h2, show n + 3 = n + 1 + 2 by omega, show n + 4 = n + 1 + 3 by omega, ← hc]
      omega

/-! ## From the start -/

/-- What the run does after normalization and the estimate. -/
def runRoot (stack : Nat) : Json F → Run (List OutLine)
  | .prim p => pure (if (encodePrimitive p opts.delim).isEmpty then [] else [⟨0, encodePrimitive p opts.delim⟩])
  | .arr items => runArray opts stack none items 0 []
  | .obj entries => runObject opts stack entries 0 none none none []

theorem runEncodeLines_root {stack s n : Nat} {v : Json F} {r : List OutLine} (hst : stack = s + 2) (hs : height v < s)
    (h : (runRoot opts s (normalize v)).Is n r) : (runEncodeLines opts stack v).Is n (r.map (renderLine opts.indent)) := by
  subst hst
  have h1 : (runNormalize (s + 1) v).Is 0 (normalize v) := ⟨runNormalize_free _ _, runNormalize_ok _ _ (by omega)⟩
  obtain ⟨e, he⟩ := estimateLines_ok s (normalize v) (by rw [height_normalize]; exact hs)
  have h2 : (estimateLines s (normalize v)).Is 0 e := ⟨estimateLines_copies _ _, he⟩
  rw [runEncodeLines]
  refine (h1.bind ?_).of_eq (Nat.zero_add n)
  refine (Run.Is.bind (n := n) (k := 0) (a := r) (f := fun out => pure (out.map (renderLine opts.indent))) ?_ (Run.Is.pure _)).of_eq (Nat.add_zero n)
  rw [runValue.eq_def]
  refine (h2.bind ?_).of_eq (Nat.zero_add n)
  cases hv : normalize v with
  | prim p => rw [hv] at h; exact h
  | arr items => rw [hv] at h; exact h
  | obj es => rw [hv] at h; exact h

theorem deepLists_copies (k s : Nat) : ∃ r, (runEncodeLines (F := F) opts (s + 6 * k + 3) (deepLists k)).Is (2 * (k * k)) r := by
  cases k with
  | zero =>
    refine ⟨_, runEncodeLines_root opts (s := s + 1) (n := 0) (v := (deepLists 0 : Json F))
      (r := if (encodePrimitive (.null : Prim F) opts.delim).isEmpty then [] else [⟨0, encodePrimitive (.null : Prim F) opts.delim⟩]) rfl ?_ ?_⟩
    · rw [deepLists, height]; omega
    · rw [normalize_deepLists]; exact Run.Is.pure _
  | succ k =>
    obtain ⟨r, hr⟩ := list_copies opts (w := (deepLists k : Json F)) (n := 2 * (k * k)) (s := (s + 1) + 6 * k + 1)
      (fun _ _ _ _ _ _ _ => deepPair_copies opts k _ _ _ _ _ _ _ _) ['a'] ['b'] .null .null none 0 []
    refine ⟨_, (runEncodeLines_root (v := (deepLists (k + 1) : Json F)) opts (s := (s + 1) + 6 * k + 1 + 5) (by omega) (n := nodes (deepLists k : Json F) + 1 + 2 * (k * k)) (r := r) ?_ ?_).of_eq ?_⟩
    · rw [deepLists_height]; omega
    · rw [normalize_deepLists]; exact hr
    · rw [deepLists_nodes]
      simp only [Nat.add_mul, Nat.mul_add]
      omega

theorem blockedChain_copies (hf : opts.fold = true) (n : Nat) (hfd : n + 2 ≤ opts.flattenDepth) (s : Nat) :
    ∃ t r, (runEncodeLines (F := F) opts (s + 3 * n + 8) (blockedChain n)).Is t r ∧ 6 * (t + 1) = (n + 2) * (n + 3) * (n + 4) := by
  obtain ⟨t, r, h1, h2⟩ := blockedPair_copies (F := F) opts hf n (s + n + 2) [['a']] (rootLiterals 0 none [['a']]) none opts.flattenDepth hfd ['a'] 0 []
  refine ⟨t, _, runEncodeLines_root (v := (blockedChain n : Json F)) opts (s := s + n + 2 + 2 * n + 3 + 1) (by omega) (r := r) ?_ ?_, h2⟩
  · rw [blockedChain, nested_height]
    simp only [List.length_append, List.length_replicate, List.length_cons, List.length_nil, height]
    omega
  · rw [blockedChain, normalize_nested]
    simp only [List.replicate_succ, List.cons_append, nested, normalize, normPrim]
    exact runObject_one opts h1

theorem keyChain_copies (hf : opts.fold = true) (n : Nat) (hfd : n + 2 ≤ opts.flattenDepth) (s : Nat) :
    ∃ t, (runEncodeLines (F := F) opts (s + 3 * n + 8) (keyChain (n + 1))).Is t
      [joinWith '.' (List.replicate (n + 2) ['a']) ++ ": null".toList] ∧ 2 * t = (n + 2) * (n + 3) := by
  have hc := nested_foldCopies (F := F) hf ['a'] (List.replicate n ['a']) .null opts.flattenDepth (by simpa using hfd)
  have hdot : ∀ (n : Nat) (ss : List Str), ss = [['a']] → joinWith '.' (['a'] :: ['a'] :: List.replicate n ['a']) ∉ ss := by
    rintro n ss rfl h
    have := congrArg List.length (List.mem_singleton.mp h)
    simp [joinWith] at this
  have hid : ∀ x ∈ ['a'] :: ['a'] :: List.replicate n ['a'], isIdentifierSegment x = true := by
    intro x hx
    have : x = ['a'] := by
      rcases List.mem_cons.mp hx with h | h
      · exact h
      · rcases List.mem_cons.mp h with h | h
        · exact h
        · exact List.eq_of_mem_replicate h
    subst this
    decide
  have ht := tryFold_nested (F := F) hf ['a'] ['a'] (List.replicate n ['a']) (.prim .null) (by intro k w h; cases h)
    hid
    [['a']] (rootLiterals 0 none [['a']]) none opts.flattenDepth (by simpa using hfd) (hdot n _ rfl)
    (by intro ks hks; simp [rootLiterals] at hks; subst hks; simp)
  have h1 : (runPair (F := F) opts (s + 3 * n + 5) [['a']] (rootLiterals 0 none [['a']]) none opts.flattenDepth ['a']
      (nested (List.replicate (n + 1) ['a']) (.prim .null)) 0 []).Is (foldCopies (F := F) opts (nested (List.replicate (n + 1) ['a']) (.prim .null)) opts.flattenDepth + 0)
      [⟨0, joinWith '.' (List.replicate (n + 2) ['a']) ++ ": null".toList⟩] := by
    rw [runPair.eq_def]
    simp only [List.replicate_succ (n := n)]
    rw [ht]
    refine Run.Is.tick ?_
    have hk : encodeKey (joinWith '.' (['a'] :: ['a'] :: List.replicate n ['a'])) = joinWith '.' (['a'] :: ['a'] :: List.replicate n ['a']) :=
      encodeKey_valid (joined_valid (by simp) hid)
    simp only [hk, List.replicate_succ (n := n + 1), List.replicate_succ (n := n)]
    exact Run.Is.pure _
  refine ⟨_, (runEncodeLines_root (v := (keyChain (n + 1) : Json F)) opts (s := s + 3 * n + 6) (by omega)
    (n := foldCopies (F := F) opts (nested (List.replicate (n + 1) ['a']) (.prim .null)) opts.flattenDepth + 0)
    (r := [⟨0, joinWith '.' (List.replicate (n + 2) ['a']) ++ ": null".toList⟩]) ?_ ?_), ?_⟩
  · rw [keyChain, nested_height]
    simp only [List.length_replicate, height]
    omega
  · rw [keyChain, normalize_nested, List.replicate_succ]
    simp only [nested, normalize, normPrim]
    exact runObject_one opts h1
  · simp only [List.length_replicate] at hc
    rw [List.replicate_succ, Nat.add_zero]
    exact hc

/-- What is copied does not depend on the stack. -/
theorem same_copies {stack more : Nat} {v : Json F} (h : max (3 * height v + 2) 3 ≤ stack) :
    (runEncodeLines opts stack v).steps = (runEncodeLines opts (stack + more) v).steps := by
  rcases runEncodeLines_more opts stack more v with h1 | h1
  · rw [runEncodeLines_ok opts stack v h] at h1
    cases h1
  · rw [h1]

end

end Toon
