import Verif.Lemmas.ReplacerCost
import Verif.Lemmas.CopiesExact
import Verif.Props.RangeExpand
import Verif.Props.Replacer

/-!
# C101: what the conversions and a replacer take

`Model/ConvFrames.lean` has the conversions between the representations of a value (normalizing it, from and to the host's JSON type, the
decoded tree to a value, a value to events) and the replacer with a call stack that can overflow.  `wayDown per v` is the longest way
down into `v`, with `per` for each array or object on it and one for a primitive at its end; `nodes v` is the number of values in `v`, and
`placesOf 0 v` says for each of them how many arrays and objects it is in.
-/

namespace Toon

section
variable {F : Type} [F64 F]

/-- C101.  Each of the conversions makes one call for every value in the value, nested as deep as the value.  Exactly the stacks
with fewer calls than there are values on the longest way down overflow. -/
theorem C101_conversions (v : Json F) (stack : Nat) :
    (wayDown 1 v ≤ stack →
      visitNormalize 1 stack v = ⟨nodes v, .ok (normalize v)⟩ ∧
      runFromHost stack v = ⟨nodes v, .ok (fromHost v)⟩ ∧
      runToHost stack v = ⟨nodes v, .ok (toHost v)⟩ ∧
      runEmit stack v [] = ⟨nodes v, .ok (emitEvents v)⟩ ∧
      ∀ n, nodeToJson n = v → runNodeToJson stack n = ⟨nodes v, .ok v⟩) ∧
    (stack < wayDown 1 v →
      (visitNormalize 1 stack v).result = .error .overflow ∧
      (runFromHost stack v).result = .error .overflow ∧
      (runToHost stack v).result = .error .overflow ∧
      (runEmit stack v []).result = .error .overflow ∧
      ∀ n, nodeToJson n = v → (runNodeToJson stack n).result = .error .overflow) := by
  have is : ∀ {α : Type} {x : Run α} {n : Nat} {a : α}, x.Is n a → x = ⟨n, .ok a⟩ := by
    rintro α ⟨k, a'⟩ n a ⟨h1, h2⟩
    simp only at h1 h2
    rw [h1, h2]
  have h1 := visitNormalize_within 1 stack v
  rw [Nat.one_mul] at h1
  have h2 := runFromHost_within stack v
  have h3 := runToHost_within stack v
  have h4 := runEmit_within stack v []
  rw [List.nil_append] at h4
  constructor
  · intro h
    refine ⟨is (h1.1 h), is (h2.1 h), is (h3.1 h), is (h4.1 h), ?_⟩
    rintro n rfl
    exact is ((runNodeToJson_within stack n).1 h)
  · intro h
    have h : ¬ wayDown 1 v ≤ stack := by omega
    refine ⟨h1.2 h, h2.2 h, h3.2 h, h4.2 h, ?_⟩
    rintro n rfl
    exact (runNodeToJson_within stack n).2 h

omit [F64 F] in
/-- C101.  The longest way down is the number of levels of nesting, or one more. -/
theorem C101_way (per : Nat) (hp : 0 < per) (v : Json F) : per * height v ≤ wayDown per v ∧ wayDown per v ≤ per * height v + 1 :=
  ⟨height_le_wayDown per v, wayDown_le_height per hp v⟩

/-- C101.  A value that was decoded with path expansion is converted in a stack of 16133 calls, however deep the text makes it. -/
theorem C101_expanded [LawfulF64 F] (opts : DecOpts) (hx : opts.expand = true) (text : Str) (v : Json F) (hd : decode opts text = .ok v) :
    wayDown 1 v ≤ 16133 := by
  have h1 := wayDown_le_height 1 (by omega) v
  obtain ⟨_, _, _, h⟩ := C29_cap opts hx text v hd
  omega

/-- C101.  There is a text for which fewer than 16132 calls overflow. -/
theorem C101_expanded_needed [LawfulF64 F] (indent : Nat) (hi : 0 < indent) : ∃ (text : Str) (v : Json F),
    (∀ strict, decode { indent := indent, strict := strict, expand := true } text = .ok v) ∧ 16132 ≤ wayDown 1 v := by
  obtain ⟨text, v, h1, h2⟩ := C100_deepest (F := F) indent hi
  refine ⟨text, v, h2, ?_⟩
  have := height_le_wayDown 1 v
  omega

/-! ## The replacer -/

variable {S : Type} (prices : Prices) (r : Replacer S F)

/-- C101.  Whatever the replacer does: the transformation ends with a result for some stack if and only if it ends, then with the same
result; and every stack from some size on is large enough. -/
theorem C101_ends (root : Json F) (s : S) (x : Json F × S) :
    ((∃ stack, (runReplacer prices r stack root s).result = .ok x) ↔ ∃ fuel, applyReplacer r fuel root s = some x) ∧
    ((∃ fuel, applyReplacer r fuel root s = some x) → ∃ enough, ∀ stack, enough ≤ stack → (runReplacer prices r stack root s).result = .ok x) := by
  refine ⟨⟨fun ⟨stack, h⟩ => ⟨stack, runReplacer_same prices r stack root s x h⟩, fun ⟨fuel, h⟩ => ?_⟩, fun ⟨fuel, h⟩ =>
    runReplacer_enough prices r fuel root s x h⟩
  obtain ⟨n, hn⟩ := runReplacer_enough prices r fuel root s x h
  exact ⟨n, hn n (Nat.le_refl _)⟩

/-- C101.  A stack that is too small is never noticed as anything else. -/
theorem C101_overflow_or_same (root : Json F) (s : S) (stack : Nat) :
    (runReplacer prices r stack root s).result = .error .overflow ∨
      ∃ x, (runReplacer prices r stack root s).result = .ok x ∧ applyReplacer r stack root s = some x := by
  rcases runReplacer_sound prices r stack root s with h | ⟨x, h⟩
  · exact Or.inl h
  · exact Or.inr ⟨x, h, runReplacer_same prices r stack root s x h⟩

/-- C101.  If every reply is a non-empty container, every stack overflows. -/
theorem C101_wrap (hr : ∀ k v p s, ∃ w s', r k v p s = (some w, s') ∧ HasParts w) (root : Json F) (s : S) (stack : Nat) :
    (runReplacer prices r stack root s).result = .error .overflow := by
  rcases C101_overflow_or_same prices r root s stack with h | ⟨x, _, h⟩
  · exact h
  · obtain ⟨w, s1, he, hw⟩ := hr [] root [] s
    rw [applyReplacer] at h
    simp only [he, transformChildren_none r hr stack [] _ s1 (hasParts_normalize hw)] at h
    cases h

/-- C101.  If no reply is nested deeper than the value it replaces, encoding with the replacer needs no more stack than C77 says
encoding needs without, and then the lines are those of the model. -/
theorem C101_stack (hr : ∀ k v p s w s', r k v p s = (some w, s') → height w ≤ height v) (opts : EncOpts) (v : Json F) (s : S)
    (stack : Nat) (h : max (3 * height v + 2) 3 ≤ stack) :
    ∃ x fuel, (runEncodeLinesWith prices r opts stack v s).result = .ok x ∧ encodeLinesWith opts r fuel v s = some x := by
  match stack, h with
  | 0, h => omega
  | n + 1, h =>
    have hd := wayDown_le_height 1 (by omega) v
    obtain ⟨x, h1, h2⟩ := runReplacer_shallow prices r hr n (normalize v) s (by rw [height_normalize]; omega)
    rw [height_normalize] at h2
    refine ⟨(encodeJsonValue opts x.1, x.2), n, ?_, ?_⟩
    · rw [runEncodeLinesWith]
      simp only [Run.result_bind, visitNormalize_ok (show wayDown 1 v ≤ n by omega), h1]
      rw [runValue_ok opts n x.1 (by omega)]
      rfl
    · rw [encodeLinesWith, runReplacer_same prices r n (normalize v) s x h1]

/-- C101.  The replacer that keeps every value is called once for every value; the values that are normalized are, for every value, that
value once for every level it is at (the outermost is level one), and the paths that are put together have as many segments as the
values are levels below the top.  Two calls for every array and object on the longest way down are nested, and two more: exactly the
stacks with fewer overflow. -/
theorem C101_keep [LawfulF64 F] (hr : ∀ k v p s, r k v p s = (some v, s)) (root : Json F) (hn : PlainNumbers root) (s : S) (stack : Nat) :
    (wayDown 2 root + 1 ≤ stack → runReplacer prices r stack root s =
      ⟨prices.call * nodes root + prices.segment * (placesOf 0 root).sum + prices.visit * ((placesOf 0 root).map (· + 1)).sum, .ok (root, s)⟩) ∧
    (stack < wayDown 2 root + 1 → (runReplacer prices r stack root s).result = .error .overflow) := by
  have hv : Normal root := (normal_iff root).mpr hn
  have h := runReplacer_keep prices hr stack root s hv
  refine ⟨fun hs => ?_, fun hs => h.2 (by omega)⟩
  obtain ⟨h1, h2⟩ := h.1 hs
  rw [← h1, ← h2]

/-- C101.  If no reply is nested deeper or has more values in it than the value it replaces, the replacer is called at most once for every
value; at most the values times the levels are normalized or copied, and paths with at most as many segments put together. -/
theorem C101_bounds (hr : ∀ k v p s w s', r k v p s = (some w, s') → nodes w ≤ nodes v ∧ height w ≤ height v) (root : Json F) (s : S)
    (stack : Nat) :
    (runReplacer ⟨1, 0, 0⟩ r stack root s).steps ≤ nodes root ∧
    (runReplacer ⟨0, 1, 0⟩ r stack root s).steps ≤ nodes root * (height root + 1) ∧
    (runReplacer ⟨0, 0, 1⟩ r stack root s).steps ≤ nodes root * height root := by
  refine ⟨?_, ?_, ?_⟩
  · simpa using runReplacer_steps ⟨1, 0, 0⟩ hr stack root s
  · simpa using runReplacer_steps ⟨0, 1, 0⟩ hr stack root s
  · simpa using runReplacer_steps ⟨0, 0, 1⟩ hr stack root s

omit [F64 F] in
theorem chain_places (d : Nat) (p : Prim F) (k : Nat) :
    nodes (nested (List.replicate k ['a']) (.prim p)) = k + 1 ∧
      2 * (placesOf d (nested (List.replicate k ['a']) (.prim p))).sum = (k + 1) * (2 * d + k) := by
  induction k generalizing d with
  | zero => simp [nested, nodes, placesOf]
  | succ k ih =>
    obtain ⟨h1, h2⟩ := ih (d + 1)
    rw [List.replicate_succ, nested]
    constructor
    · simp only [nodes, nodesEntries, h1]; omega
    · simp only [placesOf, placesEntries, List.append_nil, List.sum_cons, Nat.mul_add 2, h2]
      simp only [Nat.add_mul, Nat.mul_add, Nat.one_mul, Nat.mul_one]
      omega

/-- C101.  That order is reached: in a chain of `n + 1` objects with one key each, `(n + 2)·(n + 3)/2` values are normalized for a replacer
that changes nothing, and paths with `(n + 1)·(n + 2)/2` segments put together, for `n + 2` calls. -/
theorem C101_quadratic [LawfulF64 F] (hr : ∀ k v p s, r k v p s = (some v, s)) (n : Nat) (s : S) :
    ∃ enough, ∀ stack, enough ≤ stack →
      (runReplacer ⟨1, 0, 0⟩ r stack (keyChain n) s).steps = n + 2 ∧
      2 * (runReplacer ⟨0, 1, 0⟩ r stack (keyChain n) s).steps = (n + 2) * (n + 3) ∧
      2 * (runReplacer ⟨0, 0, 1⟩ r stack (keyChain n) s).steps = (n + 1) * (n + 2) := by
  have hp : ∀ k, Normal (nested (List.replicate k ['a']) (.prim .null) : Json F) := by
    intro k
    induction k with
    | zero => rw [List.replicate_zero, nested, Normal]; rfl
    | succ k ih => rw [List.replicate_succ, nested, Normal, NormalEntries, NormalEntries]; exact ⟨ih, trivial⟩
  have hplain : PlainNumbers (keyChain n : Json F) := (normal_iff _).mp (hp _)
  obtain ⟨h1, h2⟩ := chain_places (F := F) 0 .null (n + 1)
  have h3 := sum_succ (placesOf 0 (keyChain n : Json F))
  rw [placesOf_length] at h3
  refine ⟨wayDown 2 (keyChain n : Json F) + 1, fun stack hs => ?_⟩
  rw [((C101_keep ⟨1, 0, 0⟩ r hr (keyChain n) hplain s stack).1 hs), ((C101_keep ⟨0, 1, 0⟩ r hr (keyChain n) hplain s stack).1 hs),
    ((C101_keep ⟨0, 0, 1⟩ r hr (keyChain n) hplain s stack).1 hs)]
  simp only [keyChain] at h3 ⊢
  simp only [h3, h1, Nat.one_mul, Nat.zero_mul, Nat.add_zero, Nat.zero_add, Nat.mul_add 2, h2, true_and]
  constructor
  · simp only [Nat.add_mul, Nat.mul_add]; omega
  · simp only [Nat.add_mul, Nat.mul_add]; omega

end

/-! ## The hypotheses are met -/

section examples

/-- `{"a":[true,{"b":null}]}`: two objects and an array on the way down to `null`. -/
private def doc101 : Json B64 := .obj [(['a'], .arr [.prim (.bool true), .obj [(['b'], .prim .null)]])]

private def keepAll : Replacer Unit B64 := fun _ v _ s => (some v, s)

/-- `C101_conversions`, both cases. -/
example : wayDown 1 doc101 = 4 ∧ nodes doc101 = 5 ∧ height doc101 = 3 := by decide +kernel
example : (runToHost 4 doc101).result = .ok (toHost doc101) ∧ (runToHost 3 doc101).result = .error .overflow :=
  ⟨by rw [((C101_conversions doc101 4).1 (by decide +kernel)).2.2.1], ((C101_conversions doc101 3).2 (by decide +kernel)).2.2.1⟩

/-- `C101_keep`: the places are 0, 1, 2, 2 and 3. -/
example : placesOf 0 doc101 = [0, 1, 2, 2, 3] ∧ wayDown 2 doc101 + 1 = 8 := by decide +kernel
example : runReplacer ⟨1, 100, 10000⟩ keepAll 8 doc101 () = ⟨5 + 10000 * 8 + 100 * 13, .ok (doc101, ())⟩ :=
  (C101_keep ⟨1, 100, 10000⟩ keepAll (fun _ _ _ _ => rfl) doc101 ((normal_iff _).mp (by
    simp [doc101, Normal, NormalItems, NormalEntries, normPrim])) () 8).1 (by decide +kernel)

/-- `C101_stack` and `C101_bounds`: a replacer that drops, keeps and masks. -/
private def mask101 : Replacer Nat B64 := fun k v _ n => (if k = ['b'] then some (.prim (.str ['*'])) else if k = ['c'] then none else some v, n + 1)

example : ∀ k v p s w s', mask101 k v p s = (some w, s') → nodes w ≤ nodes v ∧ height w ≤ height v := by
  intro k v p s w s' h
  simp only [mask101] at h
  split at h
  · simp at h
    rw [← h.1]
    exact ⟨nodes_pos v, Nat.zero_le _⟩
  · split at h <;> simp at h
    rw [h.1]
    exact ⟨Nat.le_refl _, Nat.le_refl _⟩

/-- `C101_wrap`. -/
example : ∀ k (v : Json B64) p (s : Unit), ∃ w s',
    (fun _ v _ s => (some (.arr [v]), s) : Replacer Unit B64) k v p s = (some w, s') ∧ HasParts w :=
  fun _ v _ s => ⟨.arr [v], s, rfl, by simp [HasParts]⟩

end examples

end Toon
