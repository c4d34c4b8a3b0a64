import Verif.Lemmas.ExpandFramesMono
import Verif.Lemmas.CopiesExact
import Verif.Lemmas.ResourcesTable
import Verif.Lemmas.GrammarHeader
import Verif.Lemmas.Build
import Verif.Lemmas.Dec

/-! A text for which path expansion copies quadratically many values (C79). -/

namespace Toon

/-- The key `a` with an array of `n` elements below it, and then `n` times the key `a` with nothing below it. -/
def mergedText (n : Nat) : Str :=
  joinWith '\n' ("a:".toList :: ("  b[".toList ++ natDigits n ++ "]: ".toList ++ joinWith ',' (List.replicate n "true".toList)) ::
    List.replicate n "a:".toList)

section
variable {F : Type}

/-- The tree of the text. -/
def mergedTree (n : Nat) : ETree F :=
  .obj ((['a'], false, .obj [(['b'], false, .arr n ((List.replicate n (.bool true)).map .prim))]) ::
    List.replicate n (['a'], false, .obj []))

theorem mergedText_length (n : Nat) : (mergedText n).length ≤ 9 * n + 16 := by
  have h1 := joinWith_length (d := '\n') (names := "a:".toList :: ("  b[".toList ++ natDigits n ++ "]: ".toList ++
    joinWith ',' (List.replicate n "true".toList)) :: List.replicate n "a:".toList) (by simp)
  have h2 : (joinWith ',' (List.replicate n "true".toList)).length ≤ 5 * n := by
    cases n with
    | zero => simp [joinWith]
    | succ n =>
      have := joinWith_length (d := ',') (names := List.replicate (n + 1) "true".toList) (by simp)
      rw [sourceLength_replicate] at this
      have e : "true".toList.length = 4 := by decide
      rw [e] at this
      omega
  have h3 := natDigits_length_le n
  have h4 := sourceLength_replicate n "a:".toList
  unfold mergedText
  simp only [sourceLength, List.map_cons, List.sum_cons, List.length_append] at h1 h4 ⊢
  have e1 : "  b[".toList.length = 4 := by decide
  have e2 : "]: ".toList.length = 3 := by decide
  have e3 : "a:".toList.length = 2 := by decide
  rw [e3] at h4
  omega

theorem trues_mem {n : Nat} {c : Char} (h : c ∈ joinWith ',' (List.replicate n "true".toList)) : c = ',' ∨ c ∈ "true".toList := by
  rcases joinWith_mem h with e | ⟨w, hw, hm⟩
  · exact .inl e
  · rw [List.eq_of_mem_replicate hw] at hm
    exact .inr hm

theorem mergedText_lines (n : Nat) : splitOn '\n' (mergedText n) =
    "a:".toList :: ("  b[".toList ++ natDigits n ++ "]: ".toList ++ joinWith ',' (List.replicate n "true".toList)) ::
      List.replicate n "a:".toList := by
  unfold mergedText
  refine splitOn_joinWith (by simp) ?_
  intro w hw
  rcases List.mem_cons.mp hw with rfl | hw
  · decide
  · rcases List.mem_cons.mp hw with rfl | hw
    · simp only [List.mem_append, not_or]
      refine ⟨⟨⟨by decide, not_mem_natDigits (by decide)⟩, by decide⟩, ?_⟩
      intro hm
      rcases trues_mem hm with e | e
      · exact absurd e (by decide)
      · exact absurd e (by decide)
    · rw [List.eq_of_mem_replicate hw]; decide

variable [F64 F]

/-- The line of the array. -/
def mergedHeader (n : Nat) : Str := "b[".toList ++ natDigits n ++ "]: ".toList ++ joinWith ',' (List.replicate n "true".toList)

theorem trues_trim {n : Nat} (hn : 0 < n) : trim (' ' :: joinWith ',' (List.replicate n "true".toList)) = joinWith ',' (List.replicate n "true".toList) := by
  have hns : ∀ c ∈ joinWith ',' (List.replicate n "true".toList), isWs c = false := by
    intro c hc
    rcases trues_mem hc with e | e
    · rw [e]; decide
    · have : ∀ c ∈ "true".toList, isWs c = false := by decide
      exact this c e
  have h := trim_eq_self (s := joinWith ',' (List.replicate n "true".toList))
    ⟨fun c hc => hns c (List.mem_of_mem_head? hc), fun c hc => hns c (List.mem_of_getLast? hc)⟩
  unfold trim at h ⊢
  rw [show trimStart (' ' :: joinWith ',' (List.replicate n "true".toList)) = trimStart (joinWith ',' (List.replicate n "true".toList)) from by
    simp [trimStart, show isWs ' ' = true from by decide]]
  exact h

theorem mergedHeader_means {n : Nat} (h0 : 0 < n) (hn : n ≤ 100000000) :
    HeaderMeans (mergedHeader n) ⟨some ['b'], false, n, ',', none, some (joinWith ',' (List.replicate n "true".toList))⟩ := by
  refine ⟨['b'], natDigits n, none, ' ' :: joinWith ',' (List.replicate n "true".toList),
    ⟨':' :: ' ' :: joinWith ',' (List.replicate n "true".toList), ?_, ?_, ?_⟩, ?_, ?_, hn, .none, ?_⟩
  · have : mergedHeader n = ['b'] ++ '[' :: (natDigits n ++ ']' :: (':' :: ' ' :: joinWith ',' (List.replicate n "true".toList))) := by
      simp [mergedHeader]
    rw [this]
    refine .bare ?_ (by decide)
    rintro ⟨ws, rest, hw, e⟩
    cases ws with
    | nil => simp at e
    | cons w ws =>
      simp only [List.cons_append, List.nil_append, List.cons.injEq] at e
      have := hw w (by simp)
      rw [← e.1] at this
      exact absurd this (by decide)
  · exact not_mem_natDigits (by decide)
  · exact AfterBracket.plain (u := []) (by simp) (by simp)
  · have : HeaderKey ['b'] (some (trim ['b'])) false := .bare (by decide) (by decide)
    exact this
  · refine ⟨[], natDigits n, [], by simp, .inl rfl, ⟨natDigits_ne_nil n, fun c hc => natDigits_mem hc⟩, ?_, ?_, .inl ⟨rfl, rfl⟩⟩
    · rw [← digitsVal_eq, digitsVal_natDigits]
    · simp only at hn ⊢; omega
  · refine .inr ⟨?_, by rw [trues_trim h0]⟩
    intro hb
    obtain ⟨n, rfl⟩ : ∃ k, n = k + 1 := ⟨n - 1, by omega⟩
    have : 't' ∈ ' ' :: joinWith ',' (List.replicate (n + 1) "true".toList) := by
      cases n with
      | zero => decide
      | succ n => simp [List.replicate_succ, joinWith]
    exact absurd (hb 't' this) (by decide)

/-- The lines after the first two, numbered from `m + 1`. -/
def againLines : Nat → Nat → List Line
  | _, 0 => []
  | m, n + 1 => ⟨0, "a:".toList, m + 1⟩ :: againLines (m + 1) n

theorem againLines_scan (strict : Bool) : ∀ (n m : Nat), ScansTo 2 strict m (List.replicate n "a:".toList) (againLines m n) []
  | 0, _ => .nil _
  | n + 1, m => by
    have h := ScansTo.line (indent := 2) (strict := strict) (n := m) (spaces := 0) (content := "a:".toList)
      (by decide) (by decide) (fun _ => by decide) (againLines_scan strict n (m + 1))
    exact h

theorem againLines_depth : ∀ {n m : Nat} {l : Line}, l ∈ againLines m n → l.depth = 0
  | 0, _, _, h => by simp [againLines] at h
  | n + 1, m, l, h => by
    rcases List.mem_cons.mp h with rfl | h
    · rfl
    · exact againLines_depth h

theorem plainA : NoKeyedHeader "a:".toList := Or.inl ((noHeader_iff _).mp (by decide +kernel))

theorem keyA : KeyLineMeans "a:".toList ['a'] false [] := by
  have := KeyLineMeans.bare (a := ['a']) (after := []) (by decide) (by decide)
  exact this

theorem again_block (strict : Bool) : ∀ (n m : Nat),
    BlockMeans (F := F) strict [] false 0 (againLines m n) (List.replicate n (['a'], false, .obj [])) []
  | 0, _ => .stop (by rintro ⟨_, _, h, _⟩; simp [againLines] at h)
  | n + 1, m => by
    refine .entry rfl (by simp) (.empty plainA keyA (by simp [BlankLine]) ?_) (again_block strict n (m + 1))
    intro line more e
    have : line ∈ againLines (m + 1) n := by rw [e]; simp
    rw [againLines_depth this]
    exact Nat.le_refl 0

theorem mergedText_means (strict : Bool) {n : Nat} (h0 : 0 < n) (hn : n ≤ 100000000) :
    TextMeans (F := F) 2 strict (splitOn '\n' (mergedText n)) (mergedTree n) := by
  rw [mergedText_lines]
  refine ⟨⟨0, "a:".toList, 1⟩ :: ⟨1, mergedHeader n, 2⟩ :: againLines 2 n, [], [], ?_, ?_⟩
  · have h2 := ScansTo.line (indent := 2) (strict := strict) (n := 1) (spaces := 2) (content := mergedHeader n)
      (fun hb => absurd (hb 'b' (by simp [mergedHeader])) (by decide)) (by simp [mergedHeader]) (fun _ => by simp [mergedHeader])
      (againLines_scan strict n 2)
    have h1 := ScansTo.line (indent := 2) (strict := strict) (n := 0) (spaces := 0) (content := "a:".toList)
      (by decide) (by decide) (fun _ => by decide) h2
    have e : List.replicate 2 ' ' ++ mergedHeader n =
        "  b[".toList ++ natDigits n ++ "]: ".toList ++ joinWith ',' (List.replicate n "true".toList) := by
      simp [mergedHeader, List.replicate]
    rw [e] at h1
    exact h1
  · refine .object (fun h _ => (noHeader_iff _).mp (by decide +kernel)) ?_ (again_block strict n 2)
    refine .object plainA keyA (by simp [BlankLine]) Nat.zero_lt_one ?_
    refine BlockMeans.entry (F := F) (inList := false) (rest₁ := againLines 2 n) (e := (['b'], false, .arr n ((List.replicate n (.bool true)).map .prim))) (es := []) rfl (fun h => absurd h (show ¬ false = true by decide)) ?_ ?_
    · have h := EntryMeans.array (strict := strict) (blanks := []) (depth := 1) (rest := againLines 2 n) (rest' := againLines 2 n)
        (mergedHeader_means h0 hn) rfl (k := ['b'])
        (ArrayMeans.inline (F := F) (strict := strict) (blanks := []) (depth := 1) (rest := againLines 2 n)
          (h := ⟨some ['b'], false, n, ',', none, some (joinWith ',' (List.replicate n "true".toList))⟩)
          (cells := List.replicate n "true".toList) (prims := List.replicate n (.bool true)) rfl ?_ ?_ (fun _ => by simp))
      · exact h
      · refine .inr ⟨joinWith_ne (by simp; omega) (fun w hw => by rw [List.eq_of_mem_replicate hw]; decide),
          List.replicate n "true".toList, splitsInto_join (by simp; omega) ?_, ?_⟩
        · intro w hw
          rw [List.eq_of_mem_replicate hw]
          show '"' ∉ "true".toList ∧ ',' ∉ "true".toList
          decide
        · rw [List.map_replicate]
          congr 1
      · clear h0 hn
        induction n with
        | zero => exact .nil
        | succ n ih => rw [List.replicate_succ, List.replicate_succ]; exact .cons .true ih
    · refine .stop ?_
      rintro ⟨line, more, e, hd, _⟩
      have : line ∈ againLines 2 n := by rw [e]; simp
      rw [againLines_depth this] at hd
      exact absurd hd (show ¬ (0 = 1) by decide)

end

section
variable {F : Type} (strict : Bool)

theorem prims_copies (s depth : Nat) (hd : depth < 256) (ps : List (Prim F)) : ∀ out : List (Node F),
    (overEach (fun item expanded => do
      let item ← runInner strict (s + 1) depth item
      pure (expanded ++ [item])) (ps.map Node.prim) out).Is 0 (out ++ ps.map Node.prim) := by
  induction ps with
  | nil => intro out; simp only [List.map_nil, List.append_nil]; exact Run.Is.pure _
  | cons p ps ih =>
    intro out
    have h := ih (out ++ [.prim p])
    rw [List.append_assoc] at h
    refine (overEach_is (n := 0) ?_ h).of_eq (Nat.zero_add 0)
    rw [runInner.eq_def]
    simp only
    rw [if_neg (show ¬ depth ≥ maxExpandDepth by simp only [maxExpandDepth]; omega)]
    exact ⟨rfl, rfl⟩

theorem again_copies (s : Nat) (es : List (Str × Node F)) : ∀ n : Nat,
    (overEach (fun (e : Str × Node F) expanded => do
      let value ← runInner strict (s + 3) 2 e.2
      match expandSegments e.1 [] with
      | some segments => runPath strict (s + 3) 2 expanded segments value
      | none => runLiteral strict (s + 3) 2 expanded e.1 value)
      (List.replicate n (['a'], .obj [] [])) [(['a'], .obj es [])]).Is (n * (1 + nodes (nodeToJson (Node.obj es [] : Node F))))
      [(['a'], .obj es [])] := by
  intro n
  induction n with
  | zero => rw [Nat.zero_mul]; exact Run.Is.pure _
  | succ n ih =>
    rw [List.replicate_succ]
    refine (overEach_is (n := 1 + nodes (nodeToJson (Node.obj es [] : Node F))) ?_ ih).of_eq (by rw [Nat.succ_mul, Nat.add_comm])
    have h1 : (runInner strict (s + 3) 2 (.obj [] [] : Node F)).Is 0 (.obj [] []) := ⟨rfl, rfl⟩
    refine (h1.bind (k := 1 + nodes (nodeToJson (Node.obj es [] : Node F))) (b := [(['a'], (Node.obj es [] : Node F))]) ?_).of_eq (Nat.zero_add _)
    rw [show expandSegments ['a'] [] = none from by decide]
    simp only
    rw [runLiteral.eq_def]
    simp only
    rw [if_neg (show ¬ _ ≥ maxExpandDepth by decide)]
    have hk : keysCompared ['a'] [((['a'], .obj es []) : Str × Node F)] = 1 := by simp [keysCompared]
    have hg : entryGet [((['a'], .obj es []) : Str × Node F)] ['a'] = some (.obj es []) := by simp [entryGet]
    rw [hk]
    refine Run.Is.tick ?_
    simp only [hg]
    refine (Run.Is.tick (n := nodes (nodeToJson (Node.obj es [] : Node F))) (k := 0) ?_).of_eq (Nat.add_zero _)
    have h2 : (runMerge strict (s + 2) (2 + 1) es []).Is 0 es := by
      rw [runMerge.eq_def]
      simp only
      rw [if_neg (show ¬ _ ≥ maxExpandDepth by decide)]
      exact Run.Is.pure _
    refine (h2.bind (k := 0) (b := [(['a'], (Node.obj es [] : Node F))]) ?_).of_eq (Nat.zero_add 0)
    have h3 : entrySet [((['a'], .obj es []) : Str × Node F)] ['a'] (.obj es []) = [(['a'], .obj es [])] := by simp [entrySet]
    rw [h3]
    exact Run.Is.pure _

theorem mergedTree_node (n : Nat) : (mergedTree n : ETree F).node =
    .obj ((['a'], .obj [(['b'], .arr ((List.replicate n (.bool true)).map .prim))] []) :: List.replicate n (['a'], .obj [] [])) [] := by
  have h1 : ∀ (ps : List (Prim F)), ETree.nodeItems (ps.map .prim) = ps.map .prim := by
    intro ps
    induction ps with
    | nil => rfl
    | cons p ps ih => simp [ETree.nodeItems, ETree.node, ih]
  have h2 : ∀ n, ETree.nodeEntries (List.replicate n ((['a'], false, .obj []) : Str × Bool × ETree F)) = List.replicate n (['a'], .obj [] []) := by
    intro n
    induction n with
    | zero => rfl
    | succ n ih => simp [List.replicate_succ, ETree.nodeEntries, ETree.node, ETree.quotedKeys, ih]
  have h3 : ∀ n, ETree.quotedKeys (List.replicate n ((['a'], false, .obj []) : Str × Bool × ETree F)) [] = [] := by
    intro n
    induction n with
    | zero => rfl
    | succ n ih => simp [List.replicate_succ, ETree.quotedKeys, ih]
  simp only [mergedTree, ETree.node, ETree.nodeEntries, ETree.quotedKeys, h1, h2, h3, Bool.false_eq_true, if_false]

theorem primNodes_count (ps : List (Prim F)) : nodesItems (nodesToJson (ps.map Node.prim)) = ps.length := by
  induction ps with
  | nil => simp [nodesToJson, nodesItems]
  | cons p ps ih => simp [nodesToJson, nodesItems, nodeToJson, nodes, ih]; omega

theorem mergedTree_copies (n s : Nat) : (runExpand strict (s + 7) (mergedTree n : ETree F).node).Is (n * (n + 3))
    (.obj [(['a'], .obj [(['b'], .arr ((List.replicate n (.bool true)).map .prim))] [])] []) := by
  have harr : (runInner strict (s + 2) 4 (.arr ((List.replicate n (.bool true)).map .prim) : Node F)).Is 0
      (.arr ((List.replicate n (.bool true)).map .prim)) := by
    rw [runInner.eq_def]
    simp only
    rw [if_neg (show ¬ _ ≥ maxExpandDepth by decide)]
    exact ((prims_copies strict s 5 (by decide) (List.replicate n (.bool true)) []).bind (f := fun expanded => pure (Node.arr expanded)) (Run.Is.pure _)).of_eq (Nat.zero_add 0)
  have hb : (runInner strict (s + 4) 2 (.obj [(['b'], .arr ((List.replicate n (.bool true)).map .prim))] [] : Node F)).Is 0
      (.obj [(['b'], .arr ((List.replicate n (.bool true)).map .prim))] []) := by
    rw [runInner.eq_def]
    simp only
    rw [if_neg (show ¬ _ ≥ maxExpandDepth by decide)]
    refine Run.Is.of_eq (Run.Is.bind (n := 0) (k := 0) (a := [(['b'], .arr ((List.replicate n (.bool true)).map .prim))]) ?_ (Run.Is.pure _)) (Nat.zero_add 0)
    rw [runExpandObject.eq_def]
    simp only
    rw [if_neg (show ¬ _ ≥ maxExpandDepth by decide)]
    refine overEach_is_last ?_
    refine (harr.bind (k := 0) ?_).of_eq (Nat.zero_add 0)
    rw [show expandSegments ['b'] [] = none from by decide]
    simp only
    rw [runLiteral.eq_def]
    simp only
    rw [if_neg (show ¬ _ ≥ maxExpandDepth by decide)]
    exact ⟨rfl, rfl⟩
  rw [mergedTree_node, runExpand, runInner.eq_def]
  simp only
  rw [if_neg (show ¬ _ ≥ maxExpandDepth by decide)]
  refine Run.Is.of_eq (Run.Is.bind (n := n * (n + 3)) (k := 0) (a := [(['a'], .obj [(['b'], .arr ((List.replicate n (.bool true)).map .prim))] [])]) ?_
    (Run.Is.pure _)) (Nat.add_zero _)
  rw [runExpandObject.eq_def]
  simp only
  rw [if_neg (show ¬ _ ≥ maxExpandDepth by decide)]
  have hrest := again_copies (F := F) strict (s + 1) [(['b'], .arr ((List.replicate n (.bool true)).map .prim))] n
  refine (overEach_is (n := 0) (o := [(['a'], .obj [(['b'], .arr ((List.replicate n (.bool true)).map .prim))] [])]) ?_ hrest).of_eq ?_
  · refine (hb.bind (k := 0) ?_).of_eq (Nat.zero_add 0)
    rw [show expandSegments ['a'] [] = none from by decide]
    simp only
    rw [runLiteral.eq_def]
    simp only
    rw [if_neg (show ¬ _ ≥ maxExpandDepth by decide)]
    exact ⟨rfl, rfl⟩
  · have := primNodes_count (F := F) (List.replicate n (.bool true))
    simp only [List.length_replicate] at this
    simp only [nodeToJson, entriesToJson, nodes, nodesEntries, this]
    rw [Nat.zero_add, show 1 + (1 + (1 + n + 0)) = n + 3 by omega]

end

end Toon
