import Verif.Gen.CountLemmas
import Verif.Gen.AstProps

/-!
# Properties of the operation counts

C68. The specification is in `CountSpec.lean`: the elementary operations of a kind in an operation, the ways through the blocks, and the elementary operations
that a run of the structured program does.
-/

namespace Wf.Gen

open Conv

variable {g : Graph}

/-- Two ways from one block are equal if there are no branches. -/
theorem Walk.unique {desc : Nat → List Nat} (hd : ∀ b, (desc b).length ≤ 1) : ∀ {b : Nat} {bs bs' : List Nat}, Walk desc b bs → Walk desc b bs' → bs = bs' := by
  intro b bs bs' h
  induction h generalizing bs' with
  | stop h =>
    intro h'
    cases h' with
    | stop _ => rfl
    | step hm _ => rw [h] at hm; cases hm
  | @step b d bs hm _ ih =>
    intro h'
    cases h' with
    | stop h => rw [h] at hm; cases hm
    | @step _ d' bs' hm' hw' =>
      have hl := hd b
      match hb : desc b with
      | [] => rw [hb] at hm; cases hm
      | [x] =>
        rw [hb, List.mem_singleton] at hm hm'
        subst hm hm'
        rw [ih hw']
      | _ :: _ :: _ => rw [hb] at hl; simp at hl

/-- C68, for the program with blocks: counting succeeds. No run does more elementary operations of any kind than the count of that kind, whatever the
operations compute and whichever way the branches go. The count of each kind is that of some way through the blocks, and without branches it is what is done. -/
theorem C68_counts_partial (hw : WF g) (ho : InOrder g) (hc : Convertible g) (usage : Nat → Usage) (honce : OnceKeys g) (hret : OneReturn g usage) (ternaries : Bool) :
    ∃ s entry c, convert g usage ternaries = .ok (s, entry) ∧ s.operationCounts entry = .ok c ∧
      (∀ (V : Type) [Arith V] (I : Interp V) (truth : V → Bool) (n : Nat) (m : Machine V), exec I truth s n none entry .start = some m →
        (∀ label, s.work m.done label ≤ c label) ∧ ((∀ b, (s.desc b).length ≤ 1) → ∀ label, s.work m.done label = c label)) ∧
      ∀ label, ∃ bs, Walk s.desc entry bs ∧ s.work (bs.flatMap s.ops) label = c label := by
  obtain ⟨s, W, e, hf⟩ := fine_of (g := g) (info := ⟨fun _ => false, fun _ => false, fun _ => false, fun _ => false, usage, fun _ => .scalar⟩) ⟨hw, ho, hc⟩
    ⟨(fun _ _ _ _ h => nomatch h), (fun _ _ _ _ _ h => nomatch h), honce, hret⟩ (fun _ _ _ _ _ h => nomatch h) ternaries
  obtain ⟨val, h⟩ := hf Int numInterp (fun x => x = 1) (by intro c a b; simp [numInterp]) (fun _ h => nomatch h)
  have hmost : ∀ label, ∃ bs, Walk s.desc W.entry bs ∧ s.work (bs.flatMap s.ops) label = W.most s label := by
    intro label
    obtain ⟨bs, h1, h2, _⟩ := walk_most label W h.lay
    exact ⟨bs, h2 h.stop, h1⟩
  refine ⟨s, W.entry, _, e, h.counts, fun V _ I truth n m hm => ?_, hmost⟩
  obtain ⟨bs, hwalk, hdone⟩ := exec_walk n none W.entry .start m hm
  have hdone : m.done = bs.flatMap s.ops := by rw [hdone]; rfl
  constructor
  · intro label
    obtain ⟨pre, suf, rfl, h1, h2⟩ := walk_region label W bs h.lay (by rw [h.stop]; simp) hwalk
    rcases h2 with ⟨_, rfl⟩ | ⟨m, h2, _⟩
    · rw [hdone, List.append_nil]
      exact h1
    · rw [h.stop] at h2
      cases h2
  · intro hd label
    obtain ⟨bs', hw', e'⟩ := hmost label
    rw [hdone, ← e', Walk.unique hd hwalk hw']

/-- C68: the total is the sum of the counts. -/
theorem C68_total (c : OpCounts) : c.total = c .add + c .branch + c .call + c .compare + c .divide + c .multiply + c .negate := by
  simp [OpCounts.total, OpLabel.all]

/-- C68: the comment has a line for every kind of which there is at least one, in alphabetical order, and a line for the total. -/
theorem C68_comment (c : OpCounts) : ∃ ls : List OpLabel, (∀ l, l ∈ ls ↔ 0 < c l) ∧ (ls.map OpLabel.text).Pairwise (· < ·) ∧
    c.comment = "Operation counts:" :: (ls.map fun l => l.text ++ ": " ++ toString (c l)) ++
      ["total: " ++ toString (c .add + c .branch + c .call + c .compare + c .divide + c .multiply + c .negate)] := by
  refine ⟨OpLabel.all.filter fun l => 0 < c l, fun l => ?_, ?_, ?_⟩
  · have hl : l ∈ OpLabel.all := by cases l <;> decide
    simp [hl]
  · have : (OpLabel.all.map OpLabel.text).Pairwise (· < ·) := by decide
    exact this.sublist (List.filter_sublist.map _)
  · rw [OpCounts.comment, C68_total]
    rfl

/-! ## Values that are computed more than once -/

/-- `x`, `y`, `x < y`; output 0 is `x < y ? x * y : -x`, output 1 is `x < y ? f(x * y) : -y`. -/
def twiceGraph : Graph where
  node := fun i => match i with
    | 0 => ⟨.load (.other 3), []⟩
    | 1 => ⟨.load (.other 5), []⟩
    | 2 => ⟨.compare 0, [0, 1]⟩
    | 3 => ⟨.mul, [0, 1]⟩
    | 4 => ⟨.callStd 1, [3]⟩
    | 5 => ⟨.neg, [0]⟩
    | 6 => ⟨.neg, [1]⟩
    | 7 => ⟨.cond, [2, 3, 5]⟩
    | 8 => ⟨.cond, [2, 4, 6]⟩
    | 9 => ⟨.save 0, [7]⟩
    | 10 => ⟨.save 1, [8]⟩
    | _ => ⟨.copy, []⟩
  ops := [0, 1, 2, 3, 4, 5, 6, 7, 8, 9, 10]
  next := 11

/-- Loads are elements of arguments, and outputs are scalars. -/
def scalarInfo : AstInfo where
  constant := fun _ => false
  argument := fun _ => true
  matrix := fun _ => true
  scalarGet := fun _ => false
  usage := fun _ => .output
  kind := fun _ => .scalar

theorem twiceGraph_ok : WF twiceGraph ∧ InOrder twiceGraph ∧ Convertible twiceGraph ∧ OnceKeys twiceGraph := by
  have key : ∀ v ∈ twiceGraph.ops, NodeWF (twiceGraph.node v) := by
    intro v hv
    simp only [twiceGraph, List.mem_cons, List.not_mem_nil, or_false] at hv
    rcases hv with rfl | rfl | rfl | rfl | rfl | rfl | rfl | rfl | rfl | rfl | rfl <;>
      exact ⟨by intro h; revert h; decide, by intro h; revert h; decide, by simp [twiceGraph], by intro l hl; revert hl; simp [twiceGraph]⟩
  have hw : WF twiceGraph := WF.of (by decide) (by decide) (by decide) key
  refine ⟨hw, ?_, ?_, ?_⟩
  · have hr : Ranked twiceGraph (fun v => (v : ℚ)) := by
      intro v hv a ha
      have : a < v := by revert v; intro v hv; revert a; revert v; decide
      show (a : ℚ) < (v : ℚ)
      exact_mod_cast this
    refine inOrder_of_pairwise hw.closed hr ?_
    have : twiceGraph.ops.Pairwise (· < ·) := by decide
    exact this.imp fun h => by exact_mod_cast h
  · refine ⟨?_, ?_, by decide, ?_⟩
    · intro v hv
      have h2 : v = 9 ∨ v = 10 ∨ ∃ u ∈ twiceGraph.ops, v ∈ (twiceGraph.node u).args := by revert v; decide
      rcases h2 with rfl | rfl | h2
      · exact .inl ⟨0, rfl⟩
      · exact .inl ⟨1, rfl⟩
      · exact .inr h2
    · intro v hv a ha k
      have h2 : saveKey (twiceGraph.node a).op = none := by revert a; revert v; decide
      intro hk
      rw [hk] at h2
      cases h2
    · intro v hv
      simp only [twiceGraph, List.mem_cons, List.not_mem_nil, or_false] at hv
      rcases hv with rfl | rfl | rfl | rfl | rfl | rfl | rfl | rfl | rfl | rfl | rfl <;> simp [twiceGraph]
  · have hcases : ∀ v ∈ twiceGraph.ops, ∀ key, (twiceGraph.node v).op = .save key → (v = 9 ∧ key = 0) ∨ (v = 10 ∧ key = 1) := by
      intro v hv key hk
      simp only [twiceGraph, List.mem_cons, List.not_mem_nil, or_false] at hv
      rcases hv with rfl | rfl | rfl | rfl | rfl | rfl | rfl | rfl | rfl | rfl | rfl <;> simp [twiceGraph] at hk <;> simp [← hk]
    intro v hv w hw key h1 h2
    rcases hcases v hv key h1 with ⟨rfl, rfl⟩ | ⟨rfl, rfl⟩ <;> rcases hcases w hw _ h2 with ⟨rfl, h⟩ | ⟨rfl, h⟩ <;> first | rfl | cases h

/-- The counts do not bound what the statements that are generated do. A value that is the result of a branch and is also an operand of one other operation
in it gets no variable, so it is computed twice: `if (x < y) { v7 = x * y; v8 = f(x * y); } …`, with one multiplication in the comment. -/
theorem C68_statements_refuted : WF twiceGraph ∧ InOrder twiceGraph ∧ Convertible twiceGraph ∧ OnceKeys twiceGraph ∧
    (match convert twiceGraph (fun _ => .output) true with
      | .ok (s, entry) =>
        match s.operationCounts entry, s.createAst scalarInfo entry with
        | .ok c, .ok ss => some (c .multiply, (runAll flowInterp (fun x => x = 1) ss .start).map (·.out), workAll flowInterp (fun x => x = 1) .multiply ss .start)
        | _, _ => none
      | _ => none) = some (1, some [(0, 15), (1, 16)], 2) :=
  ⟨twiceGraph_ok.1, twiceGraph_ok.2.1, twiceGraph_ok.2.2.1, twiceGraph_ok.2.2.2, by decide +kernel⟩

/-! ## Examples -/

example := C68_counts_partial twiceGraph_ok.1 twiceGraph_ok.2.1 twiceGraph_ok.2.2.1 (fun _ => .output) twiceGraph_ok.2.2.2 (fun _ _ _ _ _ _ _ _ h => nomatch h) true

/-- The comment of the function with an optional output, and the run in which the output is not wanted and the second function is called. -/
example : (match convert flowGraph flowUsage true with
    | .ok (s, entry) =>
      match s.operationCounts entry, exec flowInterp (fun x => x = 1) s s.blocks none entry .start with
      | .ok c, some m => some (c.comment, OpLabel.all.map (s.work m.done))
      | _, _ => none
    | _ => none) = some (["Operation counts:", "add: 1", "branch: 2", "call: 1", "compare: 1", "multiply: 1", "total: 6"], [0, 2, 1, 1, 0, 0, 0]) := by decide +kernel

end Wf.Gen
