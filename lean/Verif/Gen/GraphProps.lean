import Verif.Gen.BinarizeLemmas
import Mathlib.Logic.Relation

/-!
# Properties of the passes on the intermediate program

C35 duplicate elimination, C37 binarisation, C38 negations, C39 topological sort. The specification is in `GraphSpec.lean`: programs are run in
an arbitrary commutative ring with arbitrary functions for the operations that are not sums, products, negations, copies or constants.
-/

namespace Wf.Gen

/-! ## A concrete interpretation, for the examples -/

/-- Integers; division, comparisons, calls and loads of arguments are constant zero, a load `other k` is `k`. -/
def intInterp : Interp Int where
  f := fun op l => match op, l with
    | .add, l => l.sum
    | .mul, l => l.prod
    | .neg, [x] => -x
    | .copy, [x] => x
    | .load (.int n), _ => n
    | .load (.other k), _ => k
    | .cast _, [x] => x
    | _, _ => 0
  add := fun _ => rfl
  mul := fun _ => rfl
  neg := fun _ => rfl
  copy := fun _ => rfl
  int := fun n => by simp
  cast := fun _ n => by simp

variable {V : Type} [Arith V]

theorem good_of_inOrder (I : Interp V) {g : Graph} (h : WF g) (ho : InOrder g) : Good I g (posRank g) (run I g) :=
  ⟨h, ranked_posRank h.nodup ho, run_sat I h.nodup ho⟩

theorem inOrder_sublist {g g' : Graph} {r : Nat → ℚ} (hw : WF g') (hr : Ranked g' r) (hp : g.ops.Pairwise fun a b => r a < r b) (hs : g'.ops.Sublist g.ops) :
    InOrder g' := inOrder_of_pairwise hw.closed hr (hp.sublist hs)

/-! ## C35 -/

/-- C35: duplicate elimination succeeds on every block in dependency order, keeps the block well formed and in order, and every output has the
same value in every interpretation. -/
theorem C35_outputs (g : Graph) (h : WF g) (ho : InOrder g) :
    ∃ g', g.eliminateDuplicates = .ok g' ∧ WF g' ∧ InOrder g' ∧ SameOutputs g g' := by
  obtain ⟨g', e, hg, hs, _⟩ := (good_of_inOrder intInterp h ho).eliminateDuplicates (pairwise_posRank h.nodup)
  have ho' : InOrder g' := inOrder_sublist hg.wf hg.ranked (pairwise_posRank h.nodup) hs
  refine ⟨g', e, hg.wf, ho', ?_⟩
  intro V _ I k x
  obtain ⟨g2, e2, hg2, _, hout⟩ := (good_of_inOrder I h ho).eliminateDuplicates (pairwise_posRank h.nodup)
  rw [e] at e2
  cases e2
  rw [writes_iff_outs I hg.wf ho' hg2.sat, writes_iff_outs I h ho (good_of_inOrder I h ho).sat]
  exact hout k x

/-- C35: afterwards no two operations other than outputs are equal (blocks before control flow is introduced have no phi functions), and every
operation is an output or used by another operation. -/
theorem C35_no_duplicates (g g' : Graph) (h : WF g) (ho : InOrder g) (hphi : ∀ v ∈ g.ops, (g.node v).op ≠ .phi) (he : g.eliminateDuplicates = .ok g') :
    (∀ a ∈ g'.ops, ∀ b ∈ g'.ops, (g'.node a).op = (g'.node b).op → (g'.node a).args = (g'.node b).args → (g'.node a).op.isSink = false → a = b) ∧
    ∀ v ∈ g'.ops, (g'.node v).op.isSink = true ∨ ∃ w ∈ g'.ops, v ∈ (g'.node w).args := by
  refine ⟨?_, ?_⟩
  · intro a ha b hb h1 h2 h3
    refine eliminateDuplicates_unique h.nodup (ranked_posRank h.nodup ho) (pairwise_posRank h.nodup) hphi he a ha b hb ?_ h3
    cases hx : g'.node a; cases hy : g'.node b
    rw [hx, hy] at h1 h2
    simp only at h1 h2
    rw [h1, h2]
  · obtain ⟨g1, e, hg1, ho1, _, _⟩ := lvnLoop_good g.ops g [] (good_of_inOrder intInterp h ho) (fun _ h => h) (by simp) (pairwise_posRank h.nodup) (by simp)
    unfold Graph.eliminateDuplicates at he
    rw [e] at he
    cases he
    have hp1 : g1.ops.Pairwise fun a b => posRank g a < posRank g b := by rw [ho1]; exact pairwise_posRank h.nodup
    have S := reverseRemove_spec g1 g1.ops hg1.wf.nodup
    intro v hv
    have hnode : ∀ u ∈ g1.removeUnused.ops, g1.removeUnused.node u = g1.node u := fun u hu => S.node u (Or.inr hu)
    rcases reverseRemove_live hg1.ranked g1.ops [] rfl hg1.wf.nodup hp1 v hv with h' | ⟨w, hw, h'⟩
    · exact Or.inl (by rw [hnode v hv]; exact h')
    · exact Or.inr ⟨w, hw, by rw [hnode w hw]; exact h'⟩

/-- A block for the examples: `x * y`, `x * y` again, their sum, written to output 7; and an unused product. -/
def exampleGraph : Graph where
  node := fun i => match i with
    | 0 => ⟨.load (.other 5), []⟩
    | 1 => ⟨.load (.other 3), []⟩
    | 2 => ⟨.mul, [0, 1]⟩
    | 3 => ⟨.mul, [0, 1]⟩
    | 4 => ⟨.mul, [1, 1]⟩
    | 5 => ⟨.add, [2, 3]⟩
    | 6 => ⟨.save 7, [5]⟩
    | _ => ⟨.copy, []⟩
  ops := [0, 1, 2, 3, 4, 5, 6]
  next := 7

theorem exampleGraph_wf : WF exampleGraph ∧ InOrder exampleGraph := by
  have key : ∀ v ∈ exampleGraph.ops, NodeWF (exampleGraph.node v) := by
    intro v hv
    simp only [exampleGraph, List.mem_cons, List.not_mem_nil, or_false] at hv
    rcases hv with rfl | rfl | rfl | rfl | rfl | rfl | rfl <;>
      exact ⟨by intro h; revert h; decide, by intro h; revert h; decide, by simp [exampleGraph], by intro l hl; revert hl; simp [exampleGraph]⟩
  have hw : WF exampleGraph := WF.of (by decide) (by decide) (by decide) key
  refine ⟨hw, ?_⟩
  have hr : Ranked exampleGraph (fun v => (v : ℚ)) := by
    intro v hv a ha
    have : a < v := by revert v; intro v hv; revert a; revert v; decide
    show (a : ℚ) < (v : ℚ)
    exact_mod_cast this
  refine inOrder_of_pairwise hw.closed hr ?_
  have : exampleGraph.ops.Pairwise (· < ·) := by decide
  exact this.imp fun h => by exact_mod_cast h

/-- The duplicate product and the unused one are removed; the output is 30 before and after. -/
example : (exampleGraph.eliminateDuplicates.map fun g => (g.ops, (g.node 5).args)) = .ok ([0, 1, 2, 5, 6], [2, 2]) ∧
    run intInterp exampleGraph 5 = 30 := by decide +kernel

example : Writes intInterp exampleGraph 7 30 := ⟨6, by decide, rfl, by decide⟩

/-! ## C39 -/

/-- `b` uses `a` within the block. -/
def Uses (g : Graph) (a b : Nat) : Prop := b ∈ g.ops ∧ a ∈ (g.node b).args

/-- No operation depends on itself. -/
def Acyclic (g : Graph) : Prop := ∀ v, ¬ Relation.TransGen (Uses g) v v

theorem acyclic_of_ranked {g : Graph} {r : Nat → ℚ} (hr : Ranked g r) : Acyclic g := by
  have key : ∀ a b, Relation.TransGen (Uses g) a b → r a < r b := by
    intro a b h
    induction h with
    | single h => exact hr _ h.1 _ h.2
    | tail _ h ih => exact ih.trans (hr _ h.1 _ h.2)
  intro v h
  exact lt_irrefl _ (key v v h)

open Classical in
theorem ranked_of_acyclic {g : Graph} (hc : ∀ v ∈ g.ops, ∀ a ∈ (g.node v).args, a ∈ g.ops) (h : Acyclic g) : ∃ r, Ranked g r := by
  refine ⟨fun v => ((g.ops.filter fun u => decide (Relation.TransGen (Uses g) u v)).length : ℚ), ?_⟩
  intro v hv a ha
  have hu : Uses g a v := ⟨hv, ha⟩
  have hsub : (g.ops.filter fun u => decide (Relation.TransGen (Uses g) u a)).Sublist (g.ops.filter fun u => decide (Relation.TransGen (Uses g) u v)) := by
    apply List.monotone_filter_right
    intro u h
    simp only [decide_eq_true_eq] at h ⊢
    exact h.tail hu
  have hlt : (g.ops.filter fun u => decide (Relation.TransGen (Uses g) u a)).length < (g.ops.filter fun u => decide (Relation.TransGen (Uses g) u v)).length := by
    rcases Nat.lt_or_ge (g.ops.filter fun u => decide (Relation.TransGen (Uses g) u a)).length
      (g.ops.filter fun u => decide (Relation.TransGen (Uses g) u v)).length with h' | h'
    · exact h'
    · exfalso
      have heq := hsub.eq_of_length_le h'
      have hm : a ∈ g.ops.filter fun u => decide (Relation.TransGen (Uses g) u v) := by
        rw [List.mem_filter]; exact ⟨hc v hv a ha, by simpa using Relation.TransGen.single hu⟩
      rw [← heq, List.mem_filter] at hm
      exact h a (by simpa using hm.2)
  simp only
  exact_mod_cast hlt

/-- C39: sorting an acyclic block yields a permutation of the block in which every operation follows its operands; only the order changes. A block
with a cycle is rejected by an assertion. -/
theorem C39_topological_sort (g : Graph) (hnd : g.ops.Nodup) (hc : ∀ v ∈ g.ops, ∀ a ∈ (g.node v).args, a ∈ g.ops) :
    (Acyclic g → ∃ l, g.topologicalSort = .ok { g with ops := l } ∧ l.Perm g.ops ∧
      ∀ before v after, l = before ++ v :: after → ∀ a ∈ (g.node v).args, a ∈ before) ∧
    (¬ Acyclic g → g.topologicalSort = .error .assertion) := by
  refine ⟨?_, ?_⟩
  · intro ha
    obtain ⟨r, hr⟩ := ranked_of_acyclic hc ha
    exact topologicalSort_spec hnd hc hr
  · intro ha
    obtain ⟨out, e, h1, h2, h3, h4⟩ := topo_run g hnd hc
    rw [e]
    by_cases hl : out.length = g.ops.length
    · exfalso
      apply ha
      have hp : out.Perm g.ops := (List.subperm_of_subset h1 h2).perm_of_length_le (by omega)
      have ho : InOrder { g with ops := out.reverse } := fun l v l' he a ha => revInOrder_split h3 l v l' he a ha
      have hr : Ranked { g with ops := out.reverse } (posRank { g with ops := out.reverse }) := ranked_posRank (List.nodup_reverse.mpr h1) ho
      have hr' : Ranked g (posRank { g with ops := out.reverse }) := fun v hv a ha => hr v (List.mem_reverse.mpr (hp.mem_iff.mpr hv)) a ha
      exact acyclic_of_ranked hr'
    · rw [if_neg hl]

/-- The block listed backwards is sorted again; a block with a cycle is refused. -/
example : (({ exampleGraph with ops := [6, 5, 4, 3, 2, 1, 0] } : Graph).topologicalSort.map fun g => g.ops) = .ok [0, 1, 2, 3, 4, 5, 6] := by decide +kernel

example : (({ node := fun i => ⟨.neg, [1 - i]⟩, ops := [0, 1], next := 2 } : Graph).topologicalSort.map fun g => g.ops) = .error .assertion := by decide +kernel

/-! ## C38 -/

theorem sameOutputs_of {g g' : Graph} (h : WF g) (ho : InOrder g) (h' : WF g') (ho' : InOrder g')
    (hall : ∀ (V : Type) [Arith V] (I : Interp V), ∃ ρ', Sat I g' ρ' ∧ ∀ k x, Outs g' ρ' k x ↔ Outs g (run I g) k x) : SameOutputs g g' := by
  intro V _ I k x
  obtain ⟨ρ', hs, hout⟩ := hall V I
  rw [writes_iff_outs I h' ho' hs, writes_iff_outs I h ho (run_sat I h.nodup ho)]
  exact hout k x

/-- Removal of unused operations followed by sorting. -/
theorem finish_good {I : Interp V} {g : Graph} {r : Nat → ℚ} {ρ : Nat → V} (h : Good I g r ρ) :
    ∃ g', g.removeUnused.topologicalSort = .ok g' ∧ WF g' ∧ InOrder g' ∧ Sat I g' ρ ∧ ∀ k x, Outs g' ρ k x ↔ Outs g ρ k x := by
  obtain ⟨h1, h2, _⟩ := h.removeUnused
  obtain ⟨l, e, hp, ho⟩ := topologicalSort_spec h1.wf.nodup h1.wf.closed h1.ranked
  obtain ⟨h3, h4⟩ := h1.reorder hp
  exact ⟨_, e, h3.wf, ho, h3.sat, fun k x => (h4 k x).trans (h2 k x)⟩

theorem insertNegations_good {I : Interp V} {g : Graph} {r : Nat → ℚ} {ρ : Nat → V} (h : Good I g r ρ) :
    ∃ g' ρ', g.insertNegations = .ok g' ∧ WF g' ∧ InOrder g' ∧ Sat I g' ρ' ∧ ∀ k x, Outs g' ρ' k x ↔ Outs g ρ k x := by
  obtain ⟨g1, r1, ρ1, e1, h1⟩ := forOps_reach negationStep (fun g r ρ v => negationStep_reach g r ρ v) g.ops g r ρ h fun _ h => h
  obtain ⟨g2, e2, a, b, c, d⟩ := finish_good h1.good
  refine ⟨g2, ρ1, ?_, a, b, c, fun k x => (d k x).trans (h1.outs k x)⟩
  unfold Graph.insertNegations
  rw [e1]
  exact e2

/-- C38: replacing factors -1 by negations succeeds and keeps every output in every interpretation. -/
theorem C38_negations (g : Graph) (h : WF g) (ho : InOrder g) :
    ∃ g', g.insertNegations = .ok g' ∧ WF g' ∧ InOrder g' ∧ SameOutputs g g' := by
  obtain ⟨g', _, e, hw', ho', _⟩ := insertNegations_good (good_of_inOrder intInterp h ho)
  refine ⟨g', e, hw', ho', sameOutputs_of h ho hw' ho' fun V _ I => ?_⟩
  obtain ⟨g2, ρ2, e2, _, _, hs, hout⟩ := insertNegations_good (good_of_inOrder I h ho)
  rw [e] at e2
  cases e2
  exact ⟨ρ2, hs, hout⟩

/-- `-1 * x * -1 * -1 * y` becomes `-(x * y)`. -/
def negationExample : Graph where
  node := fun i => match i with
    | 0 => ⟨.load (.other 5), []⟩
    | 1 => ⟨.load (.other 3), []⟩
    | 2 => ⟨.load (.int (-1)), []⟩
    | 3 => ⟨.mul, [0, 1, 2, 2, 2]⟩
    | 4 => ⟨.save 7, [3]⟩
    | _ => ⟨.copy, []⟩
  ops := [0, 1, 2, 3, 4]
  next := 5

example : (negationExample.insertNegations.map fun g => (g.ops, g.ops.map fun v => (g.node v).op, run intInterp g 6)) =
    .ok ([0, 1, 5, 6, 4], [.load (.other 5), .load (.other 3), .mul, .neg, .save 7], -15) ∧
    run intInterp negationExample 3 = -15 := by decide +kernel

/-! ## C37 -/

theorem binarizeType_good {I : Interp V} {op : Op} (hop : op.commutative = true) (choose : Graph → List Nat → List PairStep)
    (hch : ∀ g act, WF g → ∀ s ∈ choose g act, s.Valid op g) (fuel : Nat) {g g' : Graph} {r : Nat → ℚ} {ρ : Nat → V} (h : Good I g r ρ)
    (he : g.binarizeType op choose fuel = .ok g') : ∃ ρ', WF g' ∧ InOrder g' ∧ Sat I g' ρ' ∧ ∀ k x, Outs g' ρ' k x ↔ Outs g ρ k x := by
  unfold Graph.binarizeType at he
  cases hl : binarizeLoop op choose fuel g g.ops with
  | error e => rw [hl] at he; cases he
  | ok g1 =>
    rw [hl] at he
    obtain ⟨r1, ρ1, h1⟩ := binarizeLoop_reach hop choose hch fuel g g.ops r ρ g1 h hl
    obtain ⟨g2, e2, a, b, c, d⟩ := finish_good h1.good
    have : g2 = g' := by
      simp only at he
      rw [e2] at he
      cases he; rfl
    subst this
    exact ⟨ρ1, a, b, c, fun k x => (d k x).trans (h1.outs k x)⟩

/-- C37: splitting products (or sums) into pairs keeps every output, for every choice of the pairs. A choice lists, at each round, pairs of values of
the block together with operations of the block that are products (or sums). -/
theorem C37_every_choice (op : Op) (hop : op = .add ∨ op = .mul) (choose : Graph → List Nat → List PairStep)
    (hch : ∀ g active, WF g → ∀ s ∈ choose g active, s.a ∈ g.ops ∧ s.b ∈ g.ops ∧ ∀ c ∈ s.consumers, c ∈ g.ops ∧ (g.node c).op = op)
    (fuel : Nat) (g g' : Graph) (h : WF g) (ho : InOrder g) (he : g.binarizeType op choose fuel = .ok g') : WF g' ∧ InOrder g' ∧ SameOutputs g g' := by
  have hop' : op.commutative = true := by rcases hop with rfl | rfl <;> rfl
  obtain ⟨_, hw', ho', _, _⟩ := binarizeType_good hop' choose hch fuel (good_of_inOrder intInterp h ho) he
  refine ⟨hw', ho', sameOutputs_of h ho hw' ho' fun V _ I => ?_⟩
  obtain ⟨ρ2, _, _, hs, hout⟩ := binarizeType_good hop' choose hch fuel (good_of_inOrder I h ho) he
  exact ⟨ρ2, hs, hout⟩

theorem binarizeType_ends {op : Op} (hop : op.commutative = true) (g : Graph) (h : WF g) (ho : InOrder g) :
    ∃ N g', ∀ fuel, N ≤ fuel → g.binarizeType op (identify op) fuel = .ok g' := by
  have hg := good_of_inOrder intInterp h ho
  obtain ⟨N, hN⟩ := binarizeLoop_ends hop (excess g) g g.ops _ _ hg (le_refl _)
  obtain ⟨g1, r1, ρ1, e1, h1⟩ := hN N (le_refl _)
  obtain ⟨g2, e2, _⟩ := finish_good h1.good
  refine ⟨N, g2, fun fuel hf => ?_⟩
  obtain ⟨k, rfl⟩ := Nat.exists_eq_add_of_le hf
  unfold Graph.binarizeType
  rw [binarizeLoop_mono N g g.ops g1 e1 k]
  exact e2

theorem SameOutputs.trans {g g' g'' : Graph} (h1 : SameOutputs g g') (h2 : SameOutputs g' g'') : SameOutputs g g'' :=
  fun V _ I k x => (h2 V I k x).trans (h1 V I k x)

/-- C37: with the pairs chosen by the program the pass ends, on every block, with one result for all sufficient numbers of rounds, and keeps every output. -/
theorem C37_binarize (g : Graph) (h : WF g) (ho : InOrder g) :
    ∃ N g', (∀ fuel, N ≤ fuel → g.binarize fuel = .ok g') ∧ WF g' ∧ InOrder g' ∧ SameOutputs g g' := by
  obtain ⟨N1, g1, h1⟩ := binarizeType_ends (op := .mul) rfl g h ho
  obtain ⟨w1, o1, s1⟩ := C37_every_choice .mul (Or.inr rfl) (identify .mul) (fun g act hw => identify_valid .mul g act hw) N1 g g1 h ho (h1 N1 (le_refl _))
  obtain ⟨N2, g2, h2⟩ := binarizeType_ends (op := .add) rfl g1 w1 o1
  obtain ⟨w2, o2, s2⟩ := C37_every_choice .add (Or.inl rfl) (identify .add) (fun g act hw => identify_valid .add g act hw) N2 g1 g2 w1 o1 (h2 N2 (le_refl _))
  refine ⟨max N1 N2, g2, ?_, w2, o2, s1.trans s2⟩
  intro fuel hf
  unfold Graph.binarize
  rw [h1 fuel ((le_max_left _ _).trans hf)]
  exact h2 fuel ((le_max_right _ _).trans hf)

/-- `x*y*z + x*y*w`: the pair `x*y` is shared. -/
def pairExample : Graph where
  node := fun i => match i with
    | 0 => ⟨.load (.other 2), []⟩
    | 1 => ⟨.load (.other 3), []⟩
    | 2 => ⟨.load (.other 5), []⟩
    | 3 => ⟨.load (.other 7), []⟩
    | 4 => ⟨.mul, [0, 1, 2]⟩
    | 5 => ⟨.mul, [0, 1, 3]⟩
    | 6 => ⟨.add, [4, 5]⟩
    | 7 => ⟨.save 0, [6]⟩
    | _ => ⟨.copy, []⟩
  ops := [0, 1, 2, 3, 4, 5, 6, 7]
  next := 8

example : ((pairExample.binarize 10).map fun g => (g.ops, (g.node 8).args, (g.node 4).args, (g.node 5).args, run intInterp g 6)) =
    .ok ([0, 1, 2, 3, 8, 4, 5, 6, 7], [0, 1], [2, 8], [3, 8], 72) ∧ run intInterp pairExample 6 = 72 := by decide +kernel

end Wf.Gen
