import Verif.Gen.FactorizeLemmas2
import Verif.Gen.GraphProps

/-!
# C36: factorisation, and C51: the whole optimisation

`FactorizeSpec.lean` says what a valid factorisation is, `GraphSpec.lean` what a program computes.
-/

namespace Wf.Gen

variable {V : Type} [Arith V]

/-- A pass that succeeds on every block in dependency order and keeps it well formed, in order and with the same outputs. -/
def Preserves (f : Graph → Res Graph) : Prop :=
  ∀ g, WF g → InOrder g → ∃ g', f g = .ok g' ∧ WF g' ∧ InOrder g' ∧ SameOutputs g g'

theorem preserves_of_good (f : Graph → Res Graph)
    (hf : ∀ (V : Type) [Arith V] (I : Interp V) (g : Graph) (r : Nat → ℚ) (ρ : Nat → V), Good I g r ρ → g.ops.Pairwise (fun a b => r a < r b) →
      ∃ g' ρ', f g = .ok g' ∧ WF g' ∧ InOrder g' ∧ Sat I g' ρ' ∧ ∀ k x, Outs g' ρ' k x ↔ Outs g ρ k x) : Preserves f := by
  intro g h ho
  obtain ⟨g', _, e, hw', ho', _⟩ := hf _ intInterp g _ _ (good_of_inOrder intInterp h ho) (pairwise_posRank h.nodup)
  refine ⟨g', e, hw', ho', sameOutputs_of h ho hw' ho' fun V _ I => ?_⟩
  obtain ⟨g2, ρ2, e2, _, _, hs, hout⟩ := hf _ I g _ _ (good_of_inOrder I h ho) (pairwise_posRank h.nodup)
  rw [e] at e2
  cases e2
  exact ⟨ρ2, hs, hout⟩

theorem factorizeBlock_preserves (choose : List Nat → Nat → Res (List (List FacStep))) (hch : SearchOK choose)
    (hok : ∀ bits n, n ≤ 64 → bits.length ≤ 64 → ∃ fs, choose bits n = .ok fs) (cast : Graph → Nat → Option Nat) : Preserves (Graph.factorizeBlock choose cast) := by
  apply preserves_of_good
  intro V _ I g r ρ h _
  obtain ⟨g1, r1, ρ1, e1, h1⟩ := forOps_reach (factorizeStep choose cast) (fun g r ρ v => factorizeStep_reach choose hch hok cast g r ρ v) g.ops g r ρ h fun _ h => h
  obtain ⟨g2, e2, a, b, c, d⟩ := finish_good h1.good
  refine ⟨g2, ρ1, ?_, a, b, c, fun k x => (d k x).trans (h1.outs k x)⟩
  unfold Graph.factorizeBlock
  rw [e1]
  exact e2

theorem mergeAll_good {I : Interp V} {r : Nat → ℚ} {ρ : Nat → V} (vs : List Nat) : ∀ g, Good I g r ρ → (∀ v ∈ vs, v ∈ g.ops) →
    ∃ g', forOps mergeStep g vs = .ok g' ∧ Good I g' r ρ ∧ g'.ops = g.ops ∧ ∀ k x, Outs g' ρ k x ↔ Outs g ρ k x := by
  induction vs with
  | nil => intro g h _; exact ⟨g, rfl, h, rfl, fun _ _ => Iff.rfl⟩
  | cons v vs ih =>
    intro g h hvs
    obtain ⟨g1, e1, h1, o1⟩ := mergeStep_reach g r ρ v h (hvs v List.mem_cons_self)
    obtain ⟨g2, e2, h2, o2, out2⟩ := ih g1 h1.good fun u hu => by rw [o1]; exact hvs u (List.mem_cons_of_mem _ hu)
    refine ⟨g2, ?_, h2, o2.trans o1, fun k x => (out2 k x).trans (h1.outs k x)⟩
    rw [forOps, e1]
    exact e2

theorem merge_preserves : Preserves Graph.mergeMultiplications := by
  apply preserves_of_good
  intro V _ I g r ρ h hp
  obtain ⟨g1, e1, h1, o1, out1⟩ := mergeAll_good g.ops g h fun _ h => h
  obtain ⟨h2, out2, s2, _, _⟩ := h1.removeUnused
  refine ⟨g1.removeUnused, ρ, ?_, h2.wf, inOrder_sublist h2.wf h2.ranked hp (o1 ▸ s2), h2.sat, fun k x => (out2 k x).trans (out1 k x)⟩
  unfold Graph.mergeMultiplications
  rw [e1]

theorem copies_preserves : Preserves Graph.eliminateCopies := by
  apply preserves_of_good
  intro V _ I g r ρ h hp
  obtain ⟨g1, e1, h1, s1, out1⟩ := h.eliminateCopies
  exact ⟨g1, ρ, e1, h1.wf, inOrder_sublist h1.wf h1.ranked hp s1, h1.sat, out1⟩

theorem duplicates_preserves : Preserves Graph.eliminateDuplicates := fun g h ho => C35_outputs g h ho

theorem Preserves.pass {choose : List Nat → Nat → Res (List (List FacStep))} {cast : Graph → Nat → Option Nat} (h : Preserves (Graph.factorizeBlock choose cast)) :
    Preserves (Graph.factorizePass choose cast) := by
  intro g hw ho
  obtain ⟨g1, e1, w1, o1, s1⟩ := h g hw ho
  obtain ⟨g2, e2, w2, o2, s2⟩ := merge_preserves g1 w1 o1
  obtain ⟨g3, e3, w3, o3, s3⟩ := copies_preserves g2 w2 o2
  obtain ⟨g4, e4, w4, o4, s4⟩ := duplicates_preserves g3 w3 o3
  refine ⟨g4, ?_, w4, o4, ((s1.trans s2).trans s3).trans s4⟩
  unfold Graph.factorizePass
  rw [e1]; simp only
  rw [e2]; simp only
  rw [e3]; exact e4

theorem SameOutputs.refl (g : Graph) : SameOutputs g g := fun _ _ _ _ _ => Iff.rfl

theorem Preserves.passes {choose : List Nat → Nat → Res (List (List FacStep))} {cast : Graph → Nat → Option Nat} (h : Preserves (Graph.factorizeBlock choose cast)) (n : Nat) :
    Preserves (Graph.factorizeSums choose cast n) := by
  induction n with
  | zero => intro g hw ho; exact ⟨g, rfl, hw, ho, SameOutputs.refl g⟩
  | succ n ih =>
    intro g hw ho
    obtain ⟨g1, e1, w1, o1, s1⟩ := h.pass g hw ho
    obtain ⟨g2, e2, w2, o2, s2⟩ := ih g1 w1 o1
    refine ⟨g2, ?_, w2, o2, s1.trans s2⟩
    rw [Graph.factorizeSums, e1]; exact e2

/-! ## C36 -/

/-- C36: every factorisation proposed by the search takes common factors out of disjoint groups of at least two terms (so every product is used in at
most one group), it has at most eight groups, and the search never fails within its size limits. -/
theorem C36_search (terms : List Nat) (numVars branching : Nat) (hn : numVars ≤ 64) (ht : terms.length ≤ 64) :
    ∃ fs, rankedFactorizations terms numVars branching = .ok fs ∧ ∀ f ∈ fs, f ≠ [] ∧ f.length ≤ 8 ∧ FacOK terms numVars f := by
  obtain ⟨fs, e, h⟩ := rankedFactorizations_ok terms numVars branching hn ht
  exact ⟨fs, e, fun f hf => ⟨(h f hf).1, (h f hf).2.2, (h f hf).2.1⟩⟩

/-- C36: rewriting the sums of a block by any valid factorisations keeps every output in every interpretation, for every choice made by the search. -/
theorem C36_every_choice (choose : List Nat → Nat → Res (List (List FacStep)))
    (hch : ∀ bits n, n ≤ 64 → bits.length ≤ 64 → ∃ fs, choose bits n = .ok fs ∧ ∀ f ∈ fs, FacOK bits n f)
    (cast : Graph → Nat → Option Nat) (g : Graph) (h : WF g) (ho : InOrder g) :
    ∃ g', g.factorizeBlock choose cast = .ok g' ∧ WF g' ∧ InOrder g' ∧ SameOutputs g g' := by
  refine factorizeBlock_preserves choose ?_ (fun bits n h1 h2 => ?_) cast g h ho
  · intro bits n h1 h2 fs e f hf
    obtain ⟨fs', e', h'⟩ := hch bits n h1 h2
    rw [e] at e'
    cases e'
    exact h' f hf
  · obtain ⟨fs, e, _⟩ := hch bits n h1 h2
    exact ⟨fs, e⟩

theorem program_preserves (cast : Graph → Nat → Option Nat) : Preserves (Graph.factorizeBlock programSearch cast) := by
  intro g h ho
  refine C36_every_choice programSearch (fun bits n h1 h2 => ?_) cast g h ho
  obtain ⟨fs, e, h'⟩ := rankedFactorizations_ok bits n 4 h1 h2
  exact ⟨fs, e, fun f hf => (h' f hf).2.1⟩

/-- C36: any number of passes of the factorisation, with the search of the program, succeeds and keeps every output. -/
theorem C36_factorize (passes : Nat) (cast : Graph → Nat → Option Nat) (g : Graph) (h : WF g) (ho : InOrder g) :
    ∃ g', g.factorizeSums programSearch cast passes = .ok g' ∧ WF g' ∧ InOrder g' ∧ SameOutputs g g' :=
  (program_preserves cast).passes passes g h ho

/-- `x*y*z + x*y*w + x*x + z`. -/
def sumExample : Graph where
  node := fun i => match i with
    | 0 => ⟨.load (.other 2), []⟩
    | 1 => ⟨.load (.other 3), []⟩
    | 2 => ⟨.load (.other 5), []⟩
    | 3 => ⟨.load (.other 7), []⟩
    | 4 => ⟨.mul, [0, 1, 2]⟩
    | 5 => ⟨.mul, [0, 1, 3]⟩
    | 6 => ⟨.mul, [0, 0]⟩
    | 7 => ⟨.add, [2, 4, 5, 6]⟩
    | 8 => ⟨.save 0, [7]⟩
    | _ => ⟨.copy, []⟩
  ops := [0, 1, 2, 3, 4, 5, 6, 7, 8]
  next := 9

theorem sumExample_wf : WF sumExample ∧ InOrder sumExample := by
  have key : ∀ v ∈ sumExample.ops, NodeWF (sumExample.node v) := by
    intro v hv
    simp only [sumExample, List.mem_cons, List.not_mem_nil, or_false] at hv
    rcases hv with rfl | rfl | rfl | rfl | rfl | rfl | rfl | rfl | rfl <;>
      exact ⟨by intro h; revert h; decide, by intro h; revert h; decide, by simp [sumExample], by intro l hl; revert hl; simp [sumExample]⟩
  have hw : WF sumExample := WF.of (by decide) (by decide) (by decide) key
  refine ⟨hw, ?_⟩
  have hr : Ranked sumExample (fun v => (v : ℚ)) := by
    intro v hv a ha
    have : a < v := by revert v; intro v hv; revert a; revert v; decide
    show (a : ℚ) < (v : ℚ)
    exact_mod_cast this
  refine inOrder_of_pairwise hw.closed hr ?_
  have : sumExample.ops.Pairwise (· < ·) := by decide
  exact this.imp fun h => by exact_mod_cast h

/-- Factorisations of `x*y*z + x*y*w + x*x` (variables `x, y, z, w` numbered 0 to 3): `x*y` out of the first two terms, or `x` out of all three. -/
example : rankedFactorizations [7, 11, 1] 4 4 = .ok [[(3, 3)], [(1, 7)]] := by decide +kernel

/-- Two passes give `z + x*(x + y*(z + w))`; the output 81 is unchanged. -/
example : ((sumExample.factorizeSums programSearch (fun _ _ => none) 2).map fun g => (g.ops.drop 4, (g.ops.drop 4).map fun v => (g.node v).args)) =
    .ok ([9, 12, 13, 14, 15, 8], [[2, 3], [1, 9], [0, 12], [0, 13], [2, 14], [15]]) := by decide +kernel

example : ((sumExample.factorizeSums programSearch (fun _ _ => none) 2).map fun g => run intInterp g 15) = .ok 81 ∧ run intInterp sumExample 7 = 81 := by
  decide +kernel

/-- `x + x*y` is left alone; `x*y + x*x*y` gives `x*y*(1 + x)` with the constant one, cast if needed. -/
example : (pushProduct (some 1) sumExample []).1.node 10 = ⟨.cast 1, [9]⟩ ∧ (pushProduct (some 1) sumExample []).1.node 9 = ⟨.load (.int 1), []⟩ := by
  decide +kernel

/-! ## C51 -/

theorem binarizeIf_ends (b : Bool) (g : Graph) (h : WF g) (ho : InOrder g) :
    ∃ N g', (∀ fuel, N ≤ fuel → g.binarizeIf b fuel = .ok g') ∧ WF g' ∧ InOrder g' ∧ SameOutputs g g' := by
  cases b with
  | false => exact ⟨0, g, fun _ _ => rfl, h, ho, SameOutputs.refl g⟩
  | true =>
    obtain ⟨N, g1, e1, w1, o1, s1⟩ := C37_binarize g h ho
    obtain ⟨g2, e2, w2, o2, s2⟩ := duplicates_preserves g1 w1 o1
    refine ⟨N, g2, fun fuel hf => ?_, w2, o2, s1.trans s2⟩
    unfold Graph.binarizeIf
    rw [if_pos rfl, e1 fuel hf]
    exact e2

/-- C51: the whole optimisation of a program (duplicates, factorisation, pairs, negations, duplicates), with any number of factorisation passes and with
or without splitting into pairs, ends on every block in dependency order, with a single result, and every output has the same value in every
interpretation. -/
theorem C51_optimise (cast : Graph → Nat → Option Nat) (passes : Nat) (b : Bool) (g : Graph) (h : WF g) (ho : InOrder g) :
    ∃ N g', (∀ fuel, N ≤ fuel → g.applySimplifications cast passes b fuel = .ok g') ∧ WF g' ∧ InOrder g' ∧ SameOutputs g g' := by
  obtain ⟨g1, e1, w1, o1, s1⟩ := duplicates_preserves g h ho
  obtain ⟨g2, e2, w2, o2, s2⟩ := C36_factorize passes cast g1 w1 o1
  obtain ⟨N, g3, e3, w3, o3, s3⟩ := binarizeIf_ends b g2 w2 o2
  obtain ⟨g4, e4, w4, o4, s4⟩ := C38_negations g3 w3 o3
  obtain ⟨g5, e5, w5, o5, s5⟩ := duplicates_preserves g4 w4 o4
  refine ⟨N, g5, fun fuel hf => ?_, w5, o5, (((s1.trans s2).trans s3).trans s4).trans s5⟩
  unfold Graph.applySimplifications
  rw [e1]; simp only
  rw [e2]; simp only
  rw [e3 fuel hf]; simp only
  rw [e4]; exact e5

example : ((sumExample.applySimplifications (fun _ _ => none) 2 true 10).map fun g => run intInterp g 15) = .ok 81 := by decide +kernel

end Wf.Gen
