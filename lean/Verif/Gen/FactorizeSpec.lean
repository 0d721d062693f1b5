import Verif.Gen.FactorizeModel

/-!
# What a valid factorisation is

A sum of products is given by one bitset per term: bit `v` of `terms[j]` tells whether variable `v` is a factor of term `j`.
-/

namespace Wf.Gen

/-- A step takes at least one variable out of at least two terms, each of which contains all its variables. -/
structure StepOK (terms : List Nat) (numVars : Nat) (s : FacStep) : Prop where
  vars : ∀ v, s.1.testBit v = true → v < numVars
  some : ∃ v, s.1.testBit v = true
  bound : ∀ j, s.2.testBit j = true → j < terms.length
  two : ∃ i j, i ≠ j ∧ s.2.testBit i = true ∧ s.2.testBit j = true
  common : ∀ j v, s.2.testBit j = true → s.1.testBit v = true → (terms.getD j 0).testBit v = true

/-- No term is in both groups. -/
def DisjointTerms (s t : FacStep) : Prop := ∀ j, ¬ (s.2.testBit j = true ∧ t.2.testBit j = true)

/-- A factorisation uses each term in at most one step. -/
structure FacOK (terms : List Nat) (numVars : Nat) (f : List FacStep) : Prop where
  steps : ∀ s ∈ f, StepOK terms numVars s
  disjoint : f.Pairwise DisjointTerms

/-- A search whose results are valid factorisations. -/
def SearchOK (choose : List Nat → Nat → Res (List (List FacStep))) : Prop :=
  ∀ bits n, n ≤ 64 → bits.length ≤ 64 → ∀ fs, choose bits n = .ok fs → ∀ f ∈ fs, FacOK bits n f

end Wf.Gen
