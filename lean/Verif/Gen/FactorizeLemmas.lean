import Verif.Gen.FactorizeSpec
import Verif.Gen.PassLemmas2

/-! # The search for factorisations -/

namespace Wf.Gen

theorem testBit_andNot (a b i : Nat) : (andNot a b).testBit i = (a.testBit i && !b.testBit i) := by
  unfold andNot
  rw [Nat.testBit_xor, Nat.testBit_and]
  cases a.testBit i <;> cases b.testBit i <;> rfl

theorem testBit_one_shift (i j : Nat) : (1 <<< i).testBit j = decide (j = i) := by
  rw [Nat.one_shiftLeft, Nat.testBit_two_pow]
  simp [eq_comm]

theorem testBit_foldl_or (l : List Nat) (m i : Nat) : (l.foldl (fun m i => m ||| (1 <<< i)) m).testBit i = (m.testBit i || decide (i ∈ l)) := by
  induction l generalizing m with
  | nil => simp
  | cons a l ih =>
    rw [List.foldl_cons, ih, Nat.testBit_or, testBit_one_shift]
    by_cases h1 : i = a <;> by_cases h2 : i ∈ l <;> simp [h1, h2]

theorem testBit_setBits (l : List Nat) (i : Nat) : (setBits l).testBit i = true ↔ i ∈ l := by
  unfold setBits
  rw [testBit_foldl_or]
  simp

/-- The indices of the set bits below `n`, when all set bits are below `n`. -/
theorem bitCount_eq {b n : Nat} (hn : n ≤ 64) (h : ∀ i, b.testBit i = true → i < n) : bitCount b = ((List.range n).filter fun i => b.testBit i).length := by
  unfold bitCount
  apply List.Perm.length_eq
  rw [List.perm_ext_iff_of_nodup (List.nodup_range.filter _) (List.nodup_range.filter _)]
  intro i
  simp only [List.mem_filter, List.mem_range]
  exact ⟨fun ⟨_, h'⟩ => ⟨h i h', h'⟩, fun ⟨h1, h2⟩ => ⟨by omega, h2⟩⟩

theorem two_of_bitCount {b : Nat} (h : 2 ≤ bitCount b) : ∃ i j, i ≠ j ∧ b.testBit i = true ∧ b.testBit j = true := by
  unfold bitCount at h
  have hnd : ((List.range 64).filter fun i => b.testBit i).Nodup := List.nodup_range.filter _
  have hm : ∀ i ∈ ((List.range 64).filter fun i => b.testBit i), b.testBit i = true := fun i hi => (List.mem_filter.mp hi).2
  rcases hl : ((List.range 64).filter fun i => b.testBit i) with _ | ⟨i, _ | ⟨j, l⟩⟩
  · rw [hl] at h; simp at h
  · rw [hl] at h; simp at h
  · rw [hl] at hnd hm
    refine ⟨i, j, ?_, hm i (by simp), hm j (by simp)⟩
    rintro rfl
    simp at hnd

theorem bitCount_of_two {b n : Nat} (hn : n ≤ 64) (h : ∀ i, b.testBit i = true → i < n) {i j : Nat} (hij : i ≠ j) (hi : b.testBit i = true) (hj : b.testBit j = true) :
    2 ≤ bitCount b := by
  unfold bitCount
  have : [i, j].length ≤ ((List.range 64).filter fun i => b.testBit i).length := by
    apply List.Subperm.length_le
    apply List.subperm_of_subset
    · simpa using hij
    · intro k hk
      simp only [List.mem_cons, List.not_mem_nil, or_false] at hk
      simp only [List.mem_filter, List.mem_range]
      rcases hk with rfl | rfl
      · exact ⟨by have := h _ hi; omega, hi⟩
      · exact ⟨by have := h _ hj; omega, hj⟩
  simpa using this

theorem bitCount_pos {b n : Nat} (hn : n ≤ 64) (h : ∀ i, b.testBit i = true → i < n) {i : Nat} (hi : b.testBit i = true) : 1 ≤ bitCount b := by
  unfold bitCount
  apply List.length_pos_of_mem (a := i)
  simp only [List.mem_filter, List.mem_range]
  exact ⟨by have := h _ hi; omega, hi⟩

theorem foldl_and_sub (l terms : List Nat) (suit m v : Nat)
    (h : (l.foldl (fun m i => if suit.testBit i then m &&& terms.getD i 0 else m) m).testBit v = true) :
    m.testBit v = true ∧ ∀ i ∈ l, suit.testBit i = true → (terms.getD i 0).testBit v = true := by
  induction l generalizing m with
  | nil => exact ⟨h, by simp⟩
  | cons a l ih =>
    rw [List.foldl_cons] at h
    obtain ⟨h1, h2⟩ := ih _ h
    by_cases hs : suit.testBit a = true
    · rw [if_pos hs, Nat.testBit_and, Bool.and_eq_true] at h1
      refine ⟨h1.1, ?_⟩
      intro i hi hsi
      rcases List.mem_cons.mp hi with rfl | hi
      · exact h1.2
      · exact h2 i hi hsi
    · rw [if_neg hs] at h1
      refine ⟨h1, ?_⟩
      intro i hi hsi
      rcases List.mem_cons.mp hi with rfl | hi
      · exact absurd hsi hs
      · exact h2 i hi hsi

theorem findJointly_ok {terms : List Nat} {numVars remTerms remVars v : Nat} (hv : ∀ i, remVars.testBit i = true → i < numVars)
    (ht : ∀ i, remTerms.testBit i = true → i < terms.length) (hne : (findJointly terms remTerms remVars v).1 ≠ 0) :
    StepOK terms numVars (findJointly terms remTerms remVars v) ∧
    ∀ j, (findJointly terms remTerms remVars v).2.testBit j = true → remTerms.testBit j = true := by
  unfold findJointly at hne ⊢
  simp only at hne ⊢
  set suit := remTerms &&& termsWith terms v with hsuit
  have hsub : ∀ j, suit.testBit j = true → remTerms.testBit j = true := by
    intro j hj
    rw [hsuit, Nat.testBit_and, Bool.and_eq_true] at hj
    exact hj.1
  by_cases hc : bitCount suit ≤ 1
  · rw [if_pos hc] at hne; exact absurd rfl hne
  · rw [if_neg hc] at hne ⊢
    refine ⟨⟨fun i hi => hv i (foldl_and_sub _ _ _ _ _ hi).1, Nat.exists_testBit_of_ne_zero hne, fun j hj => ht j (hsub j hj), two_of_bitCount (b := suit) (by omega), ?_⟩, hsub⟩
    intro j i hj hi
    exact (foldl_and_sub _ _ _ _ _ hi).2 j (List.mem_range.mpr (ht j (hsub j hj))) hj

/-- What the ranking returns. -/
theorem rankSteps_ok {terms : List Nat} {numVars remVars remTerms maxToReturn : Nat} (hv : ∀ i, remVars.testBit i = true → i < numVars)
    (ht : ∀ i, remTerms.testBit i = true → i < terms.length) : ∀ s ∈ rankSteps terms numVars remVars remTerms maxToReturn,
    StepOK terms numVars s.step ∧ ∀ j, s.step.2.testBit j = true → remTerms.testBit j = true := by
  unfold rankSteps
  refine foldl_inv (fun l : List ScoredStep => ∀ s ∈ l, StepOK terms numVars s.step ∧ ∀ j, s.step.2.testBit j = true → remTerms.testBit j = true) _ _ ?_ _ (by simp)
  intro l v _ hl
  unfold rankOne
  by_cases h1 : remVars.testBit v = false
  · rw [if_pos h1]; exact hl
  · rw [if_neg h1]
    simp only
    by_cases h2 : (findJointly terms remTerms remVars v).1 = 0
    · rw [if_pos h2]; exact hl
    · rw [if_neg h2]
      have hok := findJointly_ok (v := v) hv ht h2
      generalize findJointly terms remTerms remVars v = s at h2 hok ⊢
      split
      · exact hl
      · intro t htm
        have htm := List.mem_of_mem_take htm
        rw [List.mem_append, List.mem_cons] at htm
        rcases htm with h | rfl | h
        · exact hl t (List.takeWhile_subset _ h)
        · exact hok
        · exact hl t (List.dropWhile_subset _ h)

theorem foldRes_inv {α β : Type} (Q : β → Prop) (f : β → α → Res β) (l : List α) (h : ∀ b, ∀ a ∈ l, Q b → ∃ b', f b a = .ok b' ∧ Q b') (b : β) (hb : Q b) :
    ∃ b', foldRes f b l = .ok b' ∧ Q b' := by
  induction l generalizing b with
  | nil => exact ⟨b, rfl, hb⟩
  | cons a l ih =>
    obtain ⟨b1, e1, h1⟩ := h b a List.mem_cons_self hb
    obtain ⟨b2, e2, h2⟩ := ih (fun b a ha => h b a (List.mem_cons_of_mem _ ha)) b1 h1
    refine ⟨b2, ?_, h2⟩
    rw [foldRes, e1]
    exact e2

theorem DisjointTerms.symm {s t : FacStep} (h : DisjointTerms s t) : DisjointTerms t s := fun j hj => h j ⟨hj.2, hj.1⟩

theorem factorizeAndRecurse_ok {terms : List Nat} {numVars branching : Nat} (Q : List FacStep → Prop) (hQ : ∀ f, f ≠ [] → FacOK terms numVars f → f.length ≤ 8 → Q f) (fuel : Nat) :
    ∀ (remVars remTerms : Nat) (parent : List FacStep) (st : SearchState) (s : ScoredStep),
      parent.length + fuel = 8 → 0 < fuel → FacOK terms numVars parent → (∀ i, remVars.testBit i = true → i < numVars) → (∀ i, remTerms.testBit i = true → i < terms.length) →
      (∀ t ∈ parent, ∀ j, t.2.testBit j = true → remTerms.testBit j = false) →
      StepOK terms numVars s.step → (∀ j, s.step.2.testBit j = true → remTerms.testBit j = true) → (∀ f ∈ st.outputs, Q f) →
      ∃ st', factorizeAndRecurse terms numVars branching fuel remVars remTerms parent st s = .ok st' ∧ ∀ f ∈ st'.outputs, Q f := by
  induction fuel with
  | zero => intro _ _ _ _ _ _ h; omega
  | succ fuel ih =>
    intro remVars remTerms parent st s hlen _ hp hv ht hd hs hst hout
    unfold factorizeAndRecurse pushFac
    rw [if_pos (by omega)]
    simp only
    set result := parent.orderedInsert facStepLe s.step with hres
    have hperm : result.Perm (s.step :: parent) := List.perm_orderedInsert _ _ _
    have hrl : result.length = parent.length + 1 := by rw [hperm.length_eq]; simp
    have hrok : FacOK terms numVars result := by
      refine ⟨?_, ?_⟩
      · intro t htm
        rcases List.mem_cons.mp (hperm.mem_iff.mp htm) with rfl | h
        · exact hs
        · exact hp.steps t h
      · rw [hperm.pairwise_iff (fun {_ _} h => DisjointTerms.symm h), List.pairwise_cons]
        refine ⟨?_, hp.disjoint⟩
        intro t htm j hj
        have := hd t htm j hj.2
        rw [hst j hj.1] at this
        cases this
    have hqr : Q result := hQ result (by intro h; rw [h] at hrl; simp at hrl) hrok (by omega)
    by_cases hvis : result ∈ st.visited
    · rw [if_pos hvis]; exact ⟨st, rfl, hout⟩
    · rw [if_neg hvis]
      have hout' : ∀ f ∈ st.outputs ++ [result], Q f := by
        intro f hf
        rcases List.mem_append.mp hf with h | h
        · exact hout f h
        · rw [List.mem_singleton.mp h]; exact hqr
      by_cases hleaf : andNot remTerms s.step.2 = 0 ∨ result.length = 8
      · rw [if_pos hleaf]; exact ⟨_, rfl, hout'⟩
      · rw [if_neg hleaf]
        rw [not_or] at hleaf
        have hv' : ∀ i, (andNot remVars (setBits [s.variableIndex])).testBit i = true → i < numVars := by
          intro i hi
          rw [testBit_andNot, Bool.and_eq_true] at hi
          exact hv i hi.1
        have ht' : ∀ i, (andNot remTerms s.step.2).testBit i = true → i < terms.length := by
          intro i hi
          rw [testBit_andNot, Bool.and_eq_true] at hi
          exact ht i hi.1
        have hd' : ∀ t ∈ result, ∀ j, t.2.testBit j = true → (andNot remTerms s.step.2).testBit j = false := by
          intro t htm j hj
          rw [testBit_andNot]
          rcases List.mem_cons.mp (hperm.mem_iff.mp htm) with rfl | h
          · rw [hj]; simp
          · rw [hd t h j hj]; rfl
        have hrank := rankSteps_ok (maxToReturn := branching) hv' ht'
        cases hr : rankSteps terms numVars (andNot remVars (setBits [s.variableIndex])) (andNot remTerms s.step.2) branching with
        | nil => exact ⟨_, rfl, hout'⟩
        | cons a l =>
          rw [hr] at hrank
          obtain ⟨st', e, h⟩ := foldRes_inv (fun st : SearchState => ∀ f ∈ st.outputs, Q f)
            (factorizeAndRecurse terms numVars branching fuel (andNot remVars (setBits [s.variableIndex])) (andNot remTerms s.step.2) result) (a :: l)
            (fun b t htm hb => ih _ _ _ _ _ (by omega) (by omega) hrok hv' ht' hd' (hrank t htm).1 (hrank t htm).2 hb) { st with visited := result :: st.visited } hout
          exact ⟨st', e, h⟩

theorem rankedFactorizations_ok (terms : List Nat) (numVars branching : Nat) (hn : numVars ≤ 64) (ht : terms.length ≤ 64) :
    ∃ fs, rankedFactorizations terms numVars branching = .ok fs ∧ ∀ f ∈ fs, f ≠ [] ∧ FacOK terms numVars f ∧ f.length ≤ 8 := by
  unfold rankedFactorizations
  rw [if_neg (by omega)]
  by_cases h0 : terms = [] ∨ numVars = 0
  · rw [if_pos h0]; exact ⟨[], rfl, by simp⟩
  · rw [if_neg h0]
    simp only
    have hv : ∀ i, (setBits (List.range numVars)).testBit i = true → i < numVars := fun i hi => List.mem_range.mp ((testBit_setBits _ _).mp hi)
    have htt : ∀ i, (setBits (List.range terms.length)).testBit i = true → i < terms.length := fun i hi => List.mem_range.mp ((testBit_setBits _ _).mp hi)
    have hrank := rankSteps_ok (maxToReturn := branching) hv htt
    cases hr : rankSteps terms numVars (setBits (List.range numVars)) (setBits (List.range terms.length)) branching with
    | nil => exact ⟨[], rfl, by simp⟩
    | cons a l =>
      rw [hr] at hrank
      obtain ⟨st', e, h⟩ := foldRes_inv (fun st : SearchState => ∀ f ∈ st.outputs, f ≠ [] ∧ FacOK terms numVars f ∧ f.length ≤ 8)
        (factorizeAndRecurse terms numVars branching 8 (setBits (List.range numVars)) (setBits (List.range terms.length)) []) (a :: l)
        (fun b t htm hb => factorizeAndRecurse_ok _ (fun f h1 h2 h3 => ⟨h1, h2, h3⟩) 8 _ _ _ _ _ rfl (by omega) ⟨by simp, List.Pairwise.nil⟩ hv htt (by simp)
          (hrank t htm).1 (hrank t htm).2 hb) ⟨[], []⟩ (by simp)
      refine ⟨st'.outputs.insertionSort facBetter, ?_, ?_⟩
      · simp only [e]
      · intro f hf
        exact h f ((List.perm_insertionSort _ _).mem_iff.mp hf)

end Wf.Gen
