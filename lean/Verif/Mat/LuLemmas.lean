import Verif.Mat.LuModel
import Verif.Mat.MatrixProps
import Mathlib.LinearAlgebra.Matrix.Determinant.Basic
import Mathlib.LinearAlgebra.Matrix.Block
import Mathlib.Tactic.FieldSimp

/-! # Lemmas about the LU model -/

namespace Wf.Mat

variable {E : Type}

/-- Entry `i` of a mapping. -/
def at' (p : List Nat) (i : Nat) : Nat := p.getD i 0

/-- A list that is a permutation of `0, …, n-1`. -/
structure IsPerm (p : List Nat) (n : Nat) : Prop where
  length : p.length = n
  lt : ∀ i, i < n → at' p i < n
  inj : ∀ i j, i < n → j < n → at' p i = at' p j → i = j
  surj : ∀ k, k < n → ∃ i, i < n ∧ at' p i = k

theorem at'_eq {p : List Nat} {i : Nat} (h : i < p.length) : p[i]? = some (at' p i) := by
  simp [at', h]

theorem isPerm_range (n : Nat) : IsPerm (List.range n) n := by
  have h : ∀ i, i < n → at' (List.range n) i = i := fun i hi => by simp [at', hi]
  refine ⟨List.length_range, fun i hi => by rw [h i hi]; exact hi, fun i j hi hj he => by rwa [h i hi, h j hj] at he, fun k hk => ⟨k, hk, h k hk⟩⟩

theorem at'_range {n i : Nat} (h : i < n) : at' (List.range n) i = i := by simp [at', h]

theorem at'_shiftDown_zero (p : List Nat) : at' (shiftDown p) 0 = 0 := rfl

theorem at'_shiftDown_succ (p : List Nat) (i : Nat) (h : i < p.length) : at' (shiftDown p) (i + 1) = at' p i + 1 := by
  simp [at', shiftDown, h]

theorem isPerm_shiftDown {p : List Nat} {n : Nat} (h : IsPerm p n) : IsPerm (shiftDown p) (n + 1) := by
  have hl := h.length
  refine ⟨by simp [shiftDown, hl], ?_, ?_, ?_⟩
  · intro i hi
    cases i with
    | zero => rw [at'_shiftDown_zero]; omega
    | succ i => rw [at'_shiftDown_succ p i (by omega)]; have := h.lt i (by omega); omega
  · intro i j hi hj he
    cases i with
    | zero =>
      cases j with
      | zero => rfl
      | succ j => rw [at'_shiftDown_zero, at'_shiftDown_succ p j (by omega)] at he; omega
    | succ i =>
      cases j with
      | zero => rw [at'_shiftDown_zero, at'_shiftDown_succ p i (by omega)] at he; omega
      | succ j =>
        rw [at'_shiftDown_succ p i (by omega), at'_shiftDown_succ p j (by omega)] at he
        have := h.inj i j (by omega) (by omega) (by omega)
        omega
  · intro k hk
    cases k with
    | zero => exact ⟨0, by omega, rfl⟩
    | succ k =>
      obtain ⟨i, hi, he⟩ := h.surj k (by omega)
      exact ⟨i + 1, by omega, by rw [at'_shiftDown_succ p i (by omega), he]⟩

theorem swapIdx_lt {a n i : Nat} (ha : a < n) (hi : i < n) : swapIdx a i < n := by
  unfold swapIdx; split
  · exact ha
  · split <;> omega

theorem swapIdx_invol (a i : Nat) : swapIdx a (swapIdx a i) = i := by
  unfold swapIdx
  by_cases h0 : i = 0
  · subst h0
    by_cases ha : a = 0
    · simp [ha]
    · simp [ha]
  · by_cases h1 : i = a
    · simp [h1]
    · simp [h0, h1]

theorem swapIdx_zero (i : Nat) : swapIdx 0 i = i := by unfold swapIdx; split <;> simp_all

theorem length_swapAt (p : List Nat) (a b : Nat) : (swapAt p a b).length = p.length := by
  unfold swapAt; split <;> simp

theorem at'_swapAt (p : List Nat) (a b i : Nat) (ha : a < p.length) (hb : b < p.length) (hi : i < p.length) :
    at' (swapAt p a b) i = if i = b then at' p a else if i = a then at' p b else at' p i := by
  unfold swapAt
  rw [at'_eq ha, at'_eq hb]
  simp only [at', List.getD_eq_getElem?_getD, List.getElem?_set, List.length_set, ha, hb, if_true]
  by_cases h1 : i = b
  · subst h1; simp
  · rw [if_neg (fun h => h1 h.symm), if_neg h1]
    by_cases h2 : i = a
    · subst h2; simp
    · rw [if_neg (fun h => h2 h.symm), if_neg h2]

theorem isPerm_of_swap_idx {p p' : List Nat} {n a : Nat} (h : IsPerm p n) (ha : a < n) (hl : p'.length = n)
    (he : ∀ i, i < n → at' p' i = at' p (swapIdx a i)) : IsPerm p' n := by
  refine ⟨hl, fun i hi => by rw [he i hi]; exact h.lt _ (swapIdx_lt ha hi), ?_, ?_⟩
  · intro i j hi hj hij
    rw [he i hi, he j hj] at hij
    have := h.inj _ _ (swapIdx_lt ha hi) (swapIdx_lt ha hj) hij
    rw [← swapIdx_invol a i, this, swapIdx_invol]
  · intro k hk
    obtain ⟨i, hi, hik⟩ := h.surj k hk
    exact ⟨swapIdx a i, swapIdx_lt ha hi, by rw [he _ (swapIdx_lt ha hi), swapIdx_invol, hik]⟩

theorem isPerm_of_swap_val {p p' : List Nat} {n a : Nat} (h : IsPerm p n) (ha : a < n) (hl : p'.length = n)
    (he : ∀ i, i < n → at' p' i = swapIdx a (at' p i)) : IsPerm p' n := by
  refine ⟨hl, fun i hi => by rw [he i hi]; exact swapIdx_lt ha (h.lt i hi), ?_, ?_⟩
  · intro i j hi hj hij
    rw [he i hi, he j hj] at hij
    apply h.inj i j hi hj
    rw [← swapIdx_invol a (at' p i), hij, swapIdx_invol]
  · intro k hk
    obtain ⟨i, hi, hik⟩ := h.surj (swapIdx a k) (swapIdx_lt ha hk)
    exact ⟨i, hi, by rw [he i hi, hik, swapIdx_invol]⟩

theorem shiftDownAndSwap_spec {q : Perm} {n row : Nat} (h : IsPerm q.p n) (hrow : row < n + 1) :
    ∃ q', q.shiftDownAndSwap row = .ok q' ∧ IsPerm q'.p (n + 1) ∧ (∀ i, i < n + 1 → at' q'.p i = at' (shiftDown q.p) (swapIdx row i)) ∧
      q'.swaps = q.swaps + (if row = 0 then 0 else 1) := by
  have hs := isPerm_shiftDown h
  unfold Perm.shiftDownAndSwap
  simp only
  by_cases h0 : row = 0
  · subst h0
    refine ⟨⟨shiftDown q.p, q.swaps⟩, by simp, hs, fun i _ => by rw [swapIdx_zero], by simp⟩
  · rw [if_pos h0, if_pos (by rw [hs.length]; exact hrow)]
    have he : ∀ i, i < n + 1 → at' (swapAt (shiftDown q.p) 0 row) i = at' (shiftDown q.p) (swapIdx row i) := by
      intro i hi
      rw [at'_swapAt _ _ _ _ (by rw [hs.length]; omega) (by rw [hs.length]; omega) (by rw [hs.length]; omega)]
      unfold swapIdx
      by_cases h1 : i = row
      · subst h1; simp [h0]
      · by_cases h2 : i = 0
        · subst h2; rw [if_neg h1, if_pos rfl, if_pos rfl]
        · rw [if_neg h1, if_neg h2, if_neg h2, if_neg h1]
    exact ⟨_, rfl, isPerm_of_swap_idx hs hrow (by rw [length_swapAt, hs.length]) he, he, by simp [h0]⟩

theorem idxOf_at' {p : List Nat} {n i : Nat} (h : IsPerm p n) (hi : i < n) : p.idxOf (at' p i) = i := by
  have hl := h.length
  have hmem : at' p i ∈ p := by
    rw [List.mem_iff_getElem?]; exact ⟨i, at'_eq (by omega)⟩
  have hlt := List.idxOf_lt_length_of_mem hmem
  apply h.inj _ _ (by omega) hi
  have h2 := at'_eq hlt
  rw [List.getElem?_eq_getElem hlt, List.getElem_idxOf] at h2
  exact (Option.some.inj h2).symm

theorem shiftDownAndSwapRight_spec {q : Perm} {n col : Nat} (h : IsPerm q.p n) (hcol : col < n + 1) :
    ∃ q', q.shiftDownAndSwapRight col = .ok q' ∧ IsPerm q'.p (n + 1) ∧ (∀ i, i < n + 1 → at' q'.p i = swapIdx col (at' (shiftDown q.p) i)) ∧
      q'.swaps = q.swaps + (if col = 0 then 0 else 1) := by
  have hs := isPerm_shiftDown h
  obtain ⟨k, hk, hkc⟩ := hs.surj col hcol
  have hidx : (shiftDown q.p).idxOf col = k := by rw [← hkc]; exact idxOf_at' hs hk
  unfold Perm.shiftDownAndSwapRight
  simp only [hidx]
  rw [if_pos (by rw [hs.length]; exact hk)]
  by_cases h0 : k = 0
  · subst h0
    rw [at'_shiftDown_zero] at hkc
    subst hkc
    exact ⟨⟨shiftDown q.p, q.swaps⟩, by simp, hs, fun i _ => by rw [swapIdx_zero], by simp⟩
  · rw [if_pos h0]
    have hc0 : col ≠ 0 := by
      intro hc
      rw [hc, ← at'_shiftDown_zero q.p] at hkc
      exact h0 (hs.inj k 0 hk (by omega) hkc)
    have he : ∀ i, i < n + 1 → at' (swapAt (shiftDown q.p) k 0) i = swapIdx col (at' (shiftDown q.p) i) := by
      intro i hi
      rw [at'_swapAt _ _ _ _ (by rw [hs.length]; omega) (by rw [hs.length]; omega) (by rw [hs.length]; omega)]
      unfold swapIdx
      by_cases h1 : i = 0
      · subst h1; rw [if_pos rfl, at'_shiftDown_zero, if_pos rfl, hkc]
      · rw [if_neg h1]
        by_cases h2 : i = k
        · subst h2; rw [if_pos rfl, at'_shiftDown_zero, hkc, if_neg hc0, if_pos rfl]
        · rw [if_neg h2, if_neg, if_neg]
          · intro hc; rw [← hkc] at hc; exact h2 (hs.inj _ _ hi hk hc)
          · intro hc; rw [← at'_shiftDown_zero q.p] at hc; exact h1 (hs.inj _ _ hi (by omega) hc)
    exact ⟨_, rfl, isPerm_of_swap_val hs hcol (by rw [length_swapAt, hs.length]) he, he, by simp [hc0]⟩

theorem findPivot_some {o : Ops E} {rows cols : Nat} {U : View E} {a b : Nat} (h : findPivot o rows cols U = some (a, b)) :
    a < rows ∧ b < cols ∧ o.isZero (U a b) = false := by
  have h1 := List.find?_some h
  have h2 := List.mem_of_find?_eq_some h
  simp only [List.mem_flatMap, List.mem_range, List.mem_map, Prod.mk.injEq] at h2
  obtain ⟨i, hi, j, hj, rfl, rfl⟩ := h2
  exact ⟨hi, hj, by simpa using h1⟩

theorem findPivot_none {o : Ops E} {rows cols : Nat} {U : View E} (h : findPivot o rows cols U = none) (i j : Nat) (hi : i < rows) (hj : j < cols) :
    o.isZero (U i j) = true := by
  have := List.find?_eq_none.mp h (i, j) (by simp only [List.mem_flatMap, List.mem_range, List.mem_map, Prod.mk.injEq]; exact ⟨i, hi, j, hj, rfl, rfl⟩)
  simpa using this

/-- Division is meaningful where the divisor's value is not zero. -/
structure Ops.FieldValues (o : Ops E) {K : Type} [Field K] (val : E → K) : Prop extends o.Values val where
  div : ∀ a b, val b ≠ 0 → val (o.div a b) = val a / val b

/-- Everything about the outcome of the recursive algorithm. -/
structure LuSpec {K : Type} [Field K] (val : E → K) (rows cols : Nat) (U : View E) (P Q : Perm) (Lo Uo : View E) : Prop where
  lower_one : ∀ i, i < rows → val (Lo i i) = 1
  lower_zero : ∀ i j, i < j → j < rows → val (Lo i j) = 0
  upper_zero : ∀ i j, j < i → i < rows → j < cols → val (Uo i j) = 0
  product : ∀ i b, i < rows → b < cols → ∑ k ∈ Finset.range rows, val (Lo (at' P.p i) k) * val (Uo k b) = val (U i (at' Q.p b))

theorem luSpan_total (o : Ops E) (rows cols : Nat) (h1 : 1 ≤ rows) (h2 : rows ≤ cols) (L U : View E) :
    ∃ P Q Lo Uo, luSpan o rows cols L U = .ok (P, Q, Lo, Uo) ∧ IsPerm P.p rows ∧ IsPerm Q.p cols := by
  induction rows generalizing cols L U with
  | zero => omega
  | succ r ih =>
    cases r with
    | zero => exact ⟨_, _, _, _, rfl, isPerm_range 1, isPerm_range cols⟩
    | succ r =>
      rw [luSpan]
      cases hp : findPivot o (r + 2) cols U with
      | none => exact ⟨_, _, _, _, rfl, isPerm_range _, isPerm_range _⟩
      | some ab =>
        obtain ⟨a, b⟩ := ab
        obtain ⟨ha, hb, _⟩ := findPivot_some hp
        obtain ⟨n, rfl⟩ : ∃ n, cols = n + 1 := ⟨cols - 1, by omega⟩
        obtain ⟨P, Q, Li, Ui, e, hP, hQ⟩ := ih n (by omega) (by omega) (fun i j => L (i + 1) (j + 1))
          (schur o fun i j => U (swapIdx a i) (swapIdx b j))
        obtain ⟨P', hP1, hP2, _, _⟩ := shiftDownAndSwap_spec hP (by omega : a < r + 1 + 1)
        obtain ⟨Q', hQ1, hQ2, _, _⟩ := shiftDownAndSwapRight_spec hQ hb
        simp only [Nat.add_sub_cancel, e]
        rw [if_neg (by rw [hP.length, hQ.length]; simp), hP1]
        refine ⟨P', Q', assembleL o r L Li (fun i j => U (swapIdx a i) (swapIdx b j)) P, assembleU o r Ui (fun i j => U (swapIdx a i) (swapIdx b j)) Q, ?_, hP2, hQ2⟩
        show (Q.shiftDownAndSwapRight b >>= _) = _
        rw [hQ1]
        rfl

theorem luSpan_spec (o : Ops E) {K : Type} [Field K] (val : E → K) (ho : o.FieldValues val) (rows cols : Nat) (h1 : 1 ≤ rows) (h2 : rows ≤ cols)
    (L U : View E) (hL : ∀ i j, i < rows → j < rows → val (L i j) = 0) (P Q : Perm) (Lo Uo : View E)
    (he : luSpan o rows cols L U = .ok (P, Q, Lo, Uo))
    (hpiv : ∀ k, k + 1 < rows → o.isZero (Uo k k) = false → val (Uo k k) ≠ 0) : LuSpec val rows cols U P Q Lo Uo := by
  induction rows generalizing cols L U P Q Lo Uo with
  | zero => omega
  | succ r ih =>
    cases r with
    | zero =>
      rw [luSpan] at he
      simp only [Except.ok.injEq, Prod.mk.injEq] at he
      obtain ⟨rfl, rfl, rfl, rfl⟩ := he
      refine ⟨?_, ?_, ?_, ?_⟩
      · intro i hi
        have : i = 0 := by omega
        subst this
        simp [ho.one]
      · intros; omega
      · intros; omega
      · intro i b hi hb
        have : i = 0 := by omega
        subst this
        have e0 : at' [0] 0 = 0 := rfl
        simp [Perm.identity, at'_range, hb, ho.one, e0]
    | succ r =>
      rw [luSpan] at he
      cases hp : findPivot o (r + 2) cols U with
      | none =>
        rw [hp] at he
        simp only [Except.ok.injEq, Prod.mk.injEq] at he
        obtain ⟨rfl, rfl, rfl, rfl⟩ := he
        have hz := fun i j hi hj => ho.isZero _ (findPivot_none hp i j hi hj)
        refine ⟨?_, ?_, ?_, ?_⟩
        · intro i hi
          simp only [true_and]
          rw [if_pos hi, ho.one]
        · intro i j hij hj
          rw [if_neg (by omega)]
          exact hL i j (by omega) hj
        · intro i j hij hi hj
          exact hz i j hi hj
        · intro i b hi hb
          simp only [Perm.identity, at'_range hi, at'_range hb]
          rw [hz i b hi hb]
          apply Finset.sum_eq_zero
          intro k hk
          rw [hz k b (Finset.mem_range.mp hk) hb, mul_zero]
      | some ab =>
        obtain ⟨a, b⟩ := ab
        obtain ⟨ha, hb, hnz⟩ := findPivot_some hp
        obtain ⟨n, rfl⟩ : ∃ n, cols = n + 1 := ⟨cols - 1, by omega⟩
        rw [hp] at he
        simp only [Nat.add_sub_cancel] at he
        obtain ⟨P0, Q0, Li, Ui, e0, hP0, hQ0⟩ := luSpan_total o (r + 1) n (by omega) (by omega) (fun i j => L (i + 1) (j + 1))
          (schur o fun i j => U (swapIdx a i) (swapIdx b j))
        rw [e0] at he
        simp only at he
        obtain ⟨P', hP1, hP2, hP3, _⟩ := shiftDownAndSwap_spec hP0 (by omega : a < r + 1 + 1)
        obtain ⟨Q', hQ1, hQ2, hQ3, _⟩ := shiftDownAndSwapRight_spec hQ0 hb
        rw [if_neg (by rw [hP0.length, hQ0.length]; simp), hP1] at he
        change (Q0.shiftDownAndSwapRight b >>= _) = _ at he
        rw [hQ1] at he
        simp only [bind, Except.bind, pure, Except.pure, Except.ok.injEq, Prod.mk.injEq] at he
        obtain ⟨rfl, rfl, rfl, rfl⟩ := he
        set V : View E := fun i j => U (swapIdx a i) (swapIdx b j) with hV
        have hpv : val (V 0 0) ≠ 0 := by
          have := hpiv 0 (by omega)
          simp only [assembleU] at this
          apply this
          simpa [hV, swapIdx] using hnz
        have hL' : ∀ i j, i < r + 1 → j < r + 1 → val (L (i + 1) (j + 1)) = 0 := fun i j hi hj => hL _ _ (by omega) (by omega)
        have IH := ih n (by omega) (by omega) _ _ hL' P0 Q0 Li Ui e0 (by
          intro k hk hz
          have := hpiv (k + 1) (by omega)
          simp only [assembleU] at this
          exact this hz)
        refine ⟨?_, ?_, ?_, ?_⟩
        · intro i hi
          cases i with
          | zero => exact ho.one
          | succ i => exact IH.lower_one i (by omega)
        · intro i j hij hj
          cases j with
          | zero => omega
          | succ j =>
            cases i with
            | zero => exact hL 0 (j + 1) (by omega) hj
            | succ i => exact IH.lower_zero i j (by omega) (by omega)
        · intro i j hij hi hj
          cases i with
          | zero => omega
          | succ i =>
            cases j with
            | zero => simp only [assembleU]; rw [if_pos (by omega)]; exact ho.zero
            | succ j => exact IH.upper_zero i j (by omega) (by omega) (by omega)
        · -- the product, first for the permuted matrix
          have key : ∀ i b', i < r + 2 → b' < n + 1 →
              ∑ k ∈ Finset.range (r + 2), val (assembleL o r L Li V P0 (at' (shiftDown P0.p) i) k) * val (assembleU o r Ui V Q0 k b') =
                val (V i (at' (shiftDown Q0.p) b')) := by
            intro i b' hi hb'
            rw [Finset.sum_range_succ']
            have hQrow : ∀ j, j < n → Q0.permutedRow j = .ok (at' Q0.p j) := by
              intro j hj
              unfold Perm.permutedRow
              rw [at'_eq (by rw [hQ0.length]; exact hj)]
            cases i with
            | zero =>
              rw [at'_shiftDown_zero]
              simp only [assembleL]
              rw [Finset.sum_eq_zero, zero_add, ho.one, one_mul]
              · cases b' with
                | zero => rfl
                | succ b' => simp only [assembleU, hQrow b' (by omega)]; rw [at'_shiftDown_succ _ _ (by rw [hQ0.length]; omega)]
              · intro k hk
                have := Finset.mem_range.mp hk
                rw [hL 0 (k + 1) (by omega) (by omega), zero_mul]
            | succ i =>
              rw [at'_shiftDown_succ _ _ (by rw [hP0.length]; omega)]
              have hlt := hP0.lt i (by omega)
              have hinv : P0.permutedRowTransposed (at' P0.p i) = i := idxOf_at' hP0 (by omega)
              cases b' with
              | zero =>
                simp only [assembleL, assembleU]
                rw [Finset.sum_eq_zero, zero_add, if_pos hlt, hinv, ho.div _ _ hpv, at'_shiftDown_zero]
                · field_simp
                · intro k hk
                  have := Finset.mem_range.mp hk
                  rw [if_pos (by omega), ho.zero, mul_zero]
              | succ b' =>
                simp only [assembleL, assembleU, hQrow b' (by omega)]
                rw [if_pos hlt, hinv, ho.div _ _ hpv, IH.product i b' (by omega) (by omega), at'_shiftDown_succ _ _ (by rw [hQ0.length]; omega)]
                simp only [schur]
                rw [ho.sub, ho.div _ _ hpv, ho.mul]
                field_simp
                ring
          intro i b' hi hb'
          have := key (swapIdx a i) b' (swapIdx_lt ha hi) hb'
          rw [← hP3 i hi] at this
          rw [this, hQ3 b' hb']
          simp only [hV, swapIdx_invol]

end Wf.Mat
