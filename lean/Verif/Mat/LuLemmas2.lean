import Verif.Mat.LuLemmas

/-! # Signs of the permutations and storage of the LU result -/

namespace Wf.Mat

variable {E : Type}

/-- The permutation matrix of a mapping. -/
def pmat (K : Type) [CommRing K] (p : List Nat) (n : Nat) : Matrix (Fin n) (Fin n) K := fun i j => if at' p i = j then 1 else 0

theorem det_pmat_range (K : Type) [CommRing K] (n : Nat) : (pmat K (List.range n) n).det = 1 := by
  have : pmat K (List.range n) n = 1 := by
    ext i j
    simp only [pmat, at'_range i.isLt, Matrix.one_apply, Fin.ext_iff]
  rw [this, Matrix.det_one]

theorem det_pmat_shiftDown (K : Type) [CommRing K] (p : List Nat) (n : Nat) (h : p.length = n) :
    (pmat K (shiftDown p) (n + 1)).det = (pmat K p n).det := by
  rw [Matrix.det_succ_row_zero, Fin.sum_univ_succ, Finset.sum_eq_zero, add_zero]
  · have h0 : pmat K (shiftDown p) (n + 1) 0 0 = 1 := by
      simp only [pmat]; exact if_pos rfl
    rw [h0]
    have hs : (pmat K (shiftDown p) (n + 1)).submatrix Fin.succ (Fin.succAbove 0) = pmat K p n := by
      ext i j
      have e := at'_shiftDown_succ p i (by rw [h]; exact i.isLt)
      simp [Matrix.submatrix_apply, pmat, e]
    rw [hs]; simp
  · intro j _
    have h0 : pmat K (shiftDown p) (n + 1) 0 j.succ = 0 := by
      simp only [pmat]
      apply if_neg
      show ¬ (0 = (j.succ : Nat))
      simp
    rw [h0]; simp

/-- `swapIdx` as a permutation of the indices. -/
theorem swapIdx_swap {n a : Nat} (ha : a < n + 1) (i : Fin (n + 1)) :
    ((Equiv.swap (0 : Fin (n + 1)) ⟨a, ha⟩ i : Fin (n + 1)) : Nat) = swapIdx a i := by
  unfold swapIdx
  rw [Equiv.swap_apply_def]
  by_cases h0 : i = 0
  · subst h0; simp
  · have h0' : (i : Nat) ≠ 0 := fun h => h0 (Fin.ext h)
    rw [if_neg h0, if_neg h0']
    by_cases h1 : i = ⟨a, ha⟩
    · rw [if_pos h1, if_pos (by rw [h1])]; rfl
    · rw [if_neg h1, if_neg (fun h => h1 (Fin.ext h))]

theorem sign_swap_zero {n a : Nat} (ha : a < n + 1) :
    Equiv.Perm.sign (Equiv.swap (0 : Fin (n + 1)) ⟨a, ha⟩) = if a = 0 then 1 else -1 := by
  by_cases h : a = 0
  · subst h
    rw [if_pos rfl]
    have : (⟨0, ha⟩ : Fin (n + 1)) = 0 := rfl
    rw [this, Equiv.swap_self]; simp
  · rw [if_neg h, Equiv.Perm.sign_swap]
    intro h2
    exact h (by have := congrArg Fin.val h2; simpa using this.symm)

theorem det_pmat_swap_idx (K : Type) [CommRing K] {p p' : List Nat} {n a : Nat} (ha : a < n + 1)
    (h : ∀ i, i < n + 1 → at' p' i = at' p (swapIdx a i)) :
    (pmat K p' (n + 1)).det = (if a = 0 then 1 else -1) * (pmat K p (n + 1)).det := by
  have e : pmat K p' (n + 1) = (pmat K p (n + 1)).submatrix (Equiv.swap (0 : Fin (n + 1)) ⟨a, ha⟩) id := by
    ext i j
    simp only [Matrix.submatrix_apply, pmat, id, swapIdx_swap ha, h i i.isLt]
  rw [e, Matrix.det_permute, sign_swap_zero ha]
  by_cases h0 : a = 0 <;> simp [h0]

theorem det_pmat_swap_val (K : Type) [CommRing K] {p p' : List Nat} {n a : Nat} (ha : a < n + 1)
    (h : ∀ i, i < n + 1 → at' p' i = swapIdx a (at' p i)) :
    (pmat K p' (n + 1)).det = (if a = 0 then 1 else -1) * (pmat K p (n + 1)).det := by
  have e : pmat K p' (n + 1) = (pmat K p (n + 1)).submatrix id (Equiv.swap (0 : Fin (n + 1)) ⟨a, ha⟩) := by
    ext i j
    simp only [Matrix.submatrix_apply, pmat, id, swapIdx_swap ha, h i i.isLt]
    have : swapIdx a (at' p i) = j ↔ at' p i = swapIdx a j := by
      constructor
      · intro h; rw [← h, swapIdx_invol]
      · intro h; rw [h, swapIdx_invol]
    simp only [this]
  rw [e, Matrix.det_permute', sign_swap_zero ha]
  by_cases h0 : a = 0 <;> simp [h0]

/-- The counted swaps give the determinants of both permutations. -/
theorem luSpan_sign (K : Type) [CommRing K] (o : Ops E) (rows cols : Nat) (h1 : 1 ≤ rows) (h2 : rows ≤ cols) (L U : View E) (P Q : Perm) (Lo Uo : View E)
    (he : luSpan o rows cols L U = .ok (P, Q, Lo, Uo)) :
    (pmat K P.p rows).det = (-1) ^ P.swaps ∧ (pmat K Q.p cols).det = (-1) ^ Q.swaps := by
  induction rows generalizing cols L U P Q Lo Uo with
  | zero => omega
  | succ r ih =>
    cases r with
    | zero =>
      rw [luSpan] at he
      simp only [Except.ok.injEq, Prod.mk.injEq] at he
      obtain ⟨rfl, rfl, rfl, rfl⟩ := he
      exact ⟨by rw [show (Perm.identity 1).p = List.range 1 from rfl, det_pmat_range]; simp [Perm.identity], by
        rw [show (Perm.identity cols).p = List.range cols from rfl, det_pmat_range]; simp [Perm.identity]⟩
    | succ r =>
      rw [luSpan] at he
      cases hp : findPivot o (r + 2) cols U with
      | none =>
        rw [hp] at he
        simp only [Except.ok.injEq, Prod.mk.injEq] at he
        obtain ⟨rfl, rfl, rfl, rfl⟩ := he
        exact ⟨by rw [show (Perm.identity (r + 2)).p = List.range (r + 2) from rfl]
                  exact (det_pmat_range K _).trans (by simp [Perm.identity]), by
          rw [show (Perm.identity cols).p = List.range cols from rfl, det_pmat_range]; simp [Perm.identity]⟩
      | some ab =>
        obtain ⟨a, b⟩ := ab
        obtain ⟨ha, hb, _⟩ := findPivot_some hp
        obtain ⟨n, rfl⟩ : ∃ n, cols = n + 1 := ⟨cols - 1, by omega⟩
        rw [hp] at he
        simp only [Nat.add_sub_cancel] at he
        obtain ⟨P0, Q0, Li, Ui, e0, hP0, hQ0⟩ := luSpan_total o (r + 1) n (by omega) (by omega) (fun i j => L (i + 1) (j + 1))
          (schur o fun i j => U (swapIdx a i) (swapIdx b j))
        rw [e0] at he
        simp only at he
        obtain ⟨P', hP1, _, hP3, hP4⟩ := shiftDownAndSwap_spec hP0 (by omega : a < r + 1 + 1)
        obtain ⟨Q', hQ1, _, hQ3, hQ4⟩ := shiftDownAndSwapRight_spec hQ0 hb
        rw [if_neg (by rw [hP0.length, hQ0.length]; simp), hP1] at he
        change (Q0.shiftDownAndSwapRight b >>= _) = _ at he
        rw [hQ1] at he
        simp only [bind, Except.bind, pure, Except.pure, Except.ok.injEq, Prod.mk.injEq] at he
        obtain ⟨rfl, rfl, _, _⟩ := he
        obtain ⟨i1, i2⟩ := ih n (by omega) (by omega) _ _ _ _ _ _ e0
        constructor
        · rw [det_pmat_swap_idx K (n := r + 1) ha hP3, det_pmat_shiftDown K _ _ hP0.length, i1, hP4]
          by_cases h0 : a = 0 <;> simp [h0, pow_succ]
        · rw [det_pmat_swap_val K hb hQ3, det_pmat_shiftDown K _ _ hQ0.length, i2, hQ4]
          by_cases h0 : b = 0 <;> simp [h0, pow_succ]

theorem length_viewData (rows cols : Nat) (v : View E) : (viewData rows cols v).length = rows * cols := by
  simp [viewData, List.length_flatMap]

theorem getElem?_viewData (rows cols : Nat) (v : View E) (i j : Nat) (hi : i < rows) (hj : j < cols) :
    (viewData rows cols v)[i * cols + j]? = some (v i j) := by
  induction rows generalizing i v with
  | zero => omega
  | succ r ih =>
    have e : viewData (r + 1) cols v = ((List.range cols).map fun j => v 0 j) ++ viewData r cols (fun i j => v (i + 1) j) := by
      simp [viewData, List.range_succ_eq_map, List.flatMap_map]
    rw [e]
    cases i with
    | zero =>
      rw [List.getElem?_append_left (by simp; omega)]
      simp [hj]
    | succ i =>
      have : (i + 1) * cols + j = cols + (i * cols + j) := by ring
      rw [this, List.getElem?_append_right (by simp)]
      simp only [List.length_map, List.length_range, Nat.add_sub_cancel_left]
      exact ih (fun i j => v (i + 1) j) i (by omega)

/-- A view stored as a matrix. -/
theorem newMatrix_view (rows cols : Nat) (v : View E) (hs : rows * cols < 2 ^ 31) :
    ∃ m, newMatrix (rows : Int) (cols : Int) (viewData rows cols v) = .ok m ∧ m.WF ∧ m.rows = rows ∧ m.cols = cols ∧
      ∀ i j : Nat, i < rows → j < cols → m.get i j = .ok (v i j) ∧ m.getUnchecked i j = .ok (v i j) := by
  have hl : ((viewData rows cols v).length : Int) = (rows : Int) * cols := by rw [length_viewData]; push_cast; rfl
  have hs' : (rows : Int) * cols < 2 ^ 31 := by exact_mod_cast hs
  have hwf : (⟨rows, cols, viewData rows cols v⟩ : Mat E).WF := ⟨by simp, by simp, hl, hs'⟩
  refine ⟨_, newMatrix_ok (by omega) (by omega) hs' _ hl, hwf, rfl, rfl, ?_⟩
  intro i j hi hj
  obtain ⟨x, h1, h2, h3⟩ := hwf.get_ok (i := (i : Int)) (j := (j : Int)) (by omega) (by simp only; omega) (by omega) (by simp only; omega)
  have e : ((i : Int) * (cols : Int) + (j : Int)).toNat = i * cols + j := by
    rw [← Nat.cast_mul, ← Nat.cast_add]; rfl
  simp only at h3
  rw [e, getElem?_viewData rows cols v i j hi hj] at h3
  obtain rfl := Option.some.inj h3
  exact ⟨h1, h2⟩

/-- The span over the storage of a matrix reads its elements. -/
theorem dataView_get (o : Ops E) (m : Mat E) (h : m.WF) (r c : Nat) (hr : m.rows = r) (hc : m.cols = c) (i j : Nat) (hi : i < r) (hj : j < c) :
    m.get i j = .ok (dataView o c m.data i j) := by
  obtain ⟨x, h1, _, h3⟩ := h.get_ok (i := (i : Int)) (j := (j : Int)) (by omega) (by omega) (by omega) (by omega)
  have e : ((i : Int) * m.cols + (j : Int)).toNat = i * c + j := by
    rw [hc, ← Nat.cast_mul, ← Nat.cast_add]; rfl
  rw [e] at h3
  rw [h1, dataView, h3]; rfl

theorem dataView_zero (o : Ops E) (r i j : Nat) : dataView o r (List.replicate (r * r) o.zero) i j = o.zero := by
  unfold dataView
  rw [List.getElem?_replicate]
  split <;> rfl

end Wf.Mat
