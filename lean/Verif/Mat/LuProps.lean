import Verif.Mat.LuLemmas2
import Mathlib.Data.Rat.Defs
import Mathlib.Algebra.Field.Rat

/-! # C27 and C28: LU factorisation and determinant -/

namespace Wf.Mat

variable {E : Type}

/-- A matrix with exactly one 1 in every row and every column and zeros elsewhere. -/
def IsPermutationMatrix {K : Type} [Zero K] [One K] {n : Nat} (M : Matrix (Fin n) (Fin n) K) : Prop :=
  ∃ σ : Equiv.Perm (Fin n), ∀ i j, M i j = if σ i = j then 1 else 0

/-- Every pivot the elimination divided by (a diagonal entry of `U` other than the last that is not the literal zero) has a value
other than 0. -/
def PivotsNonzero (o : Ops E) {K : Type} [Zero K] (val : E → K) (U : Mat E) : Prop :=
  ∀ k : Nat, (k : Int) + 1 < U.rows → ∀ x, U.get k k = .ok x → o.isZero x = false → val x ≠ 0

theorem isPermutationMatrix_pmat (K : Type) [CommRing K] {p : List Nat} {n : Nat} (h : IsPerm p n) : IsPermutationMatrix (pmat K p n) := by
  have hb : Function.Bijective fun i : Fin n => (⟨at' p i, h.lt i i.isLt⟩ : Fin n) := by
    constructor
    · intro i j hij
      exact Fin.ext (h.inj i j i.isLt j.isLt (congrArg Fin.val hij))
    · intro k
      obtain ⟨i, hi, he⟩ := h.surj k k.isLt
      exact ⟨⟨i, hi⟩, Fin.ext he⟩
  refine ⟨Equiv.ofBijective _ hb, fun i j => ?_⟩
  simp only [pmat, Equiv.ofBijective_apply, Fin.ext_iff]

theorem permMatrix_spec (o : Ops E) {K : Type} [CommRing K] (val : E → K) (ho : o.Values val) (P : Perm) (n : Nat) (hP : IsPerm P.p n)
    (hs : n * n < 2 ^ 31) : ∃ m, permMatrix o P = .ok m ∧ m.WF ∧ m.rows = n ∧ m.cols = n ∧ toMatrix val m n n = pmat K P.p n := by
  unfold permMatrix
  rw [hP.length]
  obtain ⟨m, h1, h2, h3, h4, h5⟩ := newMatrix_view n n (fun i j => if P.p[i]? = some j then o.one else o.zero) hs
  refine ⟨m, h1, h2, h3, h4, ?_⟩
  ext i j
  rw [toMatrix_apply val m i j (h5 i j i.isLt j.isLt).1, pmat, at'_eq (by rw [hP.length]; exact i.isLt)]
  simp only [Option.some.injEq]
  split
  · exact ho.one
  · exact ho.zero

/-- Everything about the internal factorisation. -/
theorem luInternal_spec (o : Ops E) (A : Mat E) (hA : A.WF) (r c : Nat) (har : A.rows = r) (hac : A.cols = c) (h1 : 1 ≤ r) (h2 : r ≤ c) :
    ∃ P L U Q, luInternal o A = .ok (P, L, U, Q) ∧ IsPerm P.p r ∧ IsPerm Q.p c ∧ L.WF ∧ L.rows = r ∧ L.cols = r ∧ U.WF ∧ U.rows = r ∧ U.cols = c ∧
      ∃ Lo Uo : View E, luSpan o r c (dataView o r (List.replicate (r * r) o.zero)) (dataView o c A.data) = .ok (P, Q, Lo, Uo) ∧
        (∀ i j : Nat, i < r → j < r → L.get i j = .ok (Lo i j)) ∧
        (∀ i j : Nat, i < r → j < c → U.get i j = .ok (Uo i j) ∧ U.getUnchecked i j = .ok (Uo i j)) := by
  obtain ⟨P, Q, Lo, Uo, e, hP, hQ⟩ := luSpan_total o r c h1 h2 (dataView o r (List.replicate (r * r) o.zero)) (dataView o c A.data)
  have hsz : r * c < 2 ^ 31 := by have := hA.size_lt; rw [har, hac] at this; exact_mod_cast this
  have hsr : r * r < 2 ^ 31 := lt_of_le_of_lt (Nat.mul_le_mul_left r h2) hsz
  obtain ⟨L, l1, l2, l3, l4, l5⟩ := newMatrix_view r r Lo hsr
  obtain ⟨U, u1, u2, u3, u4, u5⟩ := newMatrix_view r c Uo hsz
  refine ⟨P, L, U, Q, ?_, hP, hQ, l2, l3, l4, u2, u3, u4, Lo, Uo, e, fun i j hi hj => (l5 i j hi hj).1, u5⟩
  unfold luInternal
  rw [if_neg (by omega), har, hac]
  simp only [Int.toNat_natCast, e, bind, Except.bind, l1, u1]
  rfl

/-- `P * L * U * Q = A`, with the shapes and the structure of the factors, for every matrix with at least one row and at least as many
columns as rows, provided the pivots the algorithm divided by are not zero. -/
theorem C27_lu (o : Ops E) {K : Type} [Field K] (val : E → K) (ho : o.FieldValues val) (A : Mat E) (hA : A.WF) (r c : Nat)
    (har : A.rows = r) (hac : A.cols = c) (h1 : 1 ≤ r) (h2 : r ≤ c) (hcc : c * c < 2 ^ 31) :
    ∃ P L U Q, factorizeFullPivLu o A = .ok (P, L, U, Q) ∧
      P.WF ∧ P.rows = r ∧ P.cols = r ∧ L.WF ∧ L.rows = r ∧ L.cols = r ∧ U.WF ∧ U.rows = r ∧ U.cols = c ∧ Q.WF ∧ Q.rows = c ∧ Q.cols = c ∧
      IsPermutationMatrix (toMatrix val P r r) ∧ IsPermutationMatrix (toMatrix val Q c c) ∧
      (PivotsNonzero o val U →
        (∀ i, toMatrix val L r r i i = 1) ∧ (∀ i j, i < j → toMatrix val L r r i j = 0) ∧
        (∀ (i : Fin r) (j : Fin c), j.val < i.val → toMatrix val U r c i j = 0) ∧
        toMatrix val P r r * toMatrix val L r r * toMatrix val U r c * toMatrix val Q c c = toMatrix val A r c) := by
  obtain ⟨P, L, U, Q, e, hP, hQ, l2, l3, l4, u2, u3, u4, Lo, Uo, es, hL, hU⟩ := luInternal_spec o A hA r c har hac h1 h2
  have hrr : r * r < 2 ^ 31 := lt_of_le_of_lt (Nat.mul_le_mul h2 h2) hcc
  obtain ⟨Pm, p1, p2, p3, p4, p5⟩ := permMatrix_spec o val ho.toValues P r hP hrr
  obtain ⟨Qm, q1, q2, q3, q4, q5⟩ := permMatrix_spec o val ho.toValues Q c hQ hcc
  refine ⟨Pm, L, U, Qm, ?_, p2, p3, p4, l2, l3, l4, u2, u3, u4, q2, q3, q4, by rw [p5]; exact isPermutationMatrix_pmat K hP,
    by rw [q5]; exact isPermutationMatrix_pmat K hQ, ?_⟩
  · unfold factorizeFullPivLu
    simp only [e, bind, Except.bind, p1, q1]
    rfl
  · intro hpiv
    have spec := luSpan_spec o val ho r c h1 h2 _ _ (fun i j _ _ => by rw [dataView_zero]; exact ho.zero) P Q Lo Uo es (by
      intro k hk hz
      exact hpiv k (by rw [u3]; omega) _ (hU k k (by omega) (by omega)).1 hz)
    have eL : ∀ i j : Fin r, toMatrix val L r r i j = val (Lo i j) := fun i j => toMatrix_apply val L i j (hL i j i.isLt j.isLt)
    have eU : ∀ (i : Fin r) (j : Fin c), toMatrix val U r c i j = val (Uo i j) := fun i j => toMatrix_apply val U i j (hU i j i.isLt j.isLt).1
    have eA : ∀ (i : Fin r) (j : Fin c), toMatrix val A r c i j = val (dataView o c A.data i j) :=
      fun i j => toMatrix_apply val A i j (dataView_get o A hA r c har hac i j i.isLt j.isLt)
    refine ⟨fun i => by rw [eL]; exact spec.lower_one i i.isLt, fun i j hij => by rw [eL]; exact spec.lower_zero i j hij j.isLt,
      fun i j hij => by rw [eU]; exact spec.upper_zero i j hij i.isLt j.isLt, ?_⟩
    rw [p5, q5]
    ext i j
    obtain ⟨b, hb, hbj⟩ := hQ.surj j j.isLt
    have hrow : ∀ (M : Matrix (Fin r) (Fin r) K) (i k : Fin r), (pmat K P.p r * M) i k = M ⟨at' P.p i, hP.lt i i.isLt⟩ k := by
      intro M i k
      rw [Matrix.mul_apply, Finset.sum_eq_single ⟨at' P.p i, hP.lt i i.isLt⟩]
      · simp [pmat]
      · intro x _ hx
        have : ¬ at' P.p i = x := fun h => hx (Fin.ext h.symm)
        simp [pmat, this]
      · simp
    have hcol : ∀ (M : Matrix (Fin r) (Fin c) K) (i : Fin r), (M * pmat K Q.p c) i j = M i ⟨b, hb⟩ := by
      intro M i
      rw [Matrix.mul_apply, Finset.sum_eq_single ⟨b, hb⟩]
      · simp [pmat, hbj]
      · intro x _ hx
        have : ¬ at' Q.p x = j := fun h => hx (Fin.ext (hQ.inj x b x.isLt hb (by rw [h, hbj])))
        simp [pmat, this]
      · simp
    rw [hcol, Matrix.mul_apply, eA]
    simp only [hrow, eL, eU]
    have := spec.product i b i.isLt hb
    rw [hbj] at this
    rw [← this, Finset.sum_range]

/-- Matrices with more rows than columns are rejected, and so are matrices without rows. -/
theorem C27_rejects (o : Ops E) (A : Mat E) :
    (A.rows > A.cols → factorizeFullPivLu o A = .error .dimension) ∧
    (A.rows = 0 → A.rows ≤ A.cols → factorizeFullPivLu o A = .error .assertion) := by
  constructor
  · intro h
    unfold factorizeFullPivLu luInternal
    rw [if_pos h]; rfl
  · intro h h'
    unfold factorizeFullPivLu luInternal
    rw [if_neg (by omega), h]; rfl

/-- Determinants of 1×1, 2×2 and 3×3 matrices, in any commutative ring. -/
theorem C28_small (o : Ops E) {K : Type} [CommRing K] (val : E → K) (ho : o.Values val) (ofSign : Int → E) (A : Mat E) (hA : A.WF) (n : Nat)
    (har : A.rows = n) (hac : A.cols = n) (h1 : 1 ≤ n) (h3 : n ≤ 3) :
    ∃ x, determinant o ofSign A = .ok x ∧ val x = (toMatrix val A n n).det := by
  have hg : ∀ i j : Nat, i < n → j < n → ∃ x, A.getUnchecked i j = .ok x ∧ A.get i j = .ok x := by
    intro i j hi hj
    obtain ⟨x, a, b, _⟩ := hA.get_ok (i := (i : Int)) (j := (j : Int)) (by omega) (by omega) (by omega) (by omega)
    exact ⟨x, b, a⟩
  unfold determinant
  rw [if_neg (by omega)]
  rcases (by omega : n = 1 ∨ n = 2 ∨ n = 3) with rfl | rfl | rfl
  · rw [if_pos (by omega)]
    obtain ⟨x, a, b⟩ := hg 0 0 (by omega) (by omega)
    refine ⟨x, a, ?_⟩
    rw [Matrix.det_unique]
    exact (toMatrix_apply val A (0 : Fin 1) (0 : Fin 1) b).symm
  · rw [if_neg (by omega), if_pos (by omega)]
    obtain ⟨x00, a00, b00⟩ := hg 0 0 (by omega) (by omega)
    obtain ⟨x01, a01, b01⟩ := hg 0 1 (by omega) (by omega)
    obtain ⟨x10, a10, b10⟩ := hg 1 0 (by omega) (by omega)
    obtain ⟨x11, a11, b11⟩ := hg 1 1 (by omega) (by omega)
    simp only [Nat.cast_zero, Nat.cast_one] at a00 a01 a10 a11
    refine ⟨_, by simp only [a00, a01, a10, a11, bind, Except.bind]; rfl, ?_⟩
    rw [Matrix.det_fin_two, toMatrix_apply val A (0 : Fin 2) (0 : Fin 2) b00, toMatrix_apply val A (0 : Fin 2) (1 : Fin 2) b01,
      toMatrix_apply val A (1 : Fin 2) (0 : Fin 2) b10, toMatrix_apply val A (1 : Fin 2) (1 : Fin 2) b11, ho.sub, ho.mul, ho.mul]
  · rw [if_neg (by omega), if_neg (by omega), if_pos (by omega)]
    obtain ⟨x00, a00, b00⟩ := hg 0 0 (by omega) (by omega)
    obtain ⟨x01, a01, b01⟩ := hg 0 1 (by omega) (by omega)
    obtain ⟨x02, a02, b02⟩ := hg 0 2 (by omega) (by omega)
    obtain ⟨x10, a10, b10⟩ := hg 1 0 (by omega) (by omega)
    obtain ⟨x11, a11, b11⟩ := hg 1 1 (by omega) (by omega)
    obtain ⟨x12, a12, b12⟩ := hg 1 2 (by omega) (by omega)
    obtain ⟨x20, a20, b20⟩ := hg 2 0 (by omega) (by omega)
    obtain ⟨x21, a21, b21⟩ := hg 2 1 (by omega) (by omega)
    obtain ⟨x22, a22, b22⟩ := hg 2 2 (by omega) (by omega)
    simp only [Nat.cast_zero, Nat.cast_one, Nat.cast_ofNat] at a00 a01 a02 a10 a11 a12 a20 a21 a22
    refine ⟨_, by simp only [a00, a01, a02, a10, a11, a12, a20, a21, a22, bind, Except.bind]; rfl, ?_⟩
    rw [Matrix.det_fin_three, toMatrix_apply val A (0 : Fin 3) (0 : Fin 3) b00, toMatrix_apply val A (0 : Fin 3) (1 : Fin 3) b01,
      toMatrix_apply val A (0 : Fin 3) (2 : Fin 3) b02, toMatrix_apply val A (1 : Fin 3) (0 : Fin 3) b10,
      toMatrix_apply val A (1 : Fin 3) (1 : Fin 3) b11, toMatrix_apply val A (1 : Fin 3) (2 : Fin 3) b12,
      toMatrix_apply val A (2 : Fin 3) (0 : Fin 3) b20, toMatrix_apply val A (2 : Fin 3) (1 : Fin 3) b21,
      toMatrix_apply val A (2 : Fin 3) (2 : Fin 3) b22]
    simp only [ho.sub, ho.mul, ho.add]

theorem val_foldl_mul (o : Ops E) {K : Type} [CommRing K] (val : E → K) (ho : o.Values val) (l : List E) (s : E) :
    val (l.foldl o.mul s) = val s * (l.map val).prod := by
  induction l generalizing s with
  | nil => simp
  | cons a l ih => rw [List.foldl_cons, ih, ho.mul, List.map_cons, List.prod_cons, mul_assoc]

theorem val_sign {K : Type} [CommRing K] (P Q : Perm) : ((P.determinant * Q.determinant : Int) : K) = (-1) ^ P.swaps * (-1) ^ Q.swaps := by
  have h : ∀ q : Perm, ((q.determinant : Int) : K) = (-1) ^ q.swaps := by
    intro q
    unfold Perm.determinant
    rcases Nat.mod_two_eq_zero_or_one q.swaps with h | h
    · rw [if_neg (by omega), Even.neg_one_pow (Nat.even_iff.mpr h)]; simp
    · rw [if_pos h, Odd.neg_one_pow (Nat.odd_iff.mpr h)]; simp
  push_cast
  rw [h, h]

/-- Determinants of all larger square matrices, provided the pivots the elimination divided by are not zero. Missing: the same without that
condition, which `C28_zero_pivot` shows to be false of the code. -/
theorem C28_large_partial (o : Ops E) {K : Type} [Field K] (val : E → K) (ho : o.FieldValues val) (ofSign : Int → E)
    (hsign : ∀ s : Int, s = 1 ∨ s = -1 → val (ofSign s) = s) (A : Mat E) (hA : A.WF) (n : Nat)
    (har : A.rows = n) (hac : A.cols = n) (h4 : 4 ≤ n) :
    ∃ x P L U Q, determinant o ofSign A = .ok x ∧ factorizeFullPivLu o A = .ok (P, L, U, Q) ∧
      (PivotsNonzero o val U → val x = (toMatrix val A n n).det) := by
  have hnn : n * n < 2 ^ 31 := by have := hA.size_lt; rw [har, hac] at this; exact_mod_cast this
  obtain ⟨Pm, Lm, Um, Qm, ef, -, -, -, -, -, -, -, -, -, -, -, -, -, -, himp⟩ := C27_lu o val ho A hA n n har hac (by omega) (by omega) hnn
  obtain ⟨P, L, U, Q, e, hP, hQ, l2, l3, l4, u2, u3, u4, Lo, Uo, es, hL, hU⟩ := luInternal_spec o A hA n n har hac (by omega) (by omega)
  obtain ⟨Pm', p1, p2, p3, p4, p5⟩ := permMatrix_spec o val ho.toValues P n hP hnn
  obtain ⟨Qm', q1, q2, q3, q4, q5⟩ := permMatrix_spec o val ho.toValues Q n hQ hnn
  have ef' : factorizeFullPivLu o A = .ok (Pm', L, U, Qm') := by
    unfold factorizeFullPivLu
    simp only [e, bind, Except.bind, p1, q1]
    rfl
  rw [ef'] at ef
  simp only [Except.ok.injEq, Prod.mk.injEq] at ef
  obtain ⟨rfl, rfl, rfl, rfl⟩ := ef
  have hdiag : (List.range n).mapM (fun (i : Nat) => U.getUnchecked (i : Int) (i : Int)) = .ok ((List.range n).map fun i => Uo i i) :=
    mapM_ok _ _ _ fun i hi => (hU i i (List.mem_range.mp hi) (List.mem_range.mp hi)).2
  refine ⟨((List.range n).map fun i => Uo i i).foldl o.mul (ofSign (P.determinant * Q.determinant)), Pm', L, U, Qm', ?_, ef', ?_⟩
  · unfold determinant
    rw [if_neg (by omega), if_neg (by omega), if_neg (by omega), if_neg (by omega)]
    simp only [e, bind, Except.bind, har, Int.toNat_natCast, hdiag]
    rfl
  · intro hpiv
    obtain ⟨i1, i2, i3, i4⟩ := himp hpiv
    obtain ⟨s1, s2⟩ := luSpan_sign K o n n (by omega) (by omega) _ _ P Q Lo Uo es
    have hd := congrArg Matrix.det i4
    rw [Matrix.det_mul, Matrix.det_mul, Matrix.det_mul, p5, q5, s1, s2] at hd
    have hLdet : (toMatrix val L n n).det = 1 := by
      rw [Matrix.det_of_isLowerTriangular _ (fun i j hij => i2 i j hij), Finset.prod_eq_one fun i _ => i1 i]
    have hUdet : (toMatrix val U n n).det = ∏ i : Fin n, val (Uo i i) := by
      rw [Matrix.det_of_isUpperTriangular (fun i j hij => i3 i j hij)]
      exact Finset.prod_congr rfl fun i _ => toMatrix_apply val U i i (hU i i i.isLt i.isLt).1
    rw [hLdet, hUdet] at hd
    have hs : P.determinant * Q.determinant = 1 ∨ P.determinant * Q.determinant = -1 := by
      unfold Perm.determinant
      split <;> split <;> simp
    rw [val_foldl_mul o val ho.toValues, hsign _ hs, val_sign, ← hd, List.map_map]
    have hprod : (List.map (val ∘ fun i => Uo i i) (List.range n)).prod = ∏ i : Fin n, val (Uo i i) := by
      rw [← Finset.prod_range (fun i => val (Uo i i)), Finset.prod_eq_multiset_prod]
      rfl
    rw [hprod]
    ring

/-- With entries whose zero test is exact (numbers), the determinant of every non-empty square matrix is the mathematical one. -/
theorem C28_exact_zero_test (o : Ops E) {K : Type} [Field K] (val : E → K) (ho : o.FieldValues val) (hz : ∀ a, val a = 0 → o.isZero a = true)
    (ofSign : Int → E) (hsign : ∀ s : Int, s = 1 ∨ s = -1 → val (ofSign s) = s) (A : Mat E) (hA : A.WF) (n : Nat)
    (har : A.rows = n) (hac : A.cols = n) (h1 : 1 ≤ n) : ∃ x, determinant o ofSign A = .ok x ∧ val x = (toMatrix val A n n).det := by
  by_cases h4 : 4 ≤ n
  · obtain ⟨x, _, _, U, _, h, _, hv⟩ := C28_large_partial o val ho ofSign hsign A hA n har hac h4
    refine ⟨x, h, hv fun k _ y _ hy h0 => ?_⟩
    rw [hz y h0] at hy
    exact Bool.noConfusion hy
  · exact C28_small o val ho.toValues ofSign A hA n har hac h1 (by omega)

/-- Matrices that are not square are rejected; so is the 0×0 matrix, whose mathematical determinant is 1. -/
theorem C28_rejects (o : Ops E) (ofSign : Int → E) (A : Mat E) :
    (A.rows ≠ A.cols → determinant o ofSign A = .error .dimension) ∧
    (A.rows = 0 → A.cols = 0 → determinant o ofSign A = .error .assertion) := by
  constructor
  · intro h
    unfold determinant
    rw [if_pos h]
  · intro h h'
    unfold determinant luInternal
    rw [if_neg (by omega), if_neg (by omega), if_neg (by omega), if_neg (by omega), if_neg (by omega), h]
    rfl

/-! ## Non-vacuity and the limits of the pivot condition -/

def ratOps : Ops Rat := ⟨0, 1, (· + ·), (· - ·), (· * ·), (· / ·), List.sum, fun x => x == 0⟩

theorem ratOps_values : ratOps.FieldValues (K := ℚ) id :=
  { zero := rfl, one := rfl, add := fun _ _ => rfl, sub := fun _ _ => rfl, mul := fun _ _ => rfl, sum := fun l _ => by simp [ratOps],
    isZero := fun a h => by simpa [ratOps] using h, div := fun _ _ _ => rfl }

/-- With entries that decide zero exactly the pivot condition always holds. -/
theorem ratOps_pivots (U : Mat Rat) : PivotsNonzero ratOps (K := ℚ) id U := by
  intro k _ x _ hz
  simpa [ratOps] using hz

example : (⟨4, 4, [0, 2, 0, 0, 3, 0, 0, 0, 0, 0, 0, 5, 0, 0, 7, 1]⟩ : Mat Rat).WF := ⟨by decide, by decide, by decide, by decide⟩
example : determinant ratOps (fun s => (s : Rat)) ⟨4, 4, [0, 2, 0, 0, 3, 0, 0, 0, 0, 0, 0, 5, 0, 0, 7, 1]⟩ = .ok 210 := by decide +kernel
example : (factorizeFullPivLu ratOps ⟨2, 3, [0, 2, 4, 3, 5, 7]⟩).toOption.isSome = true := by decide +kernel

/-- Entries seen at one assignment of the variables: is the entry the literal zero, and what is its value there (`none` after a division
by zero)? -/
abbrev Sym := Bool × Option Rat

/-- Arithmetic on such entries; only the literal zero is recognised as zero. -/
def symOps : Ops Sym where
  zero := (true, some 0)
  one := (false, some 1)
  add a b := (a.1 && b.1, do return (← a.2) + (← b.2))
  sub a b := (a.1 && b.1, do return (← a.2) - (← b.2))
  mul a b := (a.1 || b.1, if a.1 || b.1 then some 0 else do return (← a.2) * (← b.2))
  div a b := (a.1, if a.1 then some 0 else do
    let x ← a.2
    let y ← b.2
    if y = 0 then none else return x / y)
  sum l := l.foldl (fun a b => (a.1 && b.1, do return (← a.2) + (← b.2))) (true, some 0)
  isZero a := a.1

/-- The pivot condition is needed: the matrix [[x,1,0,0],[1,0,0,0],[0,0,1,0],[0,0,0,1]] at the assignment `x = 0` has determinant -1, but the
returned formula divides by `x` and has no value there. -/
theorem C28_zero_pivot :
    ∃ x l z : Sym, x = (false, some 0) ∧ l = (false, some 1) ∧ z = symOps.zero ∧
      ∃ A : Mat Sym, A = ⟨4, 4, [x, l, z, z, l, z, z, z, z, z, l, z, z, z, z, l]⟩ ∧
        (toMatrix (K := ℚ) (fun e => e.2.getD 0) A 4 4).det = -1 ∧
        ∃ d, determinant symOps (fun s => (false, some s)) A = .ok d ∧ d.2 = none := by
  refine ⟨_, _, _, rfl, rfl, rfl, _, rfl, ?_, ?_⟩
  · have e : toMatrix (K := ℚ) (fun e : Sym => e.2.getD 0) ⟨4, 4, [(false, some 0), (false, some 1), symOps.zero, symOps.zero, (false, some 1),
        symOps.zero, symOps.zero, symOps.zero, symOps.zero, symOps.zero, (false, some 1), symOps.zero, symOps.zero, symOps.zero, symOps.zero,
        (false, some 1)]⟩ 4 4 = !![0, 1, 0, 0; 1, 0, 0, 0; 0, 0, 1, 0; 0, 0, 0, 1] := by
      ext i j
      fin_cases i <;> fin_cases j <;> rfl
    rw [e]
    simp [Matrix.det_succ_row_zero, Fin.sum_univ_succ, Fin.succAbove]
  · exact ⟨(false, none), by decide +kernel, rfl⟩

end Wf.Mat
