import Verif.Geo.QuaternionModel
import Verif.Geo.RotationLemmas
import Verif.Geo.AxisAngleLemmas

/-! # C29 – C33: quaternions and rotations -/

namespace Wf.Geo

open Matrix

variable {R : Type*}

/-! ## C29 -/

theorem C29_mul_assoc [CommRing R] (a b c : Quat R) : (a.mul b).mul c = a.mul (b.mul c) := by
  ext <;> simp only [Quat.mul] <;> ring

theorem C29_one_mul [CommRing R] (a : Quat R) : Quat.one.mul a = a ∧ a.mul Quat.one = a := by
  constructor <;> ext <;> simp [Quat.mul, Quat.one]

theorem C29_conj_reverses [CommRing R] (a b : Quat R) : (a.mul b).conj = b.conj.mul a.conj := by
  ext <;> simp only [Quat.mul, Quat.conj] <;> ring

theorem C29_norm_multiplicative [CommRing R] (a b : Quat R) :
    (a.mul b).squaredNorm = a.squaredNorm * b.squaredNorm := by
  simp only [Quat.mul, Quat.squaredNorm]; ring

theorem C29_mul_inverse [Field R] (a : Quat R) (h : a.squaredNorm ≠ 0) :
    a.mul a.inverse = Quat.one ∧ a.inverse.mul a = Quat.one := by
  have h' : a.w ^ 2 + a.x ^ 2 + a.y ^ 2 + a.z ^ 2 ≠ 0 := by
    intro h0; apply h; unfold Quat.squaredNorm; linear_combination h0
  constructor <;> ext <;> simp only [Quat.mul, Quat.inverse, Quat.squaredNorm, Quat.one] <;> field_simp <;> try ring

/-- Over the reals only the zero quaternion has zero norm, so every other one is invertible. -/
theorem C29_nonzero_invertible (a : Quat ℝ) (h : a ≠ ⟨0, 0, 0, 0⟩) :
    a.mul a.inverse = Quat.one ∧ a.inverse.mul a = Quat.one := by
  apply C29_mul_inverse
  intro h0
  apply h
  unfold Quat.squaredNorm at h0
  have hw := mul_self_nonneg a.w
  have hx := mul_self_nonneg a.x
  have hy := mul_self_nonneg a.y
  have hz := mul_self_nonneg a.z
  ext
  · exact mul_self_eq_zero.mp (by linarith)
  · exact mul_self_eq_zero.mp (by linarith)
  · exact mul_self_eq_zero.mp (by linarith)
  · exact mul_self_eq_zero.mp (by linarith)

/-! ## C30 -/

/-- The specification of a rotation matrix. -/
def IsRotation [CommRing R] (M : Matrix (Fin 3) (Fin 3) R) : Prop := M * Mᵀ = 1 ∧ Mᵀ * M = 1 ∧ M.det = 1

theorem C30_matrix_is_rotation [CommRing R] (q : Quat R) (h : q.squaredNorm = 1) : IsRotation q.toRotationMatrix := by
  unfold Quat.squaredNorm at h
  refine ⟨?_, ?_, ?_⟩
  · ext i j
    fin_cases i <;> fin_cases j <;>
      simp [Quat.toRotationMatrix, Matrix.mul_apply, Fin.sum_univ_three] <;> grind
  · ext i j
    fin_cases i <;> fin_cases j <;>
      simp [Quat.toRotationMatrix, Matrix.mul_apply, Fin.sum_univ_three] <;> grind
  · rw [Matrix.det_fin_three]
    simp [Quat.toRotationMatrix]
    grind

/-- Rotating a vector (through the quaternion product) is multiplication by the rotation matrix. -/
theorem C30_rotate_eq_matrix [CommRing R] (q : Quat R) (h : q.squaredNorm = 1) (v : Fin 3 → R) :
    q.rotate v = q.toRotationMatrix *ᵥ v := by
  unfold Quat.squaredNorm at h
  ext i
  fin_cases i <;>
    simp [Quat.toRotationMatrix, Quat.rotate, Quat.mul, Quat.conj, Matrix.mulVec, dotProduct, Fin.sum_univ_three]
  · linear_combination (v 0) * h
  · linear_combination (v 1) * h
  · linear_combination (v 2) * h

/-- The rotation matrix of a product is the product of the rotation matrices. -/
theorem C30_matrix_of_product [CommRing R] (a b : Quat R) (ha : a.squaredNorm = 1) (hb : b.squaredNorm = 1) :
    (a.mul b).toRotationMatrix = a.toRotationMatrix * b.toRotationMatrix := by
  unfold Quat.squaredNorm at ha hb
  ext i j
  fin_cases i <;> fin_cases j <;>
    simp [Quat.toRotationMatrix, Quat.mul, Matrix.mul_apply, Fin.sum_univ_three] <;> grind

/-- A quaternion and its negative are the same rotation. -/
theorem C30_negation_same_rotation [CommRing R] (a : Quat R) : a.neg.toRotationMatrix = a.toRotationMatrix := by
  ext i j
  fin_cases i <;> fin_cases j <;> simp [Quat.toRotationMatrix, Quat.neg]

/-- The conjugate rotates back. -/
theorem C30_conj_is_transpose [CommRing R] (a : Quat R) : a.conj.toRotationMatrix = a.toRotationMatrixᵀ := by
  ext i j
  fin_cases i <;> fin_cases j <;> simp [Quat.toRotationMatrix, Quat.conj] <;> ring

/-- A concrete unit quaternion with no zero component, over the rationals. -/
example : (⟨1 / 2, 1 / 2, -1 / 2, 1 / 2⟩ : Quat ℚ).squaredNorm = 1 := by norm_num [Quat.squaredNorm]

/-! ## C31 -/

/-- The quaternion computed from a rotation matrix has norm one and its matrix is the input. -/
theorem C31_from_rotation_matrix (M : Matrix (Fin 3) (Fin 3) ℝ) (h : IsRotation M) :
    (fromRotationMatrix M).squaredNorm = 1 ∧ (fromRotationMatrix M).toRotationMatrix = M :=
  fromRotationMatrix_spec h.1 h.2.1 h.2.2

/-- Converting a unit quaternion to a matrix and back gives the quaternion or its negative. -/
theorem C31_round_trip (q : Quat ℝ) (h : q.squaredNorm = 1) :
    fromRotationMatrix q.toRotationMatrix = q ∨ fromRotationMatrix q.toRotationMatrix = q.neg := by
  obtain ⟨h1, h2⟩ := C31_from_rotation_matrix _ (C30_matrix_is_rotation q h)
  generalize fromRotationMatrix q.toRotationMatrix = p at *
  unfold Quat.squaredNorm at h h1
  have e : ∀ i j, p.toRotationMatrix i j = q.toRotationMatrix i j := fun i j => by rw [h2]
  have e00 := e 0 0
  have e01 := e 0 1
  have e02 := e 0 2
  have e10 := e 1 0
  have e11 := e 1 1
  have e12 := e 1 2
  have e20 := e 2 0
  have e21 := e 2 1
  have e22 := e 2 2
  simp [Quat.toRotationMatrix] at e00 e01 e02 e10 e11 e12 e20 e21 e22
  -- `(p · q)² = 1`, so `|p - q|² |p + q|² = 0`
  have hww : p.w * p.w = q.w * q.w := by linarith
  have hxx : p.x * p.x = q.x * q.x := by linarith
  have hyy : p.y * p.y = q.y * q.y := by linarith
  have hzz : p.z * p.z = q.z * q.z := by linarith
  have hwx : p.w * p.x = q.w * q.x := by linarith
  have hwy : p.w * p.y = q.w * q.y := by linarith
  have hwz : p.w * p.z = q.w * q.z := by linarith
  have hxy : p.x * p.y = q.x * q.y := by linarith
  have hxz : p.x * p.z = q.x * q.z := by linarith
  have hyz : p.y * p.z = q.y * q.z := by linarith
  set s := p.w * q.w + p.x * q.x + p.y * q.y + p.z * q.z with hs
  have hw : p.w = s * q.w := by
    linear_combination (-p.w) * h1 + p.w * hww + p.x * hwx + p.y * hwy + p.z * hwz
  have hx : p.x = s * q.x := by
    linear_combination (-p.x) * h1 + p.w * hwx + p.x * hxx + p.y * hxy + p.z * hxz
  have hy : p.y = s * q.y := by
    linear_combination (-p.y) * h1 + p.w * hwy + p.x * hxy + p.y * hyy + p.z * hyz
  have hz : p.z = s * q.z := by
    linear_combination (-p.z) * h1 + p.w * hwz + p.x * hxz + p.y * hyz + p.z * hzz
  have hs2 : s * s = 1 := by
    linear_combination h1 - p.w * hw - p.x * hx - p.y * hy - p.z * hz
  rcases mul_self_eq_one_iff.mp hs2 with e | e
  · left; rw [e] at hw hx hy hz; ext <;> linarith
  · right; rw [e] at hw hx hy hz; ext <;> simp only [Quat.neg] <;> linarith

/-- A rotation by a half turn, where the branch on the trace is not taken. -/
example : IsRotation (!![-1, 0, 0; 0, -1, 0; 0, 0, 1] : Matrix (Fin 3) (Fin 3) ℝ) := by
  refine ⟨?_, ?_, ?_⟩
  · ext i j; fin_cases i <;> fin_cases j <;> simp [Matrix.mul_apply, Fin.sum_univ_three]
  · ext i j; fin_cases i <;> fin_cases j <;> simp [Matrix.mul_apply, Fin.sum_univ_three]
  · rw [Matrix.det_fin_three]; simp

/-! ## C32 -/

/-- The rotation by `θ` about a unit axis: norm one, and its matrix is the matrix exponential of the cross product matrix. -/
theorem C32_from_angle_axis (θ : ℝ) (v : Fin 3 → ℝ) (hv : v 0 * v 0 + v 1 * v 1 + v 2 * v 2 = 1) :
    (fromAngleAxis θ (v 0) (v 1) (v 2)).squaredNorm = 1 ∧
    (fromAngleAxis θ (v 0) (v 1) (v 2)).toRotationMatrix = NormedSpace.exp (θ • skew v) :=
  ⟨fromAngleAxis_norm θ v hv, by rw [fromAngleAxis_matrix θ v hv, exp_skew_eq_rodrigues v hv θ]⟩

/-- A non-zero rotation vector represents the exponential of its cross product matrix. -/
theorem C32_from_rotation_vector (v : Fin 3 → ℝ) (h : v ≠ 0) :
    (fromRotationVector (v 0) (v 1) (v 2) none).squaredNorm = 1 ∧
    (fromRotationVector (v 0) (v 1) (v 2) none).toRotationMatrix = NormedSpace.exp (skew v) := by
  have h0 := vecAngle_ne_zero h
  obtain ⟨u, hu, huv⟩ := exists_unit v h0
  rw [fromRotationVector_eq v u h0 huv]
  have := C32_from_angle_axis (vecAngle v) u hu
  refine ⟨this.1, ?_⟩
  rw [this.2, ← skew_smul, ← huv]

/-- With a non-negative epsilon: always a unit quaternion, exact above epsilon and at the zero vector. -/
theorem C32_from_rotation_vector_epsilon (v : Fin 3 → ℝ) (eps : ℝ) (he : 0 ≤ eps) :
    (fromRotationVector (v 0) (v 1) (v 2) (some eps)).squaredNorm = 1 ∧
    ((vecAngle v > eps ∨ v = 0) →
      (fromRotationVector (v 0) (v 1) (v 2) (some eps)).toRotationMatrix = NormedSpace.exp (skew v)) := by
  by_cases hgt : vecAngle v > eps
  · have hv : v ≠ 0 := by
      rintro rfl
      simp [vecAngle] at hgt
      linarith
    rw [fromRotationVector_some_gt v eps hgt]
    exact ⟨(C32_from_rotation_vector v hv).1, fun _ => (C32_from_rotation_vector v hv).2⟩
  · rw [fromRotationVector_some_le v eps hgt]
    refine ⟨normalized_norm _ ?_, ?_⟩
    · simp only [Quat.squaredNorm]
      nlinarith [mul_self_nonneg (v 0 / 2), mul_self_nonneg (v 1 / 2), mul_self_nonneg (v 2 / 2)]
    · rintro (h | rfl)
      · exact absurd h hgt
      · have h0 : skew 0 = 0 := by ext i j; fin_cases i <;> fin_cases j <;> simp [skew]
        rw [h0, NormedSpace.exp_zero]
        ext i j
        fin_cases i <;> fin_cases j <;> simp [Quat.toRotationMatrix, Quat.normalized, Quat.norm, Quat.squaredNorm]

/-- Axis and angle of a unit quaternion other than plus or minus one: the angle is in `(0, π]`, the axis has norm one, and together
they represent the same rotation. -/
theorem C32_to_angle_axis (q : Quat ℝ) (h : q.squaredNorm = 1) (hv : ¬ (q.x = 0 ∧ q.y = 0 ∧ q.z = 0)) :
    let r := toAngleAxis q none
    (0 < r.1 ∧ r.1 ≤ Real.pi) ∧ r.2.1 * r.2.1 + r.2.2.1 * r.2.2.1 + r.2.2.2 * r.2.2.2 = 1 ∧
    (fromAngleAxis r.1 r.2.1 r.2.2.1 r.2.2.2 = q ∨ fromAngleAxis r.1 r.2.1 r.2.2.1 r.2.2.2 = q.neg) := by
  have hn := vnorm_ne_zero hv
  have hh := half_of_unit q h
  have hsq := vnorm_sq q
  rw [toAngleAxis_none]
  refine ⟨⟨by have := hh.pos hn; simp only; linarith, by have := hh.le; simp only; linarith⟩, ?_, ?_⟩
  · have hs := sgnW_sq q
    simp only
    field_simp
    linear_combination (q.x ^ 2 + q.y ^ 2 + q.z ^ 2) * hs - hsq
  · simp only [fromAngleAxis]
    rw [mul_div_assoc, div_self two_ne_zero, mul_one, hh.cos_eq, hh.sin_eq]
    rw [div_mul_cancel₀ _ hn, div_mul_cancel₀ _ hn, div_mul_cancel₀ _ hn]
    have ha := sgnW_mul_abs q
    rcases sgnW_cases q with e | e <;> rw [e] at ha ⊢
    · left; ext <;> simp only [one_mul] <;> linarith
    · right; ext <;> simp only [Quat.neg] <;> linarith

/-- The same with an epsilon, whenever the vector part exceeds it; and for plus or minus one the result is the identity rotation. -/
theorem C32_to_angle_axis_epsilon (q : Quat ℝ) (eps : ℝ) :
    ((q.x * q.x + q.y * q.y + q.z * q.z > eps * eps ∧ 0 ≤ eps) → toAngleAxis q (some eps) = toAngleAxis q none) ∧
    ((q.x = 0 ∧ q.y = 0 ∧ q.z = 0 ∧ 0 ≤ eps) → toAngleAxis q (some eps) = (0, 1, 0, 0)) := by
  constructor
  · rintro ⟨h, he⟩
    apply toAngleAxis_some
    have := vnorm_sq q
    have := vnorm_nonneg q
    by_contra hc
    nlinarith
  · rintro ⟨h1, h2, h3, he⟩
    have hs : ¬ √(0 : ℝ) > eps := by simpa using he
    simp [toAngleAxis, h1, h2, h3, he]

/-- An angle in `(0, π]` and a unit axis are recovered exactly. -/
theorem C32_angle_axis_recovered (θ : ℝ) (v : Fin 3 → ℝ) (hv : v 0 * v 0 + v 1 * v 1 + v 2 * v 2 = 1)
    (h0 : 0 < θ) (h1 : θ ≤ Real.pi) :
    toAngleAxis (fromAngleAxis θ (v 0) (v 1) (v 2)) none = (θ, v 0, v 1, v 2) := by
  obtain ⟨hn, hw, ha⟩ := fromAngleAxis_half θ v hv h0 h1
  rw [toAngleAxis_none, hn, ha, hw]
  have hs : Real.sin (θ / 2) ≠ 0 := (Real.sin_pos_of_pos_of_lt_pi (by linarith) (by linarith)).ne'
  simp only [fromAngleAxis, one_mul]
  ext <;> simp only <;> field_simp

/-- The rotation vector of a unit quaternion other than plus or minus one represents the same rotation, and its length is in `(0, π]`. -/
theorem C32_to_rotation_vector (q : Quat ℝ) (h : q.squaredNorm = 1) (hv : ¬ (q.x = 0 ∧ q.y = 0 ∧ q.z = 0)) :
    let r := toRotationVector q none
    (0 < vecAngle ![r.1, r.2.1, r.2.2] ∧ vecAngle ![r.1, r.2.1, r.2.2] ≤ Real.pi) ∧
    (fromRotationVector r.1 r.2.1 r.2.2 none = q ∨ fromRotationVector r.1 r.2.1 r.2.2 none = q.neg) := by
  intro r
  have hr : r = toRotationVector q none := rfl
  rw [toRotationVector_angleAxis] at hr
  obtain ⟨⟨h1, h2⟩, h3, h4⟩ := C32_to_angle_axis q h hv
  generalize toAngleAxis q none = a at *
  obtain ⟨φ, ux, uy, uz⟩ := a
  simp only at hr h1 h2 h3 h4
  have hvec : ![r.1, r.2.1, r.2.2] = φ • ![ux, uy, uz] := by rw [hr]; simp
  have hang : vecAngle ![r.1, r.2.1, r.2.2] = φ := by
    rw [hvec]; exact vecAngle_smul_unit φ _ (by simpa using h3) h1.le
  refine ⟨by rw [hang]; exact ⟨h1, h2⟩, ?_⟩
  have hf := fromRotationVector_eq ![r.1, r.2.1, r.2.2] ![ux, uy, uz] (by rw [hang]; exact h1.ne') (by rw [hang]; exact hvec)
  rw [hang] at hf
  simp at hf
  rw [hf]
  exact h4

/-- A rotation vector of length in `(0, π]` is recovered exactly. -/
theorem C32_rotation_vector_recovered (v : Fin 3 → ℝ) (h0 : v ≠ 0) (h1 : vecAngle v ≤ Real.pi) :
    toRotationVector (fromRotationVector (v 0) (v 1) (v 2) none) none = (v 0, v 1, v 2) := by
  have h0' := vecAngle_ne_zero h0
  obtain ⟨u, hu, huv⟩ := exists_unit v h0'
  have hpos : 0 < vecAngle v := lt_of_le_of_ne (vecAngle_nonneg v) (Ne.symm h0')
  rw [fromRotationVector_eq v u h0' huv, toRotationVector_angleAxis, C32_angle_axis_recovered _ u hu hpos h1]
  simp only
  conv_rhs => rw [huv]
  simp

/-- The arccosine variant gives the same vector for every unit quaternion, with the same epsilon. -/
theorem C32_acos_variant_agrees (q : Quat ℝ) (h : q.squaredNorm = 1) (e : Option ℝ) :
    toRotationVectorAcos q e = toRotationVector q e := toRotationVectorAcos_eq q h e

/-! ## C33 -/

/-- The two closed forms are inverse to each other at every vector whose length is not a multiple of `π`. -/
theorem C33_inverse (v : Fin 3 → ℝ) (h : Real.sin (vecAngle v) ≠ 0) :
    leftJacobian v none * inverseLeftJacobian v none = 1 ∧ inverseLeftJacobian v none * leftJacobian v none = 1 := by
  have h0 : vecAngle v ≠ 0 := by intro e; rw [e] at h; simp at h
  have hJ : leftJacobian v none * inverseLeftJacobian v none = 1 := by
    obtain ⟨h1, h2⟩ := jacobian_coefs (vecAngle v) h0 h
    exact jacobian_product v _ _ _ _ h1 h2
  exact ⟨hJ, mul_eq_one_comm.mp hJ⟩

/-- With an epsilon: inverse to each other above epsilon, and at the zero vector. -/
theorem C33_inverse_epsilon (v : Fin 3 → ℝ) (eps : ℝ) (he : 0 ≤ eps)
    (h : (vecAngle v > eps ∧ Real.sin (vecAngle v) ≠ 0) ∨ v = 0) :
    leftJacobian v (some eps) * inverseLeftJacobian v (some eps) = 1 := by
  rcases h with ⟨h1, h2⟩ | rfl
  · have := (C33_inverse v h2).1
    simp only [leftJacobian, inverseLeftJacobian, h1, if_true] at this ⊢
    exact this
  · have h0 : skew 0 = 0 := by ext i j; fin_cases i <;> fin_cases j <;> simp [skew]
    simp [leftJacobian, inverseLeftJacobian, h0]

/-- The formula for the inverse divides by zero when the length is `π`, although the left Jacobian is invertible there: the divisor
`2 θ sin θ` vanishes. -/
theorem C33_inverse_divides_by_zero_at_pi :
    vecAngle ![Real.pi, 0, 0] = Real.pi ∧ 2 * vecAngle ![Real.pi, 0, 0] * Real.sin (vecAngle ![Real.pi, 0, 0]) = 0 ∧
    IsUnit (leftJacobian ![Real.pi, 0, 0] none).det := by
  have h : vecAngle ![Real.pi, 0, 0] = Real.pi := by
    simp [vecAngle, Real.sqrt_mul_self Real.pi_pos.le]
  refine ⟨h, by rw [h]; simp, ?_⟩
  have hd : (leftJacobian ![Real.pi, 0, 0] none).det = 4 / Real.pi ^ 2 := by
    have hp := Real.pi_pos.ne'
    rw [Matrix.det_fin_three]
    simp [leftJacobian, h, skew]
    field_simp
    norm_num
  rw [hd]
  exact (div_pos (by norm_num) (pow_pos Real.pi_pos 2)).ne'.isUnit

/-- A non-zero rotation vector whose length is not a multiple of `π`. -/
example : (![1, 0, 0] : Fin 3 → ℝ) ≠ 0 ∧ Real.sin (vecAngle ![1, 0, 0]) ≠ 0 ∧ vecAngle ![1, 0, 0] ≤ Real.pi := by
  have h : vecAngle ![1, 0, 0] = 1 := by simp [vecAngle]
  refine ⟨by intro h; simpa using congrFun h 0, ?_, ?_⟩
  · rw [h]; exact (Real.sin_pos_of_pos_of_lt_pi one_pos (by linarith [Real.two_le_pi])).ne'
  · rw [h]; linarith [Real.two_le_pi]

/-- The left Jacobian is the integral over `[0, 1]` of the exponential map, as documented. -/
theorem C33_left_jacobian_integral (v : Fin 3 → ℝ) (h : v ≠ 0) (i j : Fin 3) :
    leftJacobian v none i j = ∫ α in (0 : ℝ)..1, (NormedSpace.exp (α • skew v) : Matrix (Fin 3) (Fin 3) ℝ) i j := by
  have h0 := vecAngle_ne_zero h
  obtain ⟨u, hu, huv⟩ := exists_unit v h0
  have hs : skew v = vecAngle v • skew u := by rw [← skew_smul, ← huv]
  have : ∀ α : ℝ, NormedSpace.exp (α • skew v) = rodrigues (α * vecAngle v) u := by
    intro α
    rw [hs, smul_smul, exp_skew_eq_rodrigues u hu]
  simp only [this]
  rw [integral_rodrigues _ h0]
  unfold leftJacobian
  simp only
  rw [hs]
  simp only [Matrix.add_apply, Matrix.smul_apply, Matrix.smul_mul, Matrix.mul_smul, smul_eq_mul]
  field_simp

/-- Perturbing the rotation vector by `δ` multiplies the rotation on the left by the infinitesimal rotation `J δ`: the derivative of
the quaternion along `δ` is `½ (0, J δ) q`. -/
theorem C33_left_jacobian_derivative (w δ : Fin 3 → ℝ) (h : w ≠ 0) :
    let q := fromRotationVector (w 0) (w 1) (w 2) none
    let J := leftJacobian w none *ᵥ δ
    let d := Quat.mul ⟨0, J 0 / 2, J 1 / 2, J 2 / 2⟩ q
    HasDerivAt (fun t => (fromRotationVector (w 0 + t * δ 0) (w 1 + t * δ 1) (w 2 + t * δ 2) none).w) d.w 0 ∧
    HasDerivAt (fun t => (fromRotationVector (w 0 + t * δ 0) (w 1 + t * δ 1) (w 2 + t * δ 2) none).x) d.x 0 ∧
    HasDerivAt (fun t => (fromRotationVector (w 0 + t * δ 0) (w 1 + t * δ 1) (w 2 + t * δ 2) none).y) d.y 0 ∧
    HasDerivAt (fun t => (fromRotationVector (w 0 + t * δ 0) (w 1 + t * δ 1) (w 2 + t * δ 2) none).z) d.z 0 :=
  fromRotationVector_deriv w δ (vecAngle_ne_zero h)

end Wf.Geo
