import Verif.Geo.QuaternionModel
import Mathlib.Tactic.LinearCombination
import Mathlib.Tactic.FieldSimp
import Mathlib.Tactic.FinCases
import Mathlib.Tactic.Linarith
import Mathlib.Tactic.Module
import Mathlib.Analysis.SpecialFunctions.Integrals.Basic
import Mathlib.Analysis.Normed.Algebra.MatrixExponential
import Mathlib.Analysis.SpecialFunctions.Exponential
import Mathlib.Analysis.Calculus.MeanValue

/-! # Facts about the axis-angle formulas -/

namespace Wf.Geo

open Matrix

theorem vecAngle_sq (v : Fin 3 → ℝ) : vecAngle v * vecAngle v = v 0 * v 0 + v 1 * v 1 + v 2 * v 2 := by
  unfold vecAngle
  exact Real.mul_self_sqrt (by nlinarith [mul_self_nonneg (v 0), mul_self_nonneg (v 1), mul_self_nonneg (v 2)])

theorem vecAngle_nonneg (v : Fin 3 → ℝ) : 0 ≤ vecAngle v := Real.sqrt_nonneg _

/-- `S³ = -θ² S`. -/
theorem skew_cube (v : Fin 3 → ℝ) : skew v * skew v * skew v = (-(vecAngle v * vecAngle v)) • skew v := by
  rw [vecAngle_sq]
  ext i j
  fin_cases i <;> fin_cases j <;>
    simp [skew, Matrix.mul_apply, Fin.sum_univ_three] <;> ring

theorem skew_smul (a : ℝ) (v : Fin 3 → ℝ) : skew (a • v) = a • skew v := by
  ext i j
  fin_cases i <;> fin_cases j <;> simp [skew]

/-- Rodrigues' formula for a unit axis. -/
noncomputable def rodrigues (θ : ℝ) (v : Fin 3 → ℝ) : Matrix (Fin 3) (Fin 3) ℝ :=
  1 + Real.sin θ • skew v + (1 - Real.cos θ) • (skew v * skew v)

theorem skew_cube_unit (v : Fin 3 → ℝ) (hv : v 0 * v 0 + v 1 * v 1 + v 2 * v 2 = 1) :
    skew v * (skew v * skew v) = -skew v := by
  rw [← Matrix.mul_assoc, skew_cube, vecAngle_sq, hv, neg_smul, one_smul]

open scoped Matrix.Norms.Operator in
theorem exp_skew_eq_rodrigues (v : Fin 3 → ℝ) (hv : v 0 * v 0 + v 1 * v 1 + v 2 * v 2 = 1) (θ : ℝ) :
    NormedSpace.exp (θ • skew v) = rodrigues θ v := by
  have hR : ∀ t, HasDerivAt (fun t => rodrigues t v) (skew v * rodrigues t v) t := by
    intro t
    have hs := (Real.hasDerivAt_sin t).smul_const (skew v)
    have hcc := ((Real.hasDerivAt_cos t).const_sub 1).smul_const (skew v * skew v)
    have h := ((hasDerivAt_const t (1 : Matrix (Fin 3) (Fin 3) ℝ)).add hs).add hcc
    have e : skew v * rodrigues t v = 0 + Real.cos t • skew v + -(-Real.sin t) • (skew v * skew v) := by
      unfold rodrigues
      rw [Matrix.mul_add, Matrix.mul_add, Matrix.mul_one, Matrix.mul_smul, Matrix.mul_smul, skew_cube_unit v hv]
      module
    rw [e]
    exact h
  have hE : ∀ t : ℝ, HasDerivAt (fun u : ℝ => NormedSpace.exp (u • (-skew v))) (NormedSpace.exp (t • (-skew v)) * (-skew v)) t :=
    fun t => hasDerivAt_exp_smul_const (-skew v) t
  have hprod : ∀ t, HasDerivAt (fun u : ℝ => NormedSpace.exp (u • (-skew v)) * rodrigues u v) 0 t := by
    intro t
    have := (hE t).mul (hR t)
    have e : NormedSpace.exp (t • (-skew v)) * -skew v * rodrigues t v + NormedSpace.exp (t • (-skew v)) * (skew v * rodrigues t v) = 0 := by
      rw [Matrix.mul_neg, Matrix.neg_mul, Matrix.mul_assoc]; simp
    rw [e] at this
    exact this
  have hconst := is_const_of_deriv_eq_zero (fun t => (hprod t).differentiableAt) (fun t => (hprod t).deriv) θ 0
  have h0 : rodrigues 0 v = 1 := by simp [rodrigues]
  simp only [zero_smul, NormedSpace.exp_zero, h0, Matrix.mul_one] at hconst
  have hinv : NormedSpace.exp (θ • skew v) * NormedSpace.exp (θ • (-skew v)) = 1 := by
    rw [smul_neg, Matrix.exp_neg]
    exact Matrix.mul_nonsing_inv _ ((Matrix.isUnit_iff_isUnit_det _).mp (Matrix.isUnit_exp _))
  have := congrArg (fun X => NormedSpace.exp (θ • skew v) * X) hconst
  simp only [← Matrix.mul_assoc, hinv, Matrix.one_mul, Matrix.mul_one] at this
  exact this.symm

theorem fromAngleAxis_norm (θ : ℝ) (v : Fin 3 → ℝ) (hv : v 0 * v 0 + v 1 * v 1 + v 2 * v 2 = 1) :
    (fromAngleAxis θ (v 0) (v 1) (v 2)).squaredNorm = 1 := by
  simp only [fromAngleAxis, Quat.squaredNorm]
  linear_combination Real.sin (θ / 2) ^ 2 * hv + Real.sin_sq_add_cos_sq (θ / 2)

theorem fromAngleAxis_matrix (θ : ℝ) (v : Fin 3 → ℝ) (hv : v 0 * v 0 + v 1 * v 1 + v 2 * v 2 = 1) :
    (fromAngleAxis θ (v 0) (v 1) (v 2)).toRotationMatrix = rodrigues θ v := by
  have hs : Real.sin θ = 2 * Real.sin (θ / 2) * Real.cos (θ / 2) := by
    rw [← Real.sin_two_mul]; congr 1; ring
  have hc : Real.cos θ = 1 - 2 * Real.sin (θ / 2) ^ 2 := by
    have := Real.cos_two_mul (θ / 2)
    rw [show 2 * (θ / 2) = θ by ring] at this
    rw [this]; linear_combination 2 * Real.sin_sq_add_cos_sq (θ / 2)
  ext i j
  unfold rodrigues
  rw [hs, hc]
  fin_cases i <;> fin_cases j <;>
    simp [skew, Matrix.mul_apply, Fin.sum_univ_three, fromAngleAxis, Quat.toRotationMatrix] <;> ring

/-- Vectors with a non-zero angle are that angle times a unit vector. -/
theorem exists_unit (v : Fin 3 → ℝ) (h : vecAngle v ≠ 0) :
    ∃ u : Fin 3 → ℝ, u 0 * u 0 + u 1 * u 1 + u 2 * u 2 = 1 ∧ v = vecAngle v • u := by
  refine ⟨(vecAngle v)⁻¹ • v, ?_, ?_⟩
  · have := vecAngle_sq v
    simp only [Pi.smul_apply, smul_eq_mul]
    field_simp
    linarith
  · rw [smul_smul, mul_inv_cancel₀ h, one_smul]

theorem fromRotationVector_eq (v u : Fin 3 → ℝ) (h : vecAngle v ≠ 0) (hu : v = vecAngle v • u) :
    fromRotationVector (v 0) (v 1) (v 2) none = fromAngleAxis (vecAngle v) (u 0) (u 1) (u 2) := by
  have h0 : v 0 = vecAngle v * u 0 := by conv_lhs => rw [hu]; simp
  have h1 : v 1 = vecAngle v * u 1 := by conv_lhs => rw [hu]; simp
  have h2 : v 2 = vecAngle v * u 2 := by conv_lhs => rw [hu]; simp
  have hdef : √(v 0 * v 0 + v 1 * v 1 + v 2 * v 2) = vecAngle v := rfl
  simp only [fromRotationVector, fromAngleAxis, hdef]
  ext
  · rfl
  · simp only; rw [h0]; field_simp
  · simp only; rw [h1]; field_simp
  · simp only; rw [h2]; field_simp

theorem fromRotationVector_some_gt (v : Fin 3 → ℝ) (eps : ℝ) (h : vecAngle v > eps) :
    fromRotationVector (v 0) (v 1) (v 2) (some eps) = fromRotationVector (v 0) (v 1) (v 2) none := by
  have h' : √(v 0 * v 0 + v 1 * v 1 + v 2 * v 2) > eps := h
  simp [fromRotationVector, h']

theorem fromRotationVector_some_le (v : Fin 3 → ℝ) (eps : ℝ) (h : ¬ vecAngle v > eps) :
    fromRotationVector (v 0) (v 1) (v 2) (some eps) = Quat.normalized ⟨1, v 0 / 2, v 1 / 2, v 2 / 2⟩ := by
  have h' : ¬ √(v 0 * v 0 + v 1 * v 1 + v 2 * v 2) > eps := h
  simp only [fromRotationVector, h', if_false]

theorem normalized_norm (q : Quat ℝ) (h : q.squaredNorm ≠ 0) : q.normalized.squaredNorm = 1 := by
  have hpos : 0 ≤ q.squaredNorm := by
    unfold Quat.squaredNorm
    nlinarith [mul_self_nonneg q.w, mul_self_nonneg q.x, mul_self_nonneg q.y, mul_self_nonneg q.z]
  have hm : q.norm * q.norm = q.squaredNorm := Real.mul_self_sqrt hpos
  have hn : q.norm ≠ 0 := by intro h0; rw [h0] at hm; simp at hm; exact h hm.symm
  unfold Quat.squaredNorm at hm
  simp only [Quat.normalized, Quat.squaredNorm]
  field_simp
  linarith

/-! ### Back from a quaternion -/

structure HalfAngle (w n a : ℝ) : Prop where
  cos_eq : Real.cos a = |w|
  sin_eq : Real.sin a = n
  nonneg : 0 ≤ a
  le : a ≤ Real.pi / 2

theorem atan2_half (w n : ℝ) (hn : 0 ≤ n) (h : w * w + n * n = 1) : HalfAngle w n (atan2 n |w|) := by
  have hnorm : ‖(⟨|w|, n⟩ : ℂ)‖ = 1 := by
    rw [Complex.norm_def, Complex.normSq_mk]
    simp [h]
  have hne : (⟨|w|, n⟩ : ℂ) ≠ 0 := by
    intro h0; rw [h0] at hnorm; simp at hnorm
  have h0 : 0 ≤ atan2 n |w| := Complex.arg_nonneg_iff.mpr hn
  refine ⟨?_, ?_, h0, ?_⟩
  · unfold atan2; rw [Complex.cos_arg hne, hnorm]; simp
  · unfold atan2; rw [Complex.sin_arg, hnorm]; simp
  · have := Complex.abs_arg_le_pi_div_two_iff.mpr (show 0 ≤ (⟨|w|, n⟩ : ℂ).re from abs_nonneg w)
    exact (le_abs_self _).trans this

theorem HalfAngle.unique {w n a b : ℝ} (ha : HalfAngle w n a) (hb : HalfAngle w n b) : a = b := by
  have := Real.pi_pos
  apply Real.injOn_sin ⟨by linarith [ha.nonneg], ha.le⟩ ⟨by linarith [hb.nonneg], hb.le⟩
  rw [ha.sin_eq, hb.sin_eq]

/-- The norm of the vector part. -/
noncomputable def Quat.vnorm (q : Quat ℝ) : ℝ := √(q.x * q.x + q.y * q.y + q.z * q.z)

theorem vnorm_sq (q : Quat ℝ) : q.vnorm * q.vnorm = q.x * q.x + q.y * q.y + q.z * q.z :=
  Real.mul_self_sqrt (by nlinarith [mul_self_nonneg q.x, mul_self_nonneg q.y, mul_self_nonneg q.z])

theorem vnorm_nonneg (q : Quat ℝ) : 0 ≤ q.vnorm := Real.sqrt_nonneg _

theorem half_of_unit (q : Quat ℝ) (h : q.squaredNorm = 1) : HalfAngle q.w q.vnorm (atan2 q.vnorm |q.w|) := by
  apply atan2_half _ _ (vnorm_nonneg q)
  rw [vnorm_sq]; unfold Quat.squaredNorm at h; linarith

theorem HalfAngle.pos {w n a : ℝ} (h : HalfAngle w n a) (hn : n ≠ 0) : 0 < a := by
  rcases h.nonneg.lt_or_eq with h' | h'
  · exact h'
  · exfalso; apply hn; rw [← h.sin_eq, ← h']; simp

/-- The sign used by the conversions. -/
noncomputable def sgnW (q : Quat ℝ) : ℝ := if q.w < 0 then -1 else 1

theorem sgnW_mul_abs (q : Quat ℝ) : sgnW q * |q.w| = q.w := by
  unfold sgnW; split
  · rw [abs_of_neg ‹_›]; ring
  · rw [abs_of_nonneg (by linarith)]; ring

theorem sgnW_sq (q : Quat ℝ) : sgnW q * sgnW q = 1 := by unfold sgnW; split <;> norm_num

theorem sgnW_cases (q : Quat ℝ) : sgnW q = 1 ∨ sgnW q = -1 := by unfold sgnW; split <;> simp

/-- The axis returned by `to_angle_axis`. -/
theorem toAngleAxis_none (q : Quat ℝ) :
    toAngleAxis q none = (atan2 q.vnorm |q.w| * 2, (sgnW q * q.x / q.vnorm, sgnW q * q.y / q.vnorm, sgnW q * q.z / q.vnorm)) := by
  simp only [toAngleAxis, Quat.vnorm, sgnW]
  split <;> simp [div_neg, neg_div]

theorem toAngleAxis_some (q : Quat ℝ) (eps : ℝ) (h : q.vnorm > eps) : toAngleAxis q (some eps) = toAngleAxis q none := by
  have h' : √(q.x * q.x + q.y * q.y + q.z * q.z) > eps := h
  simp [toAngleAxis, h']

theorem toRotationVector_none (q : Quat ℝ) :
    toRotationVector q none = (q.x * (atan2 q.vnorm |q.w| * 2 / q.vnorm) * sgnW q, q.y * (atan2 q.vnorm |q.w| * 2 / q.vnorm) * sgnW q,
      q.z * (atan2 q.vnorm |q.w| * 2 / q.vnorm) * sgnW q) := rfl

theorem toRotationVector_some (q : Quat ℝ) (eps : ℝ) (h : q.vnorm > eps) : toRotationVector q (some eps) = toRotationVector q none := by
  have h' : √(q.x * q.x + q.y * q.y + q.z * q.z) > eps := h
  simp only [toRotationVector, h', if_true]
  ext <;> simp only <;> ring

/-- For a unit quaternion the arccosine variant computes the same vector. -/
theorem toRotationVectorAcos_eq (q : Quat ℝ) (h : q.squaredNorm = 1) (e : Option ℝ) :
    toRotationVectorAcos q e = toRotationVector q e := by
  have hh := half_of_unit q h
  have hw : q.w * sgnW q = |q.w| := by
    conv_lhs => rw [← sgnW_mul_abs q]
    rw [mul_comm, ← mul_assoc, sgnW_sq, one_mul]
  have hle : |q.w| ≤ 1 := by rw [← hh.cos_eq]; exact Real.cos_le_one _
  have hmin : minWhere (q.w * sgnW q) 1 = |q.w| := by
    rw [hw]; unfold minWhere; rw [if_neg (by linarith)]
  have hsq : 1 - |q.w| * |q.w| = q.x * q.x + q.y * q.y + q.z * q.z := by
    rw [abs_mul_abs_self]; unfold Quat.squaredNorm at h; linarith
  have hac : Real.arccos |q.w| = atan2 q.vnorm |q.w| := by
    have := Real.arccos_cos hh.nonneg (by linarith [hh.le, Real.pi_pos])
    rwa [hh.cos_eq] at this
  have hs : (if q.w < 0 then (-1 : ℝ) else 1) = sgnW q := rfl
  have hv : √(q.x * q.x + q.y * q.y + q.z * q.z) = q.vnorm := rfl
  simp only [toRotationVectorAcos, toRotationVector, hs, hmin, hsq, hac, hv]
  cases e with
  | none => ext <;> simp only <;> ring
  | some eps =>
    simp only
    split <;> (ext <;> simp only <;> ring)

/-! ### The Jacobian of SO(3) -/

theorem jacobian_product (v : Fin 3 → ℝ) (a b c d : ℝ)
    (h1 : a + c = vecAngle v * vecAngle v * (a * d + b * c))
    (h2 : b + d + a * c = vecAngle v * vecAngle v * (b * d)) :
    (1 + a • skew v + b • (skew v * skew v)) * (1 + c • skew v + d • (skew v * skew v)) = 1 := by
  have h3 := skew_cube v
  have h3' : skew v * (skew v * skew v) = (-(vecAngle v * vecAngle v)) • skew v := by rw [← Matrix.mul_assoc, h3]
  have h4 : (skew v * skew v) * (skew v * skew v) = (-(vecAngle v * vecAngle v)) • (skew v * skew v) := by
    rw [← Matrix.mul_assoc, h3, Matrix.smul_mul]
  simp only [Matrix.add_mul, Matrix.mul_add, Matrix.one_mul, Matrix.mul_one, Matrix.smul_mul, Matrix.mul_smul, h3, h3', h4, smul_smul]
  have e : (1 : Matrix (Fin 3) (Fin 3) ℝ) = 1 + (a + c - vecAngle v * vecAngle v * (a * d + b * c)) • skew v
      + (b + d + a * c - vecAngle v * vecAngle v * (b * d)) • (skew v * skew v) := by
    rw [h1, h2]; simp
  conv_rhs => rw [e]
  module

theorem jacobian_coefs (θ : ℝ) (h0 : θ ≠ 0) (hs : Real.sin θ ≠ 0) :
    let a := (1 - Real.cos θ) / θ ^ 2
    let b := (θ - Real.sin θ) / θ ^ 3
    let c : ℝ := -1 / 2
    let d := 1 / θ ^ 2 - (1 + Real.cos θ) / (2 * θ * Real.sin θ)
    a + c = θ * θ * (a * d + b * c) ∧ b + d + a * c = θ * θ * (b * d) := by
  have h := Real.sin_sq_add_cos_sq θ
  intro a b c d
  constructor
  · simp only [a, b, c, d]
    field_simp
    linear_combination (-θ) * h
  · simp only [a, b, c, d]
    field_simp
    ring

theorem integral_rodrigues (θ : ℝ) (h0 : θ ≠ 0) (u : Fin 3 → ℝ) (i j : Fin 3) :
    ∫ α in (0 : ℝ)..1, rodrigues (α * θ) u i j =
      (1 + ((1 - Real.cos θ) / θ) • skew u + (1 - Real.sin θ / θ) • (skew u * skew u)) i j := by
  have hd : ∀ α ∈ Set.uIcc (0 : ℝ) 1, HasDerivAt
      (fun α : ℝ => α * (1 : Matrix (Fin 3) (Fin 3) ℝ) i j + (-Real.cos (α * θ) / θ) * skew u i j + (α - Real.sin (α * θ) / θ) * (skew u * skew u) i j)
      (rodrigues (α * θ) u i j) α := by
    intro α _
    have hm : HasDerivAt (fun α : ℝ => α * θ) θ α := by simpa using (hasDerivAt_id α).mul_const θ
    have h1 : HasDerivAt (fun α : ℝ => α * (1 : Matrix (Fin 3) (Fin 3) ℝ) i j) ((1 : Matrix (Fin 3) (Fin 3) ℝ) i j) α := by
      simpa using (hasDerivAt_id α).mul_const ((1 : Matrix (Fin 3) (Fin 3) ℝ) i j)
    have h2 : HasDerivAt (fun α : ℝ => (-Real.cos (α * θ) / θ) * skew u i j) (Real.sin (α * θ) * skew u i j) α := by
      have := ((hm.cos.neg).div_const θ).mul_const (skew u i j)
      refine this.congr_deriv ?_
      field_simp
    have h3 : HasDerivAt (fun α : ℝ => (α - Real.sin (α * θ) / θ) * (skew u * skew u) i j) ((1 - Real.cos (α * θ)) * (skew u * skew u) i j) α := by
      have := ((hasDerivAt_id α).sub (hm.sin.div_const θ)).mul_const ((skew u * skew u) i j)
      refine this.congr_deriv ?_
      field_simp
    refine ((h1.add h2).add h3).congr_deriv ?_
    simp [rodrigues]
  have hcont : Continuous (fun α : ℝ => rodrigues (α * θ) u i j) := by
    unfold rodrigues
    simp only [Matrix.add_apply, Matrix.smul_apply, smul_eq_mul]
    fun_prop
  rw [intervalIntegral.integral_eq_sub_of_hasDerivAt hd (hcont.intervalIntegrable 0 1)]
  simp
  ring

theorem half_angle_trig (θ : ℝ) : Real.cos θ = 1 - 2 * Real.sin (θ / 2) ^ 2 ∧ Real.sin θ = 2 * Real.sin (θ / 2) * Real.cos (θ / 2) := by
  constructor
  · have := Real.cos_two_mul (θ / 2)
    rw [show 2 * (θ / 2) = θ by ring] at this
    rw [this]; linear_combination 2 * Real.sin_sq_add_cos_sq (θ / 2)
  · rw [← Real.sin_two_mul]; congr 1; ring

theorem fromRotationVector_deriv (w δ : Fin 3 → ℝ) (h : vecAngle w ≠ 0) :
    let q := fromRotationVector (w 0) (w 1) (w 2) none
    let J := leftJacobian w none *ᵥ δ
    let d := Quat.mul ⟨0, J 0 / 2, J 1 / 2, J 2 / 2⟩ q
    HasDerivAt (fun t => (fromRotationVector (w 0 + t * δ 0) (w 1 + t * δ 1) (w 2 + t * δ 2) none).w) d.w 0 ∧
    HasDerivAt (fun t => (fromRotationVector (w 0 + t * δ 0) (w 1 + t * δ 1) (w 2 + t * δ 2) none).x) d.x 0 ∧
    HasDerivAt (fun t => (fromRotationVector (w 0 + t * δ 0) (w 1 + t * δ 1) (w 2 + t * δ 2) none).y) d.y 0 ∧
    HasDerivAt (fun t => (fromRotationVector (w 0 + t * δ 0) (w 1 + t * δ 1) (w 2 + t * δ 2) none).z) d.z 0 := by
  have hc : ∀ i, HasDerivAt (fun t : ℝ => w i + t * δ i) (δ i) 0 := by
    intro i
    simpa using ((hasDerivAt_id (0:ℝ)).mul_const (δ i)).const_add (w i)
  have hN0 : w 0 * w 0 + w 1 * w 1 + w 2 * w 2 ≠ 0 := by
    rw [← vecAngle_sq]; exact mul_ne_zero h h
  have hN := ((((hc 0).mul (hc 0)).add ((hc 1).mul (hc 1))).add ((hc 2).mul (hc 2)))
  have hθ := hN.sqrt (by simpa using hN0)
  set S : ℝ → ℝ := fun t => √((w 0 + t * δ 0) * (w 0 + t * δ 0) + (w 1 + t * δ 1) * (w 1 + t * δ 1) + (w 2 + t * δ 2) * (w 2 + t * δ 2)) with hS
  have hS0 : S 0 = vecAngle w := by simp [hS, vecAngle]
  have hθ' : HasDerivAt S ((w 0 * δ 0 + w 1 * δ 1 + w 2 * δ 2) / vecAngle w) 0 := by
    refine (hθ.congr_deriv ?_)
    simp only [Pi.add_apply, Pi.mul_apply, zero_mul, add_zero]
    rw [show √(w 0 * w 0 + w 1 * w 1 + w 2 * w 2) = vecAngle w from rfl]
    field_simp
    ring
  have hhalf : HasDerivAt (fun t => S t / 2) ((w 0 * δ 0 + w 1 * δ 1 + w 2 * δ 2) / vecAngle w / 2) 0 := hθ'.div_const 2
  have hcos := hhalf.cos
  have hsinc := hhalf.sin.div hθ' (by rw [hS0]; exact h)
  have hsq := vecAngle_sq w
  obtain ⟨t1, t2⟩ := half_angle_trig (vecAngle w)
  have hp := Real.sin_sq_add_cos_sq (vecAngle w / 2)
  simp only [hS0] at hcos hsinc
  have hdef : √(w 0 * w 0 + w 1 * w 1 + w 2 * w 2) = vecAngle w := rfl
  intro q J d
  have hJ : ∀ i, J i = δ i + (1 - Real.cos (vecAngle w)) / vecAngle w ^ 2 * (skew w *ᵥ δ) i + (vecAngle w - Real.sin (vecAngle w)) / vecAngle w ^ 3 * ((skew w * skew w) *ᵥ δ) i := by
    intro i
    simp only [J, leftJacobian, Matrix.add_mulVec, Matrix.one_mulVec, Matrix.smul_mulVec, Pi.add_apply, Pi.smul_apply, smul_eq_mul]
  rw [t1, t2] at hJ
  have hq : q = ⟨Real.cos (vecAngle w / 2), w 0 * (Real.sin (vecAngle w / 2) / vecAngle w), w 1 * (Real.sin (vecAngle w / 2) / vecAngle w), w 2 * (Real.sin (vecAngle w / 2) / vecAngle w)⟩ := by
    simp only [q, fromRotationVector, hdef]
  simp only [d, hq, Quat.mul, hJ]
  simp only [skew, Matrix.mulVec, dotProduct, Matrix.mul_apply, Fin.sum_univ_three]
  simp
  have hnz := h
  refine ⟨hcos.congr_deriv ?_, ((hc 0).mul hsinc).congr_deriv ?_, ((hc 1).mul hsinc).congr_deriv ?_, ((hc 2).mul hsinc).congr_deriv ?_⟩
  · field_simp
    ring
  all_goals
    simp only [hS0, zero_mul, add_zero, Pi.div_apply]
    clear hN hθ hθ' hhalf hcos hsinc hc hJ hq hdef hS hS0 t1 t2 hN0 h
    clear_value S q J d
    clear d J q S
    generalize Real.sin (vecAngle w / 2) = s at *
    generalize Real.cos (vecAngle w / 2) = c at *
    generalize vecAngle w = θ at *
    generalize w 0 = w0 at *
    generalize w 1 = w1 at *
    generalize w 2 = w2 at *
    generalize δ 0 = d0 at *
    generalize δ 1 = d1 at *
    generalize δ 2 = d2 at *
    field_simp
    grind
theorem vecAngle_ne_zero {v : Fin 3 → ℝ} (h : v ≠ 0) : vecAngle v ≠ 0 := by
  intro h0
  apply h
  have := vecAngle_sq v
  rw [h0] at this
  have hx := mul_self_nonneg (v 0)
  have hy := mul_self_nonneg (v 1)
  have hz := mul_self_nonneg (v 2)
  ext i
  fin_cases i
  · show v 0 = 0; exact mul_self_eq_zero.mp (by linarith)
  · show v 1 = 0; exact mul_self_eq_zero.mp (by linarith)
  · show v 2 = 0; exact mul_self_eq_zero.mp (by linarith)

theorem vnorm_ne_zero {q : Quat ℝ} (h : ¬ (q.x = 0 ∧ q.y = 0 ∧ q.z = 0)) : q.vnorm ≠ 0 := by
  intro h0
  apply h
  have := vnorm_sq q
  rw [h0] at this
  have hx := mul_self_nonneg q.x
  have hy := mul_self_nonneg q.y
  have hz := mul_self_nonneg q.z
  exact ⟨mul_self_eq_zero.mp (by linarith), mul_self_eq_zero.mp (by linarith), mul_self_eq_zero.mp (by linarith)⟩

theorem fromAngleAxis_half (θ : ℝ) (v : Fin 3 → ℝ) (hv : v 0 * v 0 + v 1 * v 1 + v 2 * v 2 = 1)
    (h0 : 0 < θ) (h1 : θ ≤ Real.pi) :
    let q := fromAngleAxis θ (v 0) (v 1) (v 2)
    q.vnorm = Real.sin (θ / 2) ∧ sgnW q = 1 ∧ atan2 (Real.sin (θ / 2)) |q.w| * 2 = θ := by
  intro q
  have hs : 0 ≤ Real.sin (θ / 2) := Real.sin_nonneg_of_nonneg_of_le_pi (by linarith) (by linarith)
  have hc : 0 ≤ Real.cos (θ / 2) := Real.cos_nonneg_of_mem_Icc ⟨by linarith, by linarith⟩
  have hn : q.vnorm = Real.sin (θ / 2) := by
    unfold Quat.vnorm
    simp only [q, fromAngleAxis]
    rw [show v 0 * Real.sin (θ / 2) * (v 0 * Real.sin (θ / 2)) + v 1 * Real.sin (θ / 2) * (v 1 * Real.sin (θ / 2)) +
      v 2 * Real.sin (θ / 2) * (v 2 * Real.sin (θ / 2)) = (v 0 * v 0 + v 1 * v 1 + v 2 * v 2) * (Real.sin (θ / 2) * Real.sin (θ / 2)) by ring,
      hv, one_mul, Real.sqrt_mul_self hs]
  refine ⟨hn, ?_, ?_⟩
  · unfold sgnW
    rw [if_neg]
    simp only [q, fromAngleAxis]; linarith
  · have hh := half_of_unit q (fromAngleAxis_norm θ v hv)
    have hw : |q.w| = Real.cos (θ / 2) := by simp only [q, fromAngleAxis]; exact abs_of_nonneg hc
    have h2 : HalfAngle q.w q.vnorm (θ / 2) := ⟨hw.symm, hn.symm, by linarith, by linarith⟩
    have := hh.unique h2
    rw [hn] at this
    rw [this]; ring

theorem vecAngle_smul_unit (φ : ℝ) (u : Fin 3 → ℝ) (hu : u 0 * u 0 + u 1 * u 1 + u 2 * u 2 = 1) (h : 0 ≤ φ) :
    vecAngle (φ • u) = φ := by
  unfold vecAngle
  simp only [Pi.smul_apply, smul_eq_mul]
  rw [show φ * u 0 * (φ * u 0) + φ * u 1 * (φ * u 1) + φ * u 2 * (φ * u 2) = (u 0 * u 0 + u 1 * u 1 + u 2 * u 2) * (φ * φ) by ring,
    hu, one_mul, Real.sqrt_mul_self h]

theorem toRotationVector_angleAxis (q : Quat ℝ) :
    toRotationVector q none = ((toAngleAxis q none).1 * (toAngleAxis q none).2.1,
      (toAngleAxis q none).1 * (toAngleAxis q none).2.2.1, (toAngleAxis q none).1 * (toAngleAxis q none).2.2.2) := by
  rw [toRotationVector_none, toAngleAxis_none]
  ext <;> simp only <;> ring

end Wf.Geo
