import Verif.Geo.QuaternionModel
import Mathlib.Analysis.Calculus.DSlope
import Mathlib.Analysis.Calculus.FDeriv.Pi
import Mathlib.Analysis.Calculus.FDeriv.Add
import Mathlib.Analysis.SpecialFunctions.Trigonometric.ArctanDeriv
import Mathlib.Analysis.SpecialFunctions.Trigonometric.Deriv
import Mathlib.Analysis.SpecialFunctions.Trigonometric.Bounds
import Mathlib.Topology.Algebra.Module.FiniteDimension

/-!
# Derivatives of the retraction of quaternions and of its inverse
-/

namespace Wf.Geo

open Filter Topology Asymptotics

/-- The elements in storage order. -/
def Quat.vec (q : Quat ℝ) : Fin 4 → ℝ := ![q.w, q.x, q.y, q.z]

/-- `q * exp(v)`: the retraction of a rotation vector on the right side of `q`. -/
noncomputable def retract (q : Quat ℝ) (v : Fin 3 → ℝ) : Fin 4 → ℝ := (q.mul (fromRotationVector (v 0) (v 1) (v 2) (some 0))).vec

/-- `log(qᵀ * (q + d))`: the rotation vector of a perturbed quaternion relative to `q`. -/
noncomputable def localCoordinates (q : Quat ℝ) (d : Fin 4 → ℝ) : Fin 3 → ℝ :=
  let r := toRotationVector (q.conj.mul ⟨q.w + d 0, q.x + d 1, q.y + d 2, q.z + d 3⟩) (some 0)
  ![r.1, r.2.1, r.2.2]

/-- A linear function times a function that is continuous at zero. -/
theorem hasFDerivAt_linear_mul {E : Type*} [NormedAddCommGroup E] [NormedSpace ℝ E] (L : E →L[ℝ] ℝ) (h : E → ℝ) (hc : ContinuousAt h 0) :
    HasFDerivAt (fun v => L v * h v) (h 0 • L) 0 := by
  rw [hasFDerivAt_iff_isLittleO_nhds_zero]
  have e : (fun v : E => L (0 + v) * h (0 + v) - L 0 * h 0 - (h 0 • L) v) = fun v => L v * (h v - h 0) := by
    funext v
    simp
    ring
  rw [e]
  have h1 : (fun v : E => L v) =O[𝓝 0] fun v => v := L.isBigO_id _
  have h2 : (fun v : E => h v - h 0) =o[𝓝 0] fun _ => (1 : ℝ) := by
    rw [isLittleO_one_iff]
    have : Tendsto (fun v => h v - h 0) (𝓝 0) (𝓝 (h 0 - h 0)) := hc.tendsto.sub tendsto_const_nhds
    rwa [sub_self] at this
  have h3 := h1.norm_right.mul_isLittleO h2
  exact (h3.congr_right fun v => by simp : _ =o[𝓝 0] fun v : E => ‖v‖).of_norm_right

/-- `sin(a / 2) / a`, continued at zero. -/
noncomputable def halfSinc (a : ℝ) : ℝ := dslope Real.sin 0 (a / 2) / 2

theorem halfSinc_of_ne {a : ℝ} (h : a ≠ 0) : halfSinc a = Real.sin (a / 2) / a := by
  unfold halfSinc
  rw [dslope_of_ne _ (by simpa using h), slope_def_field]
  simp
  field_simp

theorem halfSinc_zero : halfSinc 0 = 1 / 2 := by
  unfold halfSinc
  simp [dslope_same]

theorem halfSinc_continuousAt : ContinuousAt halfSinc 0 := by
  have h1 : ContinuousAt (dslope Real.sin 0) 0 := continuousAt_dslope_same.2 Real.differentiableAt_sin
  have h2 : ContinuousAt (fun a : ℝ => a / 2) 0 := (continuous_id.div_const 2).continuousAt
  have h3 : ContinuousAt (fun a : ℝ => dslope Real.sin 0 (a / 2)) 0 := ContinuousAt.comp (g := dslope Real.sin 0) (by rw [zero_div]; exact h1) h2
  exact h3.div_const 2

theorem vecAngle_continuous : Continuous vecAngle := by
  unfold vecAngle
  fun_prop

theorem vecAngle_zero : vecAngle 0 = 0 := by simp [vecAngle]

/-- The quaternion of a rotation vector with `epsilon = 0`, without the case distinction. -/
theorem fromRotationVector_zero (v : Fin 3 → ℝ) : fromRotationVector (v 0) (v 1) (v 2) (some 0) =
    ⟨Real.cos (vecAngle v / 2), v 0 * halfSinc (vecAngle v), v 1 * halfSinc (vecAngle v), v 2 * halfSinc (vecAngle v)⟩ := by
  by_cases h : vecAngle v > 0
  · have hv : √(v 0 * v 0 + v 1 * v 1 + v 2 * v 2) = vecAngle v := rfl
    simp only [fromRotationVector, hv, if_pos h, halfSinc_of_ne (ne_of_gt h)]
  · have h0 : vecAngle v = 0 := le_antisymm (not_lt.1 h) (Real.sqrt_nonneg _)
    have hs : v 0 * v 0 + v 1 * v 1 + v 2 * v 2 = 0 := by
      have := (Real.sqrt_eq_zero (by nlinarith [mul_self_nonneg (v 0), mul_self_nonneg (v 1), mul_self_nonneg (v 2)])).1 h0
      exact this
    have z0 : v 0 = 0 := mul_self_eq_zero.1 (by nlinarith [mul_self_nonneg (v 0), mul_self_nonneg (v 1), mul_self_nonneg (v 2)])
    have z1 : v 1 = 0 := mul_self_eq_zero.1 (by nlinarith [mul_self_nonneg (v 0), mul_self_nonneg (v 1), mul_self_nonneg (v 2)])
    have z2 : v 2 = 0 := mul_self_eq_zero.1 (by nlinarith [mul_self_nonneg (v 0), mul_self_nonneg (v 1), mul_self_nonneg (v 2)])
    rw [h0, halfSinc_zero, z0, z1, z2]
    simp [fromRotationVector, Quat.normalized, Quat.norm, Quat.squaredNorm]

theorem cos_part : HasFDerivAt (fun v : Fin 3 → ℝ => Real.cos (vecAngle v / 2)) (0 : (Fin 3 → ℝ) →L[ℝ] ℝ) 0 := by
  have h : HasFDerivAt (fun v : Fin 3 → ℝ => Real.cos (vecAngle v / 2) - 1) (0 : (Fin 3 → ℝ) →L[ℝ] ℝ) 0 := by
    refine IsBigO.hasFDerivAt (n := 2) (IsBigO.of_bound 3 (Eventually.of_forall fun v => ?_)) one_lt_two
    have h1 := Real.one_sub_sq_div_two_le_cos (x := vecAngle v / 2)
    have h2 := Real.cos_le_one (vecAngle v / 2)
    have h3 : vecAngle v ^ 2 ≤ 3 * ‖v‖ ^ 2 := by
      have hb : ∀ i, v i * v i ≤ ‖v‖ ^ 2 := fun i => by
        have := norm_le_pi_norm v i
        rw [Real.norm_eq_abs] at this
        rw [← abs_mul_abs_self (v i)]
        nlinarith [abs_nonneg (v i), norm_nonneg v]
      unfold vecAngle
      rw [Real.sq_sqrt (by nlinarith [mul_self_nonneg (v 0), mul_self_nonneg (v 1), mul_self_nonneg (v 2)])]
      linarith [hb 0, hb 1, hb 2]
    rw [sub_zero, Real.norm_eq_abs, abs_of_nonpos (by linarith), norm_pow, norm_norm]
    nlinarith [sq_nonneg ‖v‖]
  simpa using h.add_const (1 : ℝ)

theorem sin_part (i : Fin 3) : HasFDerivAt (fun v : Fin 3 → ℝ => v i * halfSinc (vecAngle v))
    ((1 / 2 : ℝ) • (ContinuousLinearMap.proj i : (Fin 3 → ℝ) →L[ℝ] ℝ)) 0 := by
  have h := hasFDerivAt_linear_mul (ContinuousLinearMap.proj i : (Fin 3 → ℝ) →L[ℝ] ℝ) (fun v => halfSinc (vecAngle v))
    (ContinuousAt.comp (g := halfSinc) (f := vecAngle) (by rw [vecAngle_zero]; exact halfSinc_continuousAt) vecAngle_continuous.continuousAt)
  simp only [vecAngle_zero, halfSinc_zero] at h
  exact h

/-- The matrix of the derivative of the retraction. -/
noncomputable def retractMatrix (q : Quat ℝ) : Matrix (Fin 4) (Fin 3) ℝ :=
  !![-q.x / 2, -q.y / 2, -q.z / 2;
     q.w / 2, -q.z / 2, q.y / 2;
     q.z / 2, q.w / 2, -q.x / 2;
     -q.y / 2, q.x / 2, q.w / 2]

theorem retract_hasFDerivAt (q : Quat ℝ) : HasFDerivAt (retract q) (LinearMap.toContinuousLinearMap (Matrix.toLin' (retractMatrix q))) 0 := by
  have hc := cos_part
  have h0 := sin_part 0
  have h1 := sin_part 1
  have h2 := sin_part 2
  have e : retract q = fun v => ![
      q.w * Real.cos (vecAngle v / 2) - q.x * (v 0 * halfSinc (vecAngle v)) - q.y * (v 1 * halfSinc (vecAngle v)) - q.z * (v 2 * halfSinc (vecAngle v)),
      q.w * (v 0 * halfSinc (vecAngle v)) + q.x * Real.cos (vecAngle v / 2) + q.y * (v 2 * halfSinc (vecAngle v)) - q.z * (v 1 * halfSinc (vecAngle v)),
      q.w * (v 1 * halfSinc (vecAngle v)) + q.y * Real.cos (vecAngle v / 2) + q.z * (v 0 * halfSinc (vecAngle v)) - q.x * (v 2 * halfSinc (vecAngle v)),
      q.w * (v 2 * halfSinc (vecAngle v)) + q.z * Real.cos (vecAngle v / 2) + q.x * (v 1 * halfSinc (vecAngle v)) - q.y * (v 0 * halfSinc (vecAngle v))] := by
    funext v
    unfold retract
    rw [fromRotationVector_zero]
    rfl
  rw [e, hasFDerivAt_pi']
  intro i
  fin_cases i
  · refine ((((hc.const_mul q.w).sub (h0.const_mul q.x)).sub (h1.const_mul q.y)).sub (h2.const_mul q.z)).congr_fderiv ?_
    ext v
    simp [retractMatrix, Matrix.toLin'_apply, Matrix.vecHead, Matrix.vecTail]
    ring
  · refine ((((h0.const_mul q.w).add (hc.const_mul q.x)).add (h2.const_mul q.y)).sub (h1.const_mul q.z)).congr_fderiv ?_
    ext v
    simp [retractMatrix, Matrix.toLin'_apply, Matrix.vecHead, Matrix.vecTail]
    ring
  · refine ((((h1.const_mul q.w).add (hc.const_mul q.y)).add (h0.const_mul q.z)).sub (h2.const_mul q.x)).congr_fderiv ?_
    ext v
    simp [retractMatrix, Matrix.toLin'_apply, Matrix.vecHead, Matrix.vecTail]
    ring
  · refine ((((h2.const_mul q.w).add (hc.const_mul q.z)).add (h1.const_mul q.x)).sub (h0.const_mul q.y)).congr_fderiv ?_
    ext v
    simp [retractMatrix, Matrix.toLin'_apply, Matrix.vecHead, Matrix.vecTail]
    ring

/-! ## Local coordinates -/

/-- The factor of the vector part in `toRotationVector`. -/
noncomputable def logScale (w n : ℝ) : ℝ := if n > 0 then atan2 n |w| * 2 / n * (if w < 0 then -1 else 1) else 2 * (if w < 0 then -1 else 1)

theorem toRotationVector_scale (q : Quat ℝ) : toRotationVector q (some 0) =
    (logScale q.w (√(q.x * q.x + q.y * q.y + q.z * q.z)) * q.x, logScale q.w (√(q.x * q.x + q.y * q.y + q.z * q.z)) * q.y,
      logScale q.w (√(q.x * q.x + q.y * q.y + q.z * q.z)) * q.z) := rfl

theorem atan2_of_pos {n w : ℝ} (hw : 0 < w) : atan2 n w = Real.arctan (n / w) := by
  unfold atan2
  rw [Complex.arg_of_re_nonneg hw.le, Real.arctan_eq_arcsin]
  congr 1
  have hn : ‖(⟨w, n⟩ : ℂ)‖ = w * √(1 + (n / w) ^ 2) := by
    rw [Complex.norm_eq_sqrt_sq_add_sq]
    rw [show w ^ 2 + n ^ 2 = w ^ 2 * (1 + (n / w) ^ 2) by field_simp, Real.sqrt_mul (sq_nonneg w), Real.sqrt_sq hw.le]
  show n / ‖(⟨w, n⟩ : ℂ)‖ = _
  rw [hn, div_div]

theorem logScale_of_pos {w n : ℝ} (hw : 0 < w) (hn : 0 < n) : logScale w n = 2 * (dslope Real.arctan 0 (n / w) / w) := by
  have h : n / w ≠ 0 := (div_pos hn hw).ne'
  unfold logScale
  rw [if_pos hn, if_neg (not_lt.2 hw.le), abs_of_pos hw, atan2_of_pos hw, dslope_of_ne _ h, slope_def_field]
  simp
  field_simp

/-- The factor tends to two at the identity. -/
theorem logScale_tendsto {E : Type*} [TopologicalSpace E] {w n : E → ℝ} {x : E} (hw : ContinuousAt w x) (hn : ContinuousAt n x) (hw1 : w x = 1) (hn0 : n x = 0) :
    ContinuousAt (fun y => logScale (w y) (n y)) x := by
  have hx : logScale (w x) (n x) = 2 := by
    rw [hw1, hn0]
    simp [logScale]
  have hA : ContinuousAt (dslope Real.arctan 0) 0 := continuousAt_dslope_same.2 (Real.differentiableAt_arctan 0)
  have hq : ContinuousAt (fun y => n y / w y) x := hn.div hw (by rw [hw1]; exact one_ne_zero)
  have hq0 : n x / w x = 0 := by rw [hn0, zero_div]
  have hB : ContinuousAt (fun y => 2 * (dslope Real.arctan 0 (n y / w y) / w y)) x :=
    ((ContinuousAt.comp (g := dslope Real.arctan 0) (f := fun y => n y / w y) (by rw [hq0]; exact hA) hq).div hw (by rw [hw1]; exact one_ne_zero)).const_mul 2
  have hB0 : 2 * (dslope Real.arctan 0 (n x / w x) / w x) = 2 := by
    rw [hq0, hw1, dslope_same]
    simp
  show Tendsto _ _ (𝓝 (logScale (w x) (n x)))
  rw [hx]
  have hB' : Tendsto (fun y => 2 * (dslope Real.arctan 0 (n y / w y) / w y)) (𝓝 x) (𝓝 2) := by
    have := hB.tendsto
    rwa [hB0] at this
  rw [tendsto_iff_norm_sub_tendsto_zero] at hB' ⊢
  refine squeeze_zero' (Eventually.of_forall fun y => norm_nonneg _) ?_ hB'
  have hpos : ∀ᶠ y in 𝓝 x, 0 < w y := hw.eventually (lt_mem_nhds (by rw [hw1]; exact one_pos))
  filter_upwards [hpos] with y hy
  by_cases h : 0 < n y
  · rw [logScale_of_pos hy h]
  · have : logScale (w y) (n y) = 2 := by
      unfold logScale
      rw [if_neg h, if_neg (not_lt.2 hy.le), mul_one]
    rw [this, sub_self, norm_zero]
    exact norm_nonneg _

/-- The matrix of the derivative of the local coordinates. -/
noncomputable def localMatrix (q : Quat ℝ) : Matrix (Fin 3) (Fin 4) ℝ :=
  !![-2 * q.x, 2 * q.w, 2 * q.z, -2 * q.y;
     -2 * q.y, -2 * q.z, 2 * q.w, 2 * q.x;
     -2 * q.z, 2 * q.y, -2 * q.x, 2 * q.w]

/-- The vector part of `qᵀ * d`. -/
noncomputable def localPart (q : Quat ℝ) : Fin 3 → (Fin 4 → ℝ) →L[ℝ] ℝ :=
  let p : Fin 4 → (Fin 4 → ℝ) →L[ℝ] ℝ := fun i => ContinuousLinearMap.proj i
  ![q.w • p 1 - q.x • p 0 - q.y • p 3 + q.z • p 2, q.w • p 2 - q.y • p 0 - q.z • p 1 + q.x • p 3,
    q.w • p 3 - q.z • p 0 - q.x • p 2 + q.y • p 1]

theorem local_hasFDerivAt (q : Quat ℝ) (h : q.squaredNorm = 1) :
    HasFDerivAt (localCoordinates q) (LinearMap.toContinuousLinearMap (Matrix.toLin' (localMatrix q))) 0 := by
  set r : (Fin 4 → ℝ) → Quat ℝ := fun d => q.conj.mul ⟨q.w + d 0, q.x + d 1, q.y + d 2, q.z + d 3⟩ with hr
  have hw : ContinuousAt (fun d => (r d).w) 0 := by
    simp only [hr, Quat.mul, Quat.conj]
    fun_prop
  have hn : ContinuousAt (fun d => √((r d).x * (r d).x + (r d).y * (r d).y + (r d).z * (r d).z)) 0 := by
    simp only [hr, Quat.mul, Quat.conj]
    fun_prop
  unfold Quat.squaredNorm at h
  have hw1 : (r 0).w = 1 := by
    simp only [hr, Quat.mul, Quat.conj, Pi.zero_apply]
    linarith
  have hx : ∀ d, (r d).x = localPart q 0 d := by
    intro d
    simp [hr, Quat.mul, Quat.conj, localPart]
    ring
  have hy : ∀ d, (r d).y = localPart q 1 d := by
    intro d
    simp [hr, Quat.mul, Quat.conj, localPart]
    ring
  have hz : ∀ d, (r d).z = localPart q 2 d := by
    intro d
    simp [hr, Quat.mul, Quat.conj, localPart]
    ring
  have hn0 : √((r 0).x * (r 0).x + (r 0).y * (r 0).y + (r 0).z * (r 0).z) = 0 := by
    rw [hx, hy, hz]
    simp
  have hs := logScale_tendsto hw hn hw1 hn0
  have hs0 : logScale (r 0).w (√((r 0).x * (r 0).x + (r 0).y * (r 0).y + (r 0).z * (r 0).z)) = 2 := by
    rw [hw1, hn0]
    simp [logScale]
  have part : ∀ i, HasFDerivAt (fun d => localPart q i d * logScale (r d).w (√((r d).x * (r d).x + (r d).y * (r d).y + (r d).z * (r d).z)))
      ((2 : ℝ) • localPart q i) 0 := fun i => by
    have := hasFDerivAt_linear_mul (localPart q i) _ hs
    rwa [hs0] at this
  have e : localCoordinates q = fun d => ![
      localPart q 0 d * logScale (r d).w (√((r d).x * (r d).x + (r d).y * (r d).y + (r d).z * (r d).z)),
      localPart q 1 d * logScale (r d).w (√((r d).x * (r d).x + (r d).y * (r d).y + (r d).z * (r d).z)),
      localPart q 2 d * logScale (r d).w (√((r d).x * (r d).x + (r d).y * (r d).y + (r d).z * (r d).z))] := by
    funext d
    rw [← hx, ← hy, ← hz]
    set s := logScale (r d).w (√((r d).x * (r d).x + (r d).y * (r d).y + (r d).z * (r d).z)) with hsd
    rw [mul_comm _ s, mul_comm _ s, mul_comm _ s]
    rfl
  rw [e, hasFDerivAt_pi']
  intro i
  fin_cases i
  · refine (part 0).congr_fderiv ?_
    ext v
    simp [localMatrix, localPart, Matrix.toLin'_apply, Matrix.vecHead, Matrix.vecTail]
    ring
  · refine (part 1).congr_fderiv ?_
    ext v
    simp [localMatrix, localPart, Matrix.toLin'_apply, Matrix.vecHead, Matrix.vecTail]
    ring
  · refine (part 2).congr_fderiv ?_
    ext v
    simp [localMatrix, localPart, Matrix.toLin'_apply, Matrix.vecHead, Matrix.vecTail]
    ring

end Wf.Geo
