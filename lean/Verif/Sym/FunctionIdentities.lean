import Verif.Sym.EvalLemmas
import Mathlib.Analysis.Complex.ExponentialBounds
import Mathlib.Analysis.Real.Pi.Bounds

/-! # Identities of the functions used by the simplifications -/

namespace Wf.Sym
open Complex

theorem div_I (z : ℂ) : z * I⁻¹ * I = z := by rw [mul_assoc, inv_mul_cancel₀ I_ne_zero, mul_one]

theorem cos_of_I (w : ℂ) : cos (w * I) = cosh w := cos_mul_I w
theorem sin_of_I (w : ℂ) : sin (w * I) = I * sinh w := by rw [sin_mul_I, mul_comm]
theorem tan_of_I (w : ℂ) : tan (w * I) = I * tanh w := by rw [tan_mul_I, mul_comm]
theorem cosh_of_I (w : ℂ) : cosh (w * I) = cos w := cosh_mul_I w
theorem sinh_of_I (w : ℂ) : sinh (w * I) = I * sin w := by rw [sinh_mul_I, mul_comm]
theorem tanh_of_I (w : ℂ) : tanh (w * I) = I * tan w := by rw [tanh_mul_I, mul_comm]

theorem cos_pi_shift (r : ℂ) (k : ℤ) : cos ((r + 2 * k) * Real.pi) = cos (r * Real.pi) := by
  have : (r + 2 * k) * (Real.pi : ℂ) = r * Real.pi + k * (2 * Real.pi) := by ring
  rw [this, cos_add_int_mul_two_pi]
theorem sin_pi_shift (r : ℂ) (k : ℤ) : sin ((r + 2 * k) * Real.pi) = sin (r * Real.pi) := by
  have : (r + 2 * k) * (Real.pi : ℂ) = r * Real.pi + k * (2 * Real.pi) := by ring
  rw [this, sin_add_int_mul_two_pi]

theorem fnVal_tan_shift (r : ℂ) (k : ℤ) : fnVal .tan [(r + k) * Real.pi] = fnVal .tan [r * Real.pi] := by
  have e : (r + k) * (Real.pi : ℂ) = r * Real.pi + k * Real.pi := by ring
  have h1 : tan ((r + k) * Real.pi) = tan (r * Real.pi) := by rw [e, tan_add_int_mul_pi]
  have h2 : cos ((r + k) * Real.pi) = 0 ↔ cos (r * Real.pi) = 0 := by
    rw [e, cos_eq_zero_iff, cos_eq_zero_iff]
    constructor
    · rintro ⟨m, hm⟩
      refine ⟨m - k, ?_⟩
      push_cast
      linear_combination hm
    · rintro ⟨m, hm⟩
      refine ⟨m + k, ?_⟩
      push_cast
      linear_combination hm
  show (if _ then _ else _) = (if _ then _ else _)
  rw [h1]
  simp only [h2]

theorem csqrt_sq (z : ℂ) : csqrt z ^ 2 = z := by
  unfold csqrt
  rw [← cpow_nat_mul]
  norm_num

theorem csqrt_re (z : ℂ) : 0 ≤ (csqrt z).re := by
  unfold csqrt
  rw [cpow_def]
  split_ifs with h h'
  · norm_num
  · simp
  · rw [exp_re]
    apply mul_nonneg (Real.exp_pos _).le
    apply Real.cos_nonneg_of_mem_Icc
    have h1 : (log z * (1 / 2 : ℂ)).im = arg z / 2 := by
      rw [show (1 / 2 : ℂ) = ((1 / 2 : ℝ) : ℂ) by norm_num, im_mul_ofReal, log_im]; ring
    rw [h1]
    have := neg_pi_lt_arg z
    have := arg_le_pi z
    constructor <;> linarith

@[simp] theorem csqrt_one : csqrt 1 = 1 := by simp [csqrt]
@[simp] theorem csqrt_zero : csqrt 0 = 0 := by simp [csqrt]
@[simp] theorem csqrt_neg_one : csqrt (-1) = I := by
  unfold csqrt
  rw [cpow_def_of_ne_zero (by norm_num), log_neg_one, show (Real.pi : ℂ) * I * (1 / 2) = (Real.pi / 2 : ℂ) * I by ring]
  rw [exp_mul_I]; simp

/-- The inverse sine is odd. -/
theorem arcsin_neg (z : ℂ) : -I * log (I * -z + csqrt (1 - (-z) ^ 2)) = -(-I * log (I * z + csqrt (1 - z ^ 2))) := by
  have hs : csqrt (1 - z ^ 2) ^ 2 = 1 - z ^ 2 := csqrt_sq _
  have hr := csqrt_re (1 - z ^ 2)
  rw [neg_sq]
  generalize csqrt (1 - z ^ 2) = s at *
  have hp : (I * z + s) * (I * -z + s) = 1 := by
    have : (I * z + s) * (I * -z + s) = s ^ 2 - I ^ 2 * z ^ 2 := by ring
    rw [this, hs, I_sq]; ring
  have hw : I * z + s ≠ 0 := left_ne_zero_of_mul_eq_one hp
  have he : I * -z + s = (I * z + s)⁻¹ := eq_inv_of_mul_eq_one_right hp
  have harg : arg (I * z + s) ≠ Real.pi := by
    intro h
    obtain ⟨h1, h2⟩ := arg_eq_pi_iff.1 h
    have hsum : 2 * s = (I * z + s) + (I * z + s)⁻¹ := by rw [← he]; ring
    generalize I * z + s = w at *
    have hwr : w = (w.re : ℂ) := by apply Complex.ext <;> simp [h2]
    have : 2 * s.re = w.re + w.re⁻¹ := by
      have := congrArg Complex.re hsum
      rw [hwr, ← ofReal_inv] at this
      simpa using this
    have : w.re⁻¹ < 0 := inv_neg''.2 h1
    linarith
  rw [he, log_inv _ harg]; ring

theorem cosh_arccosh (z : ℂ) : cosh (log (z + csqrt (z + 1) * csqrt (z - 1))) = z := by
  have h1 : csqrt (z + 1) ^ 2 = z + 1 := csqrt_sq _
  have h2 : csqrt (z - 1) ^ 2 = z - 1 := csqrt_sq _
  generalize csqrt (z + 1) = a at *
  generalize csqrt (z - 1) = b at *
  have hp : (z + a * b) * (z - a * b) = 1 := by
    have : (z + a * b) * (z - a * b) = z ^ 2 - a ^ 2 * b ^ 2 := by ring
    rw [this, h1, h2]; ring
  have hw : z + a * b ≠ 0 := left_ne_zero_of_mul_eq_one hp
  have he : z - a * b = (z + a * b)⁻¹ := eq_inv_of_mul_eq_one_right hp
  rw [Complex.cosh, exp_neg, exp_log hw, ← he]; ring

theorem sinh_arcsinh (z : ℂ) : sinh (log (z + csqrt (z ^ 2 + 1))) = z := by
  have h1 : csqrt (z ^ 2 + 1) ^ 2 = z ^ 2 + 1 := csqrt_sq _
  generalize csqrt (z ^ 2 + 1) = a at *
  have hp : (z + a) * (a - z) = 1 := by
    have : (z + a) * (a - z) = a ^ 2 - z ^ 2 := by ring
    rw [this, h1]; ring
  have hw : z + a ≠ 0 := left_ne_zero_of_mul_eq_one hp
  have he : a - z = (z + a)⁻¹ := eq_inv_of_mul_eq_one_right hp
  rw [Complex.sinh, exp_neg, exp_log hw, ← he]; ring

theorem tanh_arctanh {z : ℂ} (h1 : z ≠ 1) (h2 : z ≠ -1) :
    tanh ((log (1 + z) - log (1 - z)) / 2) = z := by
  have ha : 1 + z ≠ 0 := by intro h; apply h2; linear_combination h
  have hb : 1 - z ≠ 0 := by intro h; apply h1; linear_combination -h
  generalize hu : (log (1 + z) - log (1 - z)) / 2 = u
  have he : exp u ^ 2 = (1 + z) / (1 - z) := by
    rw [← exp_nat_mul, ← hu, show ((2 : ℕ) : ℂ) * ((log (1 + z) - log (1 - z)) / 2) = log (1 + z) - log (1 - z) by push_cast; ring,
      exp_sub, exp_log ha, exp_log hb]
  have hn := exp_ne_zero u
  rw [Complex.tanh, Complex.sinh, Complex.cosh, exp_neg]
  generalize exp u = w at *
  have he2 : w ^ 2 * (1 - z) = 1 + z := by rw [he, div_mul_cancel₀ _ hb]
  have hd : w ^ 2 + 1 ≠ 0 := by
    intro h
    have : w ^ 2 = -1 := by linear_combination h
    rw [this] at he2
    have : (2 : ℂ) = 0 := by linear_combination -he2
    norm_num at this
  have : (w - w⁻¹) / 2 / ((w + w⁻¹) / 2) = (w ^ 2 - 1) / (w ^ 2 + 1) := by
    have e1 : (w - w⁻¹) = (w ^ 2 - 1) / w := by field_simp
    have e2 : (w + w⁻¹) = (w ^ 2 + 1) / w := by field_simp
    rw [e1, e2]
    field_simp
  rw [this, div_eq_iff hd]
  linear_combination he2

theorem norm_signum {z : ℂ} (h : z ≠ 0) : ‖z / (‖z‖ : ℂ)‖ = 1 := by
  rw [norm_div, norm_real, norm_norm, div_self (norm_ne_zero_iff.2 h)]

theorem log_I' : log I = Real.pi / 2 * I := log_I
theorem log_negI : log (-I) = -(Real.pi / 2 * I) := by rw [log_neg_I]; ring

theorem arg_one_I : arg (1 + I) = Real.pi / 4 := by
  have : (1 + I : ℂ) = ((Real.sqrt 2 : ℝ) : ℂ) * (Real.cos (Real.pi / 4) + Real.sin (Real.pi / 4) * I) := by
    rw [Real.cos_pi_div_four, Real.sin_pi_div_four]
    have h2 : Real.sqrt 2 * (Real.sqrt 2 / 2) = 1 := by
      rw [← mul_div_assoc, Real.mul_self_sqrt (by norm_num)]; norm_num
    apply Complex.ext
    · simp [h2]
    · simp [h2]
  rw [this]
  have := arg_mul_cos_add_sin_mul_I (r := Real.sqrt 2) (by positivity) (θ := Real.pi / 4) ⟨by linarith [Real.pi_pos], by linarith [Real.pi_pos]⟩
  push_cast at this ⊢
  exact this

end Wf.Sym
