import Verif.Sym.DerivativeSpec
import Mathlib.Analysis.SpecialFunctions.Complex.LogDeriv
import Mathlib.Analysis.SpecialFunctions.Pow.Deriv
import Mathlib.Analysis.SpecialFunctions.Trigonometric.ComplexDeriv
import Mathlib.Analysis.SpecialFunctions.Trigonometric.DerivHyp

/-! # The derivatives of the functions, along a real parameter -/

namespace Wf.Sym
open Complex Filter Topology

/-- The derivative that the rules of `derivative.cc` use. -/
noncomputable def fnDer : BuiltIn → ℂ → ℂ
  | .cos, z => -sin z
  | .sin, z => cos z
  | .tan, z => cos z ^ (-2 : ℂ)
  | .arccos, z => -(1 - z ^ 2) ^ (-(1 / 2) : ℂ)
  | .arcsin, z => (1 - z ^ 2) ^ (-(1 / 2) : ℂ)
  | .arctan, z => (z ^ 2 + 1)⁻¹
  | .cosh, z => sinh z
  | .sinh, z => cosh z
  | .tanh, z => 1 - tanh z ^ 2
  | .arccosh, z => (csqrt (z + 1) * csqrt (z - 1))⁻¹
  | .arcsinh, z => (z ^ 2 + 1) ^ (-(1 / 2) : ℂ)
  | .arctanh, z => (1 - z ^ 2)⁻¹
  | .exp, z => exp z
  | .log, z => z⁻¹
  | _, _ => 0

theorem csqrt_sq (z : ℂ) : csqrt z ^ 2 = z := by
  unfold csqrt
  rw [← cpow_nat_mul]
  norm_num

theorem csqrt_ne {z : ℂ} (hz : z ∈ slitPlane) : csqrt z ≠ 0 := by
  intro h
  have := csqrt_sq z
  rw [h] at this
  exact slitPlane_ne_zero hz (by rw [← this]; norm_num)

theorem csqrt_re_pos {z : ℂ} (hz : z ∈ slitPlane) : 0 < (csqrt z).re := by
  have h0 := slitPlane_ne_zero hz
  unfold csqrt
  rw [cpow_def_of_ne_zero h0, exp_re]
  have him : (log z * (1 / 2 : ℂ)).im = arg z / 2 := by
    rw [show (1 / 2 : ℂ) = ((1 / 2 : ℝ) : ℂ) by push_cast; ring, im_mul_ofReal, log_im]; ring
  rw [him]
  have h1 := neg_pi_lt_arg z
  have h2 : arg z < Real.pi := lt_of_le_of_ne (arg_le_pi z) (mem_slitPlane_iff_arg.1 hz).1
  exact mul_pos (Real.exp_pos _) (Real.cos_pos_of_mem_Ioo ⟨by linarith, by linarith⟩)

theorem csqrt_deriv {z : ℂ} (hz : z ∈ slitPlane) : HasDerivAt csqrt ((2 * csqrt z)⁻¹) z := by
  have h := (hasDerivAt_id z).cpow_const (c := (1 / 2 : ℂ)) hz
  refine h.congr_deriv ?_
  simp only [id, mul_one]
  unfold csqrt
  rw [mul_inv, ← cpow_neg]
  norm_num

theorem csqrt_comp {g : ℂ → ℂ} {g' z : ℂ} (hg : HasDerivAt g g' z) (hs : g z ∈ slitPlane) :
    HasDerivAt (fun w => csqrt (g w)) ((2 * csqrt (g z))⁻¹ * g') z := (csqrt_deriv hs).comp z hg

theorem csqrt_inv {z : ℂ} : z ^ (-(1 / 2) : ℂ) = (csqrt z)⁻¹ := by rw [cpow_neg]; rfl

/-- A square root with a non-positive sum. -/
theorem slit_of_sqrt {u s : ℂ} (hs : 0 < s.re) (hrel : s ^ 2 - u ^ 2 = 1) : u + s ∈ slitPlane := by
  by_contra hn
  rw [mem_slitPlane_iff, not_or, not_lt, not_not] at hn
  obtain ⟨hre, him⟩ := hn
  have hprod : (s + u) * (s - u) = 1 := by rw [← hrel]; ring
  have hsu : s + u = ((s + u).re : ℂ) := by
    apply Complex.ext
    · simp
    · rw [ofReal_im, add_comm]; exact him
  set r := (s + u).re with hr
  have hr0 : r ≤ 0 := by rw [hr, add_comm]; exact hre
  rw [hsu] at hprod
  have hrne : r ≠ 0 := by rintro h; rw [h] at hprod; simp at hprod
  have hre2 : r * (s - u).re = 1 := by
    have := congrArg Complex.re hprod
    rw [re_ofReal_mul] at this
    simpa using this
  have h1 : r + (s - u).re = 2 * s.re := by rw [hr]; simp; ring
  have hneg : r < 0 := lt_of_le_of_ne hr0 hrne
  have : (s - u).re < 0 := by
    by_contra hge
    push_neg at hge
    nlinarith
  linarith

/-- Each function has the derivative of the rule, at regular points. -/
theorem fn_deriv (f : BuiltIn) (z : ℂ) (h : Regular f z) :
    ∃ G : ℂ → ℂ, (∀ᶠ w in 𝓝 z, fnVal f [w] = some (G w)) ∧ HasDerivAt G (fnDer f z) z := by
  have one_sub : HasDerivAt (fun w : ℂ => 1 - w ^ 2) (-(2 * z)) z := by
    simpa using ((hasDerivAt_id z).pow 2).const_sub 1
  cases f with
  | cos => exact ⟨cos, .of_forall fun w => rfl, hasDerivAt_cos z⟩
  | sin => exact ⟨sin, .of_forall fun w => rfl, hasDerivAt_sin z⟩
  | tan =>
    have hc : cos z ≠ 0 := h
    refine ⟨tan, ?_, ?_⟩
    · filter_upwards [(continuous_cos.continuousAt).eventually_ne hc] with w hw
      simp [fnVal, hw]
    · have := hasDerivAt_tan hc
      refine this.congr_deriv ?_
      rw [show fnDer .tan z = cos z ^ ((-2 : ℤ) : ℂ) by simp [fnDer], cpow_intCast]
      simp [zpow_neg]
  | arcsin =>
    have hs : (1 - z ^ 2) ∈ slitPlane := h
    have hsq : HasDerivAt (fun w => csqrt (1 - w ^ 2)) ((2 * csqrt (1 - z ^ 2))⁻¹ * -(2 * z)) z := csqrt_comp one_sub hs
    have hsl : I * z + csqrt (1 - z ^ 2) ∈ slitPlane := slit_of_sqrt (csqrt_re_pos hs) (by rw [csqrt_sq, mul_pow, I_sq]; ring)
    have hsum : HasDerivAt (fun w => I * w + csqrt (1 - w ^ 2)) (I + (2 * csqrt (1 - z ^ 2))⁻¹ * -(2 * z)) z := by
      exact (((hasDerivAt_id z).const_mul I).add hsq).congr_deriv (by rw [mul_one])
    refine ⟨fun w => -I * log (I * w + csqrt (1 - w ^ 2)), .of_forall fun w => rfl, ?_⟩
    have hlog := (hsum.clog hsl).const_mul (-I)
    refine hlog.congr_deriv ?_
    have h0 := csqrt_ne hs
    have h1 := slitPlane_ne_zero hsl
    simp only [fnDer]
    rw [csqrt_inv]
    field_simp
    linear_combination -csqrt (1 - z ^ 2) * I_sq
  | arccos =>
    have hs : (1 - z ^ 2) ∈ slitPlane := h
    have hsq : HasDerivAt (fun w => csqrt (1 - w ^ 2)) ((2 * csqrt (1 - z ^ 2))⁻¹ * -(2 * z)) z := csqrt_comp one_sub hs
    have hsl : I * z + csqrt (1 - z ^ 2) ∈ slitPlane := slit_of_sqrt (csqrt_re_pos hs) (by rw [csqrt_sq, mul_pow, I_sq]; ring)
    have hsum : HasDerivAt (fun w => I * w + csqrt (1 - w ^ 2)) (I + (2 * csqrt (1 - z ^ 2))⁻¹ * -(2 * z)) z := by
      exact (((hasDerivAt_id z).const_mul I).add hsq).congr_deriv (by rw [mul_one])
    refine ⟨fun w => Real.pi / 2 - -I * log (I * w + csqrt (1 - w ^ 2)), .of_forall fun w => rfl, ?_⟩
    have hlog := ((hsum.clog hsl).const_mul (-I)).const_sub (Real.pi / 2 : ℂ)
    refine hlog.congr_deriv ?_
    have h0 := csqrt_ne hs
    have h1 := slitPlane_ne_zero hsl
    simp only [fnDer]
    rw [csqrt_inv]
    field_simp
    linear_combination csqrt (1 - z ^ 2) * I_sq
  | arctan =>
    obtain ⟨h1, h2⟩ : 1 - I * z ∈ slitPlane ∧ 1 + I * z ∈ slitPlane := h
    have h10 := slitPlane_ne_zero h1
    have h20 := slitPlane_ne_zero h2
    refine ⟨fun w => I / 2 * (log (1 - I * w) - log (1 + I * w)), ?_, ?_⟩
    · have e1 : ∀ᶠ w in 𝓝 z, 1 - I * w ≠ 0 := (by fun_prop : ContinuousAt (fun w => 1 - I * w) z).eventually_ne h10
      have e2 : ∀ᶠ w in 𝓝 z, 1 + I * w ≠ 0 := (by fun_prop : ContinuousAt (fun w => 1 + I * w) z).eventually_ne h20
      filter_upwards [e1, e2] with w hw1 hw2
      have : ¬ (w = I ∨ w = -I) := by
        rintro (rfl | rfl)
        · exact hw2 (by rw [I_mul_I]; ring)
        · exact hw1 (by rw [mul_neg, I_mul_I]; ring)
      simp [fnVal, this]
    · have d1 : HasDerivAt (fun w => 1 - I * w) (-I) z := by simpa using ((hasDerivAt_id z).const_mul I).const_sub 1
      have d2 : HasDerivAt (fun w => 1 + I * w) I z := by simpa using ((hasDerivAt_id z).const_mul I).const_add 1
      have := ((d1.clog h1).sub (d2.clog h2)).const_mul (I / 2)
      refine this.congr_deriv ?_
      have h3 : z ^ 2 + 1 = (1 - I * z) * (1 + I * z) := by linear_combination z ^ 2 * I_sq
      simp only [fnDer]
      rw [h3]
      field_simp
      linear_combination (-2 : ℂ) * I_sq
  | cosh => exact ⟨cosh, .of_forall fun w => rfl, Complex.hasDerivAt_cosh z⟩
  | sinh => exact ⟨sinh, .of_forall fun w => rfl, Complex.hasDerivAt_sinh z⟩
  | tanh =>
    have hc : cosh z ≠ 0 := h
    refine ⟨tanh, ?_, ?_⟩
    · filter_upwards [(continuous_cosh.continuousAt).eventually_ne hc] with w hw
      simp [fnVal, hw]
    · have := (Complex.hasDerivAt_sinh z).div (Complex.hasDerivAt_cosh z) hc
      have e : tanh = fun w => sinh w / cosh w := funext tanh_eq_sinh_div_cosh
      rw [show fnDer .tanh z = (cosh z * cosh z - sinh z * sinh z) / cosh z ^ 2 by
        simp only [fnDer, tanh_eq_sinh_div_cosh]; field_simp]
      rw [e]; exact this
  | arccosh =>
    obtain ⟨h1, h2⟩ : z + 1 ∈ slitPlane ∧ z - 1 ∈ slitPlane := h
    have d1 : HasDerivAt (fun w => csqrt (w + 1)) ((2 * csqrt (z + 1))⁻¹) z := by
      exact (csqrt_comp ((hasDerivAt_id z).add_const (1 : ℂ)) h1).congr_deriv (by simp)
    have d2 : HasDerivAt (fun w => csqrt (w - 1)) ((2 * csqrt (z - 1))⁻¹) z := by
      exact (csqrt_comp ((hasDerivAt_id z).sub_const (1 : ℂ)) h2).congr_deriv (by simp)
    have ha := csqrt_sq (z + 1)
    have hb := csqrt_sq (z - 1)
    have hare := csqrt_re_pos h1
    have hbre := csqrt_re_pos h2
    have ha0 := csqrt_ne h1
    have hb0 := csqrt_ne h2
    have hu : z + csqrt (z + 1) * csqrt (z - 1) ∈ slitPlane := by
      generalize csqrt (z + 1) = a at *
      generalize csqrt (z - 1) = b at *
      have e : z + a * b = (a + b) ^ 2 / 2 := by linear_combination (-1 / 2 : ℂ) * ha + (-1 / 2 : ℂ) * hb
      rw [e]
      have hc : 0 < (a + b).re := by rw [add_re]; linarith
      rw [mem_slitPlane_iff]
      by_cases him : (a + b).im = 0
      · left
        have : a + b = ((a + b).re : ℂ) := by apply Complex.ext <;> simp [him]
        rw [this]
        rw [show (((a + b).re : ℂ) ^ 2 / 2) = (((a + b).re ^ 2 / 2 : ℝ) : ℂ) by push_cast; ring, ofReal_re]
        positivity
      · right
        have : ((a + b) ^ 2 / 2).im = (a + b).re * (a + b).im := by
          rw [pow_two, show (2 : ℂ) = ((2 : ℝ) : ℂ) by norm_num, div_ofReal_im, mul_im]; ring
        rw [this]
        exact mul_ne_zero hc.ne' him
    refine ⟨fun w => log (w + csqrt (w + 1) * csqrt (w - 1)), .of_forall fun w => rfl, ?_⟩
    have dd : HasDerivAt (fun w => w + csqrt (w + 1) * csqrt (w - 1)) (1 + ((2 * csqrt (z + 1))⁻¹ * csqrt (z - 1) + csqrt (z + 1) * (2 * csqrt (z - 1))⁻¹)) z :=
      (hasDerivAt_id z).add (d1.mul d2)
    have := dd.clog hu
    refine this.congr_deriv ?_
    have hu0 := slitPlane_ne_zero hu
    simp only [fnDer]
    generalize csqrt (z + 1) = a at *
    generalize csqrt (z - 1) = b at *
    field_simp
    linear_combination ha + hb
  | arcsinh =>
    have hs : (z ^ 2 + 1) ∈ slitPlane := h
    have dsq : HasDerivAt (fun w : ℂ => w ^ 2 + 1) (2 * z) z := by simpa using ((hasDerivAt_id z).pow 2).add_const (1 : ℂ)
    have hsq : HasDerivAt (fun w => csqrt (w ^ 2 + 1)) ((2 * csqrt (z ^ 2 + 1))⁻¹ * (2 * z)) z := csqrt_comp dsq hs
    have hsl : z + csqrt (z ^ 2 + 1) ∈ slitPlane := slit_of_sqrt (csqrt_re_pos hs) (by rw [csqrt_sq]; ring)
    refine ⟨fun w => log (w + csqrt (w ^ 2 + 1)), .of_forall fun w => rfl, ?_⟩
    have dd : HasDerivAt (fun w => w + csqrt (w ^ 2 + 1)) (1 + (2 * csqrt (z ^ 2 + 1))⁻¹ * (2 * z)) z := (hasDerivAt_id z).add hsq
    have := dd.clog hsl
    refine this.congr_deriv ?_
    have h0 := csqrt_ne hs
    have h1 := slitPlane_ne_zero hsl
    simp only [fnDer]
    rw [csqrt_inv]
    field_simp
    ring
  | arctanh =>
    obtain ⟨h1, h2⟩ : 1 + z ∈ slitPlane ∧ 1 - z ∈ slitPlane := h
    have h10 := slitPlane_ne_zero h1
    have h20 := slitPlane_ne_zero h2
    refine ⟨fun w => (log (1 + w) - log (1 - w)) / 2, ?_, ?_⟩
    · have e1 : ∀ᶠ w in 𝓝 z, 1 + w ≠ 0 := (by fun_prop : ContinuousAt (fun w => 1 + w) z).eventually_ne h10
      have e2 : ∀ᶠ w in 𝓝 z, 1 - w ≠ 0 := (by fun_prop : ContinuousAt (fun w => 1 - w) z).eventually_ne h20
      filter_upwards [e1, e2] with w hw1 hw2
      have : ¬ (w = 1 ∨ w = -1) := by
        rintro (rfl | rfl)
        · exact hw2 (by ring)
        · exact hw1 (by ring)
      simp [fnVal, this]
    · have d1 : HasDerivAt (fun w : ℂ => 1 + w) 1 z := (hasDerivAt_id z).const_add 1
      have d2 : HasDerivAt (fun w : ℂ => 1 - w) (-1) z := (hasDerivAt_id z).const_sub 1
      have := ((d1.clog h1).sub (d2.clog h2)).div_const 2
      refine this.congr_deriv ?_
      have h3 : 1 - z ^ 2 = (1 + z) * (1 - z) := by ring
      simp only [fnDer]
      rw [h3]
      field_simp
      ring
  | exp => exact ⟨exp, .of_forall fun w => rfl, hasDerivAt_exp z⟩
  | log =>
    have hs : z ∈ slitPlane := h
    refine ⟨log, ?_, hasDerivAt_log hs⟩
    filter_upwards [continuousAt_id.eventually_ne (slitPlane_ne_zero hs)] with w hw
    have : w ≠ 0 := hw
    simp [fnVal, this]
  | _ => exact absurd h (by simp [Regular])

end Wf.Sym
