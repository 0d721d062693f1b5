import Verif.Sym.DerivativeCalculus
import Verif.Sym.ZeroLemmas
import Verif.Sym.SubstituteLemmas

/-! # The rules of `derivative.cc` compute the derivative -/

namespace Wf.Sym
open Complex Filter Topology

variable {F : Type} [DecidableEq F] [FnSem F]

/-! ## Values -/

/-- The expression is well-formed and has this value. -/
def HasVal (ρ : Env F) (e : Expr F) (z : ℂ) : Prop := Good e ∧ eval ρ e = some z

section
variable {lic : Lic F} {ρ : Env F} {K : Ctors F}

theorem HasVal.int {n : Int} (h : InI64 n) : HasVal ρ (.int n) (n : ℂ) := ⟨good_int.2 h, eval_int ρ n⟩
theorem hv_one : HasVal ρ (.int 1) 1 := ⟨good_one, by rw [eval_int]; simp⟩
theorem hv_two : HasVal ρ (.int 2) 2 := ⟨good_int.2 (inI64_small (by decide) (by decide)), by rw [eval_int]; simp⟩
theorem hv_zero : HasVal ρ (.int 0) 0 := ⟨good_zero, by rw [eval_int]; simp⟩
theorem hv_negOne : HasVal ρ (.int (-1)) (-1) := ⟨good_negOne, by rw [eval_int]; simp⟩
theorem hv_negTwo : HasVal ρ (.int (-2)) (-2) := ⟨good_int.2 (inI64_small (by decide) (by decide)), by rw [eval_int]; simp⟩

theorem hv_isZero {d : Expr F} {z : ℂ} (h : eval ρ d = some z) (hd : isInt 0 d = true) : z = 0 := by
  rw [isInt_iff.1 hd, eval_int] at h
  simpa using h.symm

variable (hK : Sound lic ρ K) (hl : lic.TrueAt ρ)
include hK hl

theorem hv_mul {a b r : Expr F} {x y : ℂ} (ha : HasVal ρ a x) (hb : HasVal ρ b y) (h : K.mul [a, b] = .ok r) : HasVal ρ r (x * y) := by
  have h1 := hK.mul [a, b] r (by simpa using ⟨ha.1, hb.1⟩) h
  exact ⟨h1.1, h1.2 hl _ (by simp [prodO_cons, ha.2, hb.2])⟩

theorem hv_add {a b r : Expr F} {x y : ℂ} (ha : HasVal ρ a x) (hb : HasVal ρ b y) (h : K.add [a, b] = .ok r) : HasVal ρ r (x + y) := by
  have h1 := hK.add [a, b] r (by simpa using ⟨ha.1, hb.1⟩) h
  exact ⟨h1.1, h1.2 hl _ (by simp [sumO_cons, ha.2, hb.2])⟩

theorem hv_pow {a b r : Expr F} {x y z : ℂ} (ha : HasVal ρ a x) (hb : HasVal ρ b y) (hz : powVal x y = some z) (h : K.pow a b = .ok r) : HasVal ρ r z := by
  have h1 := hK.pow a b r ha.1 hb.1 h
  exact ⟨h1.1, h1.2 hl _ (by rw [ha.2, hb.2]; exact hz)⟩

theorem hv_pow_ne {a b r : Expr F} {x y : ℂ} (ha : HasVal ρ a x) (hb : HasVal ρ b y) (hx : x ≠ 0) (h : K.pow a b = .ok r) : HasVal ρ r (x ^ y) :=
  hv_pow hK hl ha hb (powVal_of_ne hx y) h

theorem hv_neg {a r : Expr F} {x : ℂ} (ha : HasVal ρ a x) (h : negE K a = .ok r) : HasVal ρ r (-x) := by
  have := hv_mul hK hl hv_negOne ha h
  rwa [neg_one_mul] at this

theorem hv_sub {a b r : Expr F} {x y : ℂ} (ha : HasVal ρ a x) (hb : HasVal ρ b y) (h : subE K a b = .ok r) : HasVal ρ r (x - y) := by
  unfold subE at h
  cases hm : K.mul [.int (-1), b] with
  | error e => simp [hm] at h
  | ok m =>
    simp only [hm] at h
    have := hv_add hK hl ha (hv_mul hK hl hv_negOne hb hm) h
    rwa [neg_one_mul, ← sub_eq_add_neg] at this

theorem hv_div {a b r : Expr F} {x y : ℂ} (ha : HasVal ρ a x) (hb : HasVal ρ b y) (hy : y ≠ 0) (h : divE K a b = .ok r) : HasVal ρ r (x * y⁻¹) := by
  unfold divE at h
  cases hm : K.pow b (.int (-1)) with
  | error e => simp [hm] at h
  | ok m =>
    simp only [hm] at h
    have := hv_mul hK hl ha (hv_pow_ne hK hl hb hv_negOne hy hm) h
    rwa [cpow_neg_one] at this

theorem hv_fn {f : BuiltIn} {m : Nat} {a r : Expr F} {x z : ℂ} (ha : HasVal ρ a x) (hz : fnVal f [x] = some z) (h : fns K m f a = .ok r) : HasVal ρ r z := by
  have h1 := fns_ok hK m f a r ha.1 h
  exact ⟨h1.1, h1.2 hl _ (by rw [fn1, ha.2]; exact hz)⟩

theorem hv_half {h : Expr F} (hh : oneHalf K = .ok h) : HasVal ρ h (1 / 2) := by
  have := hv_div hK hl hv_one hv_two (by norm_num) hh
  rwa [← div_eq_mul_inv] at this

theorem hv_negHalf {h : Expr F} (hh : negOneHalf K = .ok h) : HasVal ρ h (-(1 / 2)) := by
  obtain ⟨n, hn, hh⟩ := andThen_ok hh
  have := hv_div hK hl (hv_neg hK hl hv_one hn) hv_two (by norm_num) hh
  rwa [← div_eq_mul_inv, neg_div] at this

theorem hv_sq {a r : Expr F} {x : ℂ} (ha : HasVal ρ a x) (h : K.pow a (.int 2) = .ok r) : HasVal ρ r (x ^ 2) := by
  refine hv_pow hK hl ha hv_two ?_ h
  by_cases hx : x = 0
  · rw [hx, powVal_zero_pos (by norm_num)]; norm_num
  · rw [powVal_of_ne hx]; norm_cast

theorem hv_oneMinusSquare {a r : Expr F} {x : ℂ} (ha : HasVal ρ a x) (h : oneMinusSquare K a = .ok r) : HasVal ρ r (1 - x ^ 2) := by
  obtain ⟨s, hs, h⟩ := andThen_ok h
  exact hv_sub hK hl hv_one (hv_sq hK hl ha hs) h

theorem hv_squarePlusOne {a r : Expr F} {x : ℂ} (ha : HasVal ρ a x) (h : squarePlusOne K a = .ok r) : HasVal ρ r (x ^ 2 + 1) := by
  obtain ⟨s, hs, h⟩ := andThen_ok h
  exact hv_add hK hl (hv_sq hK hl ha hs) hv_one h

end

/-! ## The rules for functions -/

theorem square_ne_of_slit {z : ℂ} (h : 1 - I * z ∈ slitPlane ∧ 1 + I * z ∈ slitPlane) : z ^ 2 + 1 ≠ 0 := by
  have : z ^ 2 + 1 = (1 - I * z) * (1 + I * z) := by linear_combination z ^ 2 * I_sq
  rw [this]
  exact mul_ne_zero (slitPlane_ne_zero h.1) (slitPlane_ne_zero h.2)

/-- The rule for a function of one argument computes its derivative times that of the argument. -/
theorem diffFn1_ok {D : DiffCfg F} {lic : Lic F} {ρ : Env F} (hK : Sound lic ρ D.K) (hl : lic.TrueAt ρ) {f : BuiltIn} {a d r : Expr F} {z d' : ℂ}
    (ha : HasVal ρ a z) (hd : HasVal ρ d d') (hr : Regular f z) (h : diffFn1 D (.fn f [a]) f a d = .ok r) : HasVal ρ r (fnDer f z * d') := by
  have hfun : ∀ w, fnVal f [z] = some w → HasVal ρ (.fn f [a]) w := fun w hw =>
    ⟨good_fn.2 (by simpa using ha.1), by rw [eval_fn1, fn1, ha.2]; exact hw⟩
  cases f with
  | cos =>
    obtain ⟨s, hs, h⟩ := andThen_ok h
    obtain ⟨n, hn, h⟩ := andThen_ok h
    exact hv_mul hK hl (hv_neg hK hl (hv_fn hK hl ha rfl hs) hn) hd h
  | sin =>
    obtain ⟨s, hs, h⟩ := andThen_ok h
    exact hv_mul hK hl (hv_fn hK hl ha rfl hs) hd h
  | tan =>
    obtain ⟨s, hs, h⟩ := andThen_ok h
    obtain ⟨n, hn, h⟩ := andThen_ok h
    exact hv_mul hK hl (hv_pow_ne hK hl (hv_fn hK hl ha rfl hs) hv_negTwo hr hn) hd h
  | arccos =>
    obtain ⟨s, hs, h⟩ := andThen_ok h
    obtain ⟨k, hk, h⟩ := andThen_ok h
    obtain ⟨p, hp, h⟩ := andThen_ok h
    obtain ⟨n, hn, h⟩ := andThen_ok h
    exact hv_mul hK hl (hv_neg hK hl (hv_pow_ne hK hl (hv_oneMinusSquare hK hl ha hs) (hv_negHalf hK hl hk) (slitPlane_ne_zero hr) hp) hn) hd h
  | arcsin =>
    obtain ⟨s, hs, h⟩ := andThen_ok h
    obtain ⟨k, hk, h⟩ := andThen_ok h
    obtain ⟨p, hp, h⟩ := andThen_ok h
    exact hv_mul hK hl (hv_pow_ne hK hl (hv_oneMinusSquare hK hl ha hs) (hv_negHalf hK hl hk) (slitPlane_ne_zero hr) hp) hd h
  | arctan =>
    obtain ⟨s, hs, h⟩ := andThen_ok h
    have := hv_div hK hl hd (hv_squarePlusOne hK hl ha hs) (square_ne_of_slit hr) h
    rwa [mul_comm] at this
  | cosh =>
    obtain ⟨s, hs, h⟩ := andThen_ok h
    have := hv_mul hK hl hd (hv_fn hK hl ha rfl hs) h
    rwa [mul_comm] at this
  | sinh =>
    obtain ⟨s, hs, h⟩ := andThen_ok h
    have := hv_mul hK hl hd (hv_fn hK hl ha rfl hs) h
    rwa [mul_comm] at this
  | tanh =>
    obtain ⟨s, hs, h⟩ := andThen_ok h
    have hr : cosh z ≠ 0 := hr
    exact hv_mul hK hl (hv_oneMinusSquare hK hl (hfun (tanh z) (by simp [fnVal, hr])) hs) hd h
  | arccosh =>
    obtain ⟨k, hk, h⟩ := andThen_ok h
    obtain ⟨p, hp, h⟩ := andThen_ok h
    obtain ⟨p', hp', h⟩ := andThen_ok h
    obtain ⟨q, hq, h⟩ := andThen_ok h
    obtain ⟨q', hq', h⟩ := andThen_ok h
    obtain ⟨s, hs, h⟩ := andThen_ok h
    obtain ⟨i, hi, h⟩ := andThen_ok h
    have h1 := hv_pow_ne hK hl (hv_add hK hl ha hv_one hp) (hv_half hK hl hk) (slitPlane_ne_zero hr.1) hp'
    have h2 := hv_pow_ne hK hl (hv_sub hK hl ha hv_one hq) (hv_half hK hl hk) (slitPlane_ne_zero hr.2) hq'
    have h3 := hv_pow_ne hK hl (hv_mul hK hl h1 h2 hs) hv_negOne (mul_ne_zero (csqrt_ne hr.1) (csqrt_ne hr.2)) hi
    rw [cpow_neg_one] at h3
    exact hv_mul hK hl h3 hd h
  | arcsinh =>
    obtain ⟨s, hs, h⟩ := andThen_ok h
    obtain ⟨k, hk, h⟩ := andThen_ok h
    obtain ⟨p, hp, h⟩ := andThen_ok h
    exact hv_mul hK hl (hv_pow_ne hK hl (hv_squarePlusOne hK hl ha hs) (hv_negHalf hK hl hk) (slitPlane_ne_zero hr) hp) hd h
  | arctanh =>
    obtain ⟨s, hs, h⟩ := andThen_ok h
    obtain ⟨p, hp, h⟩ := andThen_ok h
    have h0 : 1 - z ^ 2 ≠ 0 := by
      have : 1 - z ^ 2 = (1 + z) * (1 - z) := by ring
      rw [this]; exact mul_ne_zero (slitPlane_ne_zero hr.1) (slitPlane_ne_zero hr.2)
    have h3 := hv_pow_ne hK hl (hv_oneMinusSquare hK hl ha hs) hv_negOne h0 hp
    rw [cpow_neg_one] at h3
    exact hv_mul hK hl h3 hd h
  | exp => exact hv_mul hK hl (hfun _ rfl) hd h
  | log =>
    obtain ⟨p, hp, h⟩ := andThen_ok h
    have h3 := hv_pow_ne hK hl ha hv_negOne (slitPlane_ne_zero hr) hp
    rw [cpow_neg_one] at h3
    exact hv_mul hK hl h3 hd h
  | _ => exact absurd hr (by simp [Regular])

/-! ## Curves -/

/-- Near `t₀` the value of `e` is a function of `t` with derivative `g'`. -/
def HasDer (ρ : ℝ → Env F) (t₀ : ℝ) (v : Env F → Option ℂ) (g : ℝ → ℂ) (g' : ℂ) : Prop :=
  (∀ᶠ t in 𝓝 t₀, v (ρ t) = some (g t)) ∧ HasDerivAt g g' t₀

variable {ρ : ℝ → Env F} {t₀ : ℝ}

theorem HasDer.at {v : Env F → Option ℂ} {g : ℝ → ℂ} {g' : ℂ} (h : HasDer ρ t₀ v g g') : v (ρ t₀) = some (g t₀) := h.1.self_of_nhds

theorem HasDer.at_eq {v : Env F → Option ℂ} {g : ℝ → ℂ} {g' z : ℂ} (h : HasDer ρ t₀ v g g') (hz : v (ρ t₀) = some z) : g t₀ = z := by
  rw [h.at] at hz; exact Option.some.inj hz

theorem HasDer.const {v : Env F → Option ℂ} {z : ℂ} (h : ∀ᶠ t in 𝓝 t₀, v (ρ t) = some z) : HasDer ρ t₀ v (fun _ => z) 0 :=
  ⟨h, hasDerivAt_const _ _⟩

theorem HasDer.ne {v : Env F → Option ℂ} {g : ℝ → ℂ} {g' : ℂ} (h : HasDer ρ t₀ v g g') (h0 : g t₀ ≠ 0) : ∀ᶠ t in 𝓝 t₀, g t ≠ 0 :=
  h.2.continuousAt.eventually_ne h0

theorem HasDer.real {v : Env F → Option ℂ} {g : ℝ → ℂ} {g' : ℂ} (h : HasDer ρ t₀ v g g') (hr : ∀ᶠ t in 𝓝 t₀, ∃ r : ℝ, v (ρ t) = some (r : ℂ)) :
    ∀ᶠ t in 𝓝 t₀, (g t).im = 0 := by
  filter_upwards [h.1, hr] with t h1 ⟨r, h2⟩
  rw [h1] at h2
  rw [Option.some.inj h2, ofReal_im]

theorem hasDerivAt_im {g : ℝ → ℂ} {g' : ℂ} (h : HasDerivAt g g' t₀) : HasDerivAt (fun t => (g t).im) g'.im t₀ :=
  imCLM.hasFDerivAt.comp_hasDerivAt t₀ h

theorem hasDerivAt_re {g : ℝ → ℂ} {g' : ℂ} (h : HasDerivAt g g' t₀) : HasDerivAt (fun t => (g t).re) g'.re t₀ :=
  reCLM.hasFDerivAt.comp_hasDerivAt t₀ h

/-- A curve of real numbers has a real derivative. -/
theorem deriv_im_zero {g : ℝ → ℂ} {g' : ℂ} (h : HasDerivAt g g' t₀) (hr : ∀ᶠ t in 𝓝 t₀, (g t).im = 0) : g'.im = 0 := by
  have h1 := hasDerivAt_im h
  have h2 : HasDerivAt (fun t => (g t).im) 0 t₀ := (hasDerivAt_const t₀ (0 : ℝ)).congr_of_eventuallyEq hr
  exact h1.unique h2

/-- The logarithm along a curve that stays off the branch cut, or that stays real. -/
theorem log_curve {g : ℝ → ℂ} {g' : ℂ} (h : HasDerivAt g g' t₀) (hg : g t₀ ∈ slitPlane ∨ (g t₀ ≠ 0 ∧ ∀ᶠ t in 𝓝 t₀, (g t).im = 0)) :
    HasDerivAt (fun t => log (g t)) ((g t₀)⁻¹ * g') t₀ := by
  have hslit : ∀ {g : ℝ → ℂ} {g' : ℂ}, HasDerivAt g g' t₀ → g t₀ ∈ slitPlane → HasDerivAt (fun t => log (g t)) ((g t₀)⁻¹ * g') t₀ := by
    intro g g' h hs
    have := (hasDerivAt_log hs).scomp t₀ h
    refine this.congr_deriv ?_
    rw [smul_eq_mul, mul_comm]
  rcases hg with hs | ⟨h0, him⟩
  · exact hslit h hs
  by_cases hs : g t₀ ∈ slitPlane
  · exact hslit h hs
  have him0 := him.self_of_nhds
  have hre : (g t₀).re < 0 := by
    rw [mem_slitPlane_iff, not_or] at hs
    have : (g t₀).re ≠ 0 := fun h1 => h0 (Complex.ext h1 him0)
    exact lt_of_le_of_ne (not_lt.1 hs.1) this
  have hneg : HasDerivAt (fun t => -g t) (-g') t₀ := h.neg
  have hs' : -g t₀ ∈ slitPlane := by rw [mem_slitPlane_iff]; left; simpa using hre
  have h1 := (hslit hneg hs').add_const (Real.pi * I : ℂ)
  have h2 : ∀ᶠ t in 𝓝 t₀, (g t).re < 0 := (hasDerivAt_re h).continuousAt.eventually_lt continuousAt_const hre
  refine (h1.congr_of_eventuallyEq ?_).congr_deriv ?_
  · filter_upwards [him, h2] with t h3 h4
    have : g t = ((-(g t).re : ℝ) : ℂ) * (-1) := by
      apply Complex.ext <;> simp [h3]
    have h5 : -g t = ((-(g t).re : ℝ) : ℂ) := by rw [this]; simp
    rw [h5]
    conv_lhs => rw [this]
    rw [log_ofReal_mul (by linarith) (by norm_num), log_neg_one, ofReal_log (by linarith)]
  · rw [inv_neg]; ring

end Wf.Sym
