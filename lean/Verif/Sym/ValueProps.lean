import Verif.Sym.ProductLemmas
import Verif.Sym.LawfulSpec
import Verif.Sym.RealFloat

/-! # Properties C12, C13, C52: canonicalised sums, products and powers keep their value -/

namespace Wf.Sym
open Complex

variable {F : Type} [DecidableEq F] [FloatSem F]

/-- **C12** (value). A sum of any operands has the sum of their values, under every assignment where all the operands have a value and the
power rules used are laws. The result is again well formed. -/
theorem C12_sum_value (ρ : Env F) (n : Nat) (ts : List (Expr F)) (r : Expr F) (hg : ∀ t ∈ ts, Good t)
    (h : LawfulRun ρ n (fun K => K.add ts) r) :
    Good r ∧ ∀ z, sumO (ts.map (eval ρ)) = some z → eval ρ r = some z := by
  obtain ⟨lic, hl, hr⟩ := h.lawful
  obtain ⟨hgr, hv⟩ := (ctors_sound lic ρ n).add ts r hg hr
  exact ⟨hgr, hv hl⟩

/-- **C13**. A product of any operands has the product of their values, under every assignment where all the operands have a value and the
power rules used are laws. The result is again well formed. -/
theorem C13_product_value (ρ : Env F) (n : Nat) (ts : List (Expr F)) (r : Expr F) (hg : ∀ t ∈ ts, Good t)
    (h : LawfulRun ρ n (fun K => K.mul ts) r) :
    Good r ∧ ∀ z, prodO (ts.map (eval ρ)) = some z → eval ρ r = some z := by
  obtain ⟨lic, hl, hr⟩ := h.lawful
  obtain ⟨hgr, hv⟩ := (ctors_sound lic ρ n).mul ts r hg hr
  exact ⟨hgr, hv hl⟩

/-- **C52**. A power of two operands has the (principal) power of their values, under every assignment where it has a value and the
power rules used are laws. The result is again well formed. -/
theorem C52_power_value (ρ : Env F) (n : Nat) (b e r : Expr F) (hb : Good b) (he : Good e) (h : LawfulRun ρ n (fun K => K.pow b e) r) :
    Good r ∧ ∀ z, powO (eval ρ b) (eval ρ e) = some z → eval ρ r = some z := by
  obtain ⟨lic, hl, hr⟩ := h.lawful
  obtain ⟨hgr, hv⟩ := (ctors_sound lic ρ n).pow b e r hb he hr
  exact ⟨hgr, hv hl⟩

/-! ## Non-vacuity, and rules that are not laws -/

/-- An assignment of values to the variables. -/
noncomputable def valuesOf (f : String → ℂ) : Env ℝ where
  leaf h := match h with | .var n _ => some (f n) | _ => none
  symfn _ _ := none
  opaq _ _ := none

/-- A positive variable. -/
abbrev vx : Expr ℝ := .var "x" .positive
/-- A real variable. -/
abbrev vy : Expr ℝ := .var "y" .real
/-- A real variable. -/
abbrev vz : Expr ℝ := .var "z" .real
/-- A complex variable. -/
abbrev vc : Expr ℝ := .var "c" .complex
/-- One half. -/
abbrev half : Expr ℝ := .rat ⟨1, 2⟩

theorem good_var {F : Type} (n : String) (s : NSet) : Good (.var n s : Expr F) := by simp [Good, GoodNode, Goods]

theorem good_half : Good half := by
  refine ⟨⟨?_, by decide⟩, trivial⟩
  refine ⟨?_, ?_, ?_, ?_⟩ <;> decide

theorem eval_var (f : String → ℂ) (n : String) (s : NSet) : eval (valuesOf f) (.var n s : Expr ℝ) = some (f n) := by
  simp [eval, evals, headVal, valuesOf]

theorem eval_half (ρ : Env ℝ) : eval ρ half = some (1 / 2) := by
  rw [eval_rat]; simp [RatC.val]

/-- `x + y + 3 x + 1/2 + 1/2` -/
example : LawfulRun (valuesOf (fun _ => 2)) 4 (fun K => K.add [vx, vy, .mul [.int 3, vx], half, half]) (.add [.int 1, vy, .mul [.int 4, vx]]) :=
  ⟨by decide +kernel, noLic, noLic_true _, by decide +kernel⟩

/-- `x * y * x ** (1/2) * 2 * z` -/
example : LawfulRun (valuesOf (fun _ => 2)) 6 (fun K => K.mul [vx, vy, .pow vx half, .int 2, vz]) (.mul [.int 2, vy, vz, .pow vx (.rat ⟨3, 2⟩)]) :=
  ⟨by decide +kernel, noLic, noLic_true _, by decide +kernel⟩

/-- `8 ** (2/3)` and `(x ** y) ** 3` -/
example : LawfulRun (valuesOf (fun _ => 2)) 4 (fun K => K.pow (.int 8) (.rat ⟨2, 3⟩)) (.int 4 : Expr ℝ) ∧
    LawfulRun (valuesOf (fun _ => 2)) 6 (fun K => K.pow (.pow vx vy) (.int 3)) (.pow vx (.mul [.int 3, vy])) :=
  ⟨⟨by decide +kernel, noLic, noLic_true _, by decide +kernel⟩, by decide +kernel, noLic, noLic_true _, by decide +kernel⟩

theorem eval_log (ρ : Env F) (x : Expr F) : eval ρ (.fn .log [x]) = (eval ρ x).bind fun z => if z = 0 then none else some (log z) := by
  simp only [eval, evals, headVal, seqO]
  cases eval ρ x <;> rfl

theorem powVal_of_ne' {z w v : ℂ} (hz : z ≠ 0) (h : z ^ w = v) : powVal z w = some v := by rw [powVal_of_ne hz, h]

theorem neg_one_half : (-1 : ℂ) ^ (1 / 2 : ℂ) = I := by
  rw [Complex.cpow_def_of_ne_zero (by norm_num), Complex.log_neg_one, show (Real.pi * I * (1 / 2) : ℂ) = Real.pi / 2 * I by ring,
    Complex.exp_pi_div_two_mul_I]

theorem log_exp_neg_one : log (Complex.exp (-1)) = -1 := by
  rw [Complex.log_exp] <;> simp [Real.pi_pos, Real.pi_pos.le]

/-- `log(x)` is taken to be positive for every positive `x`, so `(log(x) ** 2) ** (1/2)` becomes `log(x)`. At `x = 1/e` the former is one and
the latter minus one. -/
theorem C52_log_square : (ctors codeLic 8).pow (.pow (.fn .log [vx]) (.int 2)) half = .ok (.fn .log [vx]) ∧
    eval (valuesOf fun _ => Complex.exp (-1)) (.pow (.pow (.fn .log [vx]) (.int 2)) half) = some 1 ∧
    eval (valuesOf fun _ => Complex.exp (-1)) (.fn .log [vx]) = some (-1) := by
  have hl : eval (valuesOf fun _ => Complex.exp (-1)) (.fn .log [vx]) = some (-1) := by
    rw [eval_log, eval_var]
    simp [Complex.exp_ne_zero, log_exp_neg_one]
  refine ⟨by decide +kernel, ?_, hl⟩
  rw [eval_pow, eval_pow, hl, eval_int, eval_half, powO_some, powVal_of_ne' (v := 1) (by norm_num) (by norm_num), powO_some,
    powVal_of_ne' (v := 1) (by norm_num) (by norm_num)]

/-- `(2 ** c) ** (1/2)` becomes `2 ** (c/2)` for complex `c`. At `c = 2 π i / log 2` the former is one and the latter minus one. -/
theorem C52_complex_exponent : (ctors codeLic 8).pow (.pow (.int 2) vc) half = .ok (.pow (.int 2) (.mul [half, vc])) ∧
    eval (valuesOf fun _ => 2 * Real.pi * I / log 2) (.pow (.pow (.int 2) vc) half) = some 1 ∧
    eval (valuesOf fun _ => 2 * Real.pi * I / log 2) (.pow (.int 2) (.mul [half, vc])) = some (-1) := by
  have hl : log (2 : ℂ) ≠ 0 := by
    rw [show (2 : ℂ) = ((2 : ℝ) : ℂ) by norm_num, ← Complex.ofReal_log (by norm_num)]
    exact_mod_cast (Real.log_pos (by norm_num)).ne'
  refine ⟨by decide +kernel, ?_, ?_⟩
  · rw [eval_pow, eval_pow, eval_var, eval_int, eval_half, powO_some, powVal_of_ne' (v := 1) (by norm_num), powO_some,
      powVal_of_ne' (v := 1) (by norm_num) (by norm_num)]
    rw [Complex.cpow_def_of_ne_zero (by norm_num), show log ((2 : ℤ) : ℂ) * (2 * Real.pi * I / log 2) = 2 * Real.pi * I by
      push_cast; field_simp, Complex.exp_two_pi_mul_I]
  · rw [eval_pow, eval_mul, eval_int]
    simp only [List.map_cons, List.map_nil, prodO_cons, prodO_nil, mulO_one]
    rw [eval_var, eval_half, mulO_some, powO_some, powVal_of_ne' (v := -1) (by norm_num)]
    rw [Complex.cpow_def_of_ne_zero (by norm_num), show log ((2 : ℤ) : ℂ) * (1 / 2 * (2 * Real.pi * I / log 2)) = Real.pi * I by
      push_cast; field_simp, Complex.exp_pi_mul_I]

/-- A power of two float constants is always replaced by a float constant, even where its value is not real: `(-1.0) ** 0.5` is `i`. -/
theorem C52_float_power (ρ : Env F) (b e : F) (hb : FloatSem.val b = some (-1)) (he : FloatSem.val e = some (1 / 2)) :
    ∃ r, (ctors codeLic 1).pow (.flt b) (.flt e) = .ok (.flt r) ∧ powO (eval ρ (.flt b)) (eval ρ (.flt e)) = some I ∧
      eval ρ (.flt r) ≠ some I := by
  refine ⟨FloatOps.pow b e, ?_, ?_, ?_⟩
  · have hz : fltIsZero b = false := by
      by_contra h
      rw [Bool.not_eq_false] at h
      have := fltIsZero_val h (show FloatSem.val b = some (-1) from hb)
      norm_num at this
    show powCreate _ codeLic _ _ = _
    unfold powCreate powSimplify powNumeric
    simp only [Coeff.ofExpr, powFloat, hz, Bool.false_and, Bool.false_eq_true, if_false, codeLic, if_true]
  · rw [eval_flt, eval_flt, hb, he]
    show powO (some ((-1 : ℝ) : ℂ)) (some ((1 / 2 : ℝ) : ℂ)) = some I
    rw [powO_some, powVal_of_ne' (by norm_num)]
    rw [← neg_one_half]; norm_num
  · rw [eval_flt]
    intro h
    cases hv : FloatSem.val (FloatOps.pow b e) with
    | none => rw [hv] at h; cases h
    | some x =>
      rw [hv] at h
      have h : ((x : ℝ) : ℂ) = I := Option.some.inj h
      have := congrArg Complex.im h
      simp at this

/-- The product of `(y log(x)) ** z` and `(y log(x)) ** (1/2 - z)` becomes `log(x) ** (1/2) * y ** (1/2)`. At `x = 1/e`, `y = -1`, `z = 0` the
product is one and the result minus one. -/
theorem C13_log_product :
    let a : Expr ℝ := .mul [vy, .fn .log [vx]]
    let p : Expr ℝ := .pow a vz
    let q : Expr ℝ := .pow a (.add [half, .mul [.int (-1), vz]])
    let r : Expr ℝ := .mul [.pow (.fn .log [vx]) half, .pow vy half]
    let ρ := valuesOf fun n => if n = "x" then Complex.exp (-1) else if n = "y" then -1 else 0
    (ctors codeLic 8).mul [vy, .fn .log [vx]] = .ok a ∧ (ctors codeLic 8).pow a vz = .ok p ∧
      (ctors codeLic 8).pow a (.add [half, .mul [.int (-1), vz]]) = .ok q ∧ (ctors codeLic 8).mul [p, q] = .ok r ∧
      prodO ([p, q].map (eval ρ)) = some 1 ∧ eval ρ r = some (-1) := by
  intro a p q r ρ
  have hx : eval ρ (.fn .log [vx]) = some (-1) := by
    show eval ρ (.fn .log [.var "x" .positive]) = _
    rw [eval_log, eval_var]
    simp [Complex.exp_ne_zero, log_exp_neg_one]
  have hy : eval ρ vy = some (-1) := by rw [eval_var]; rfl
  have hz : eval ρ vz = some 0 := by rw [eval_var]; rfl
  have ha : eval ρ a = some 1 := by
    rw [eval_mul]
    simp only [List.map_cons, List.map_nil, prodO_cons, prodO_nil, mulO_one]
    rw [hx, hy, mulO_some]; norm_num
  refine ⟨by decide +kernel, by decide +kernel, by decide +kernel, by decide +kernel, ?_, ?_⟩
  · simp only [List.map_cons, List.map_nil, prodO_cons, prodO_nil, mulO_one]
    rw [show eval ρ p = some 1 by rw [eval_pow, ha, hz, powO_some, powVal_of_ne' (v := 1) (by norm_num) (Complex.one_cpow _)],
      show eval ρ q = some 1 by
        rw [eval_pow, ha, eval_add]
        simp only [List.map_cons, List.map_nil, sumO_cons, sumO_nil, addO_zero, eval_mul, prodO_cons, prodO_nil, mulO_one]
        rw [hz, eval_half, eval_int, mulO_some, addO_some, powO_some, powVal_of_ne' (v := 1) (by norm_num) (Complex.one_cpow _)], mulO_some]
    norm_num
  · rw [eval_mul]
    simp only [List.map_cons, List.map_nil, prodO_cons, prodO_nil, mulO_one]
    rw [eval_pow, eval_pow, hx, hy, eval_half, powO_some, powVal_of_ne' (by norm_num) neg_one_half, mulO_some, I_mul_I]

end Wf.Sym
