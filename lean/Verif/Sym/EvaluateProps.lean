import Verif.Sym.EvaluateLemmas
import Verif.Sym.ExampleTools
import Verif.Sym.IntFloat
import Mathlib.Analysis.Complex.ExponentialBounds

/-!
# C64: evaluation to numbers

`Expr.eval` and `MatrixExpr.eval` of the Python interface, and the conversion of a matrix to an array.
-/

namespace Wf.Sym
open Complex Mat

variable {F : Type} [DecidableEq F] [FnSem F]

/-! ## Scalars -/

/-- **C64**. A number that is returned is the value of the expression (under every assignment where it has one). -/
theorem C64_number_value (ρ : Env F) (e : Expr F) (v : Number F) (hg : Good e) (h : evalScalar e = .ok v) (z : ℂ) (hz : eval ρ e = some z) :
    v.val = some z := numericalCast_ok ρ hg (evalScalar_cast h) z hz

/-- **C64**. Only sums and products of constants are converted: an expression with a variable, a function, a symbolic constant, infinity or an
undefined part is refused with a `TypeError`. -/
theorem C64_symbols_refused (e : Expr F) (h : ¬ Over (fun h _ => h.ofNumber = true) e) : evalScalar e = .error .type := by
  unfold evalScalar
  cases hc : numericalCast e with
  | none => rfl
  | some v => exact absurd (numericalCast_nodes hc) h

/-- **C64** (partly: rational parts are refused). Integers and floats are returned as they are; `i`, `b * i`, and `a + b * i` in any order are
returned as complex numbers, where `a` and `b` are integers or floats. -/
theorem C64_numbers_partial (a b : Expr F) (x y : F) (ha : RealConst a x) (hb : RealConst b y) (f : F) (n : Int) :
    evalScalar (.flt f : Expr F) = .ok (.dbl f) ∧ evalScalar (.int n : Expr F) = .ok (.int n) ∧
    evalScalar (.imag : Expr F) = .ok (.cplx (FloatOps.ofInt 0) (FloatOps.ofInt 1)) ∧
    evalScalar (.mul [b, .imag]) = .ok (.cplx (FloatOps.ofInt 0) y) ∧ evalScalar (.mul [.imag, b]) = .ok (.cplx (FloatOps.ofInt 0) y) ∧
    (∀ m, m = .mul [b, .imag] ∨ m = .mul [.imag, b] →
      evalScalar (.add [a, m]) = .ok (.cplx (FloatOps.add x (FloatOps.ofInt 0)) (FloatOps.add (FloatOps.ofInt 0) y)) ∧
      evalScalar (.add [m, a]) = .ok (.cplx (FloatOps.add (FloatOps.ofInt 0) x) (FloatOps.add y (FloatOps.ofInt 0)))) ∧
    evalScalar (.add [a, .imag]) = .ok (.cplx (FloatOps.add x (FloatOps.ofInt 0)) (FloatOps.add (FloatOps.ofInt 0) (FloatOps.ofInt 1))) ∧
    evalScalar (.add [.imag, a]) = .ok (.cplx (FloatOps.add (FloatOps.ofInt 0) x) (FloatOps.add (FloatOps.ofInt 1) (FloatOps.ofInt 0))) := by
  have h0 : isImag (.imag : Expr F) = true := isImag_iff.2 rfl
  have hm : ∀ m, m = .mul [b, .imag] ∨ m = .mul [.imag, b] → complexCastWith true m = some (FloatOps.ofInt 0, y) := by
    rintro m (rfl | rfl) <;> cases hb <;> simp [complexCastWith, asCoeffMul, isNumeric, h0]
  have hac : complexCastWith true a = some (x, FloatOps.ofInt 0) := by cases ha <;> simp [complexCastWith]
  have hi : complexCastWith true (.imag : Expr F) = some (FloatOps.ofInt 0, FloatOps.ofInt 1) := by simp [complexCastWith]
  refine ⟨rfl, rfl, by simp [evalScalar, numericalCast, hi], ?_, ?_, fun m h => ⟨?_, ?_⟩, ?_, ?_⟩
  · simp [evalScalar, numericalCast, hm _ (Or.inl rfl)]
  · simp [evalScalar, numericalCast, hm _ (Or.inr rfl)]
  · simp [evalScalar, numericalCast, complexCastWith, hac, hm m h]
  · simp [evalScalar, numericalCast, complexCastWith, hac, hm m h]
  · simp [evalScalar, numericalCast, complexCastWith, hac]
  · simp [evalScalar, numericalCast, complexCastWith, hac]

/-- The documentation of `Expr.eval` says that every literal and constant is converted to a float. In fact `sym.rational(1, 2).eval()` and
`sym.pi.eval()` are refused, although they are numbers: no rational constant, symbolic constant, or function of a number is converted. -/
theorem C64_documentation_refuted : (∀ r : RatC, evalScalar (.rat r : Expr F) = .error .type) ∧ (∀ c, evalScalar (.const c : Expr F) = .error .type) ∧
    (∀ f as, evalScalar (.fn f as : Expr F) = .error .type) :=
  ⟨fun _ => rfl, fun _ => rfl, fun _ _ => rfl⟩

/-! ## Evaluation -/

/-- **C64**. `evaluate` keeps the value, under every assignment where there is one and the power rules used are laws. -/
theorem C64_evaluate_value (ρ : Env F) (kf : SymConst → F) (hk : ExactConsts kf) (nK m n : Nat) (e r : Expr F) (he : Plain e) (hg : Good e)
    (h : LawfulRun ρ nK (fun K => evaluate kf K m n e) r) : Good r ∧ ∀ z, eval ρ e = some z → eval ρ r = some z := by
  obtain ⟨lic, hl, hr⟩ := h.lawful
  have := evaluate_ok (ctors_sound lic ρ nK) hk m n e r he hg hr
  exact ⟨this.1, this.2 hl⟩

/-- **C64**. Infinity and derivatives that are not carried out are refused. -/
theorem C64_evaluate_refuses (kf : SymConst → F) (K : Ctors F) (m n : Nat) (f x : Expr F) (k : Nat) :
    evaluate kf K m (n + 1) .zoo = .error .type ∧ evaluate kf K m (n + 1) (.deriv f x k) = .error .type := ⟨rfl, rfl⟩

/-! ## Arrays -/

/-- **C64**. Converting a matrix to an array keeps the shape and the values. -/
theorem C64_array_values (ρ : Env F) (M : Mat (Expr F)) (A : NdArray F) (hg : ∀ e ∈ M.data, Good e) (h : numpyFromMatrix M = .ok A) : ArrayOf ρ M A :=
  numpyFromMatrix_ok ρ hg h

/-- **C64**. An array of integers comes from integer constants only, an array of doubles from integer and float constants, with at least one
float. -/
theorem C64_array_type (M : Mat (Expr F)) (A : NdArray F) (h : numpyFromMatrix M = .ok A) :
    (∀ l, A.data = .ints l → M.data = l.map .int) ∧
    (∀ l, A.data = .doubles l → (∃ f, .flt f ∈ M.data) ∧ List.Forall₂ RealConst M.data l) ∧
    (∀ l, A.data = .complexes l → ∃ e ∈ M.data, (∀ n, e ≠ .int n) ∧ ∀ f, e ≠ .flt f) := by
  unfold numpyFromMatrix at h
  obtain ⟨ns, hns, h⟩ := andThen_ok h
  obtain ⟨d, hd, h⟩ := andThen_ok h
  cases h
  have hf := mapRes_forall (P := fun e v => numericalCast e = some v) hns (fun e he v h => evalScalar_cast h)
  unfold promote at hd
  split at hd
  · rename_i hc
    cases hd
    refine ⟨fun l h => (by cases h), fun l h => (by cases h), fun l _ => ?_⟩
    obtain ⟨v, hv, hc⟩ := List.any_eq_true.1 hc
    obtain ⟨i, hi⟩ := List.mem_iff_getElem?.1 hv
    obtain ⟨e, he, h2⟩ := forall₂_get hf.flip hi
    refine ⟨e, List.mem_of_getElem? he, ?_, ?_⟩
    · rintro n rfl; cases h2; cases hc
    · rintro f rfl; cases h2; cases hc
  rename_i hnc
  split at hd
  · rename_i hc
    obtain ⟨l, hl, hd⟩ := andThen_ok hd
    cases hd
    refine ⟨fun l h => (by cases h), fun l' h => ?_, fun l h => (by cases h)⟩
    cases h
    constructor
    · obtain ⟨v, hv, hc⟩ := List.any_eq_true.1 hc
      obtain ⟨i, hi⟩ := List.mem_iff_getElem?.1 hv
      obtain ⟨e, he, h2⟩ := forall₂_get hf.flip hi
      cases v with
      | dbl f => exact ⟨f, by rw [← cast_dbl h2]; exact List.mem_of_getElem? he⟩
      | int n => cases hc
      | cplx a b => cases hc
    · have hl' := mapRes_forall (P := fun v f => v.toDouble = .ok f) hl (fun _ _ _ h => h)
      exact cast_doubles hf hl'
  · obtain ⟨l, hl, hd⟩ := andThen_ok hd
    cases hd
    refine ⟨fun l' h => ?_, fun l h => (by cases h), fun l h => (by cases h)⟩
    cases h
    have hl' := mapRes_forall (P := fun v f => v.toInt = .ok f) hl (fun _ _ _ h => h)
    exact cast_ints hf hl'

/-- **C64**. The array that `MatrixExpr.eval` returns has the shape of the matrix and the values of its entries, under every assignment where they
have values and the power rules used are laws. -/
theorem C64_matrix_value (ρ : Env F) (kf : SymConst → F) (hk : ExactConsts kf) (nK m n : Nat) (M : Mat (Expr F)) (A : NdArray F)
    (hp : ∀ e ∈ M.data, Plain e ∧ Good e) (h : LawfulRunOn (· = ρ) nK (fun _ K => evalMatrix kf K m n M) A) : ArrayOf ρ M A := by
  obtain ⟨lic, hl, hr⟩ := h.lawful
  obtain ⟨M', hM', hA⟩ := andThen_ok hr
  obtain ⟨es, hes, h⟩ := andThen_ok hM'
  cases h
  have hf := mapRes_forall (P := fun e r => Carries lic ρ ρ e r) hes
    (fun e he r h => evaluate_ok (ctors_sound lic ρ nK) hk m n e r (hp e he).1 (hp e he).2 h)
  have hv := numpyFromMatrix_ok ρ (M := ⟨M.rows, M.cols, es⟩) (fun e he => by
    obtain ⟨i, hi⟩ := List.mem_iff_getElem?.1 he
    obtain ⟨e', _, h2⟩ := forall₂_get hf.flip hi
    exact h2.1) hA
  refine ⟨hv.rows, hv.cols, hv.length.trans hf.length_eq.symm, fun i e z hi hz => ?_⟩
  obtain ⟨r, hr1, hr2⟩ := forall₂_get hf hi
  exact hv.values i r z hr1 (hr2.2 (hl ρ rfl) z hz)

/-- A matrix with a symbolic constant is evaluated, although the constant itself is refused. -/
theorem C64_scalar_matrix_differ (kf : SymConst → F) (hk : ExactConsts kf) (K : Ctors F) (m n : Nat) (c : SymConst) :
    evalMatrix kf K m (n + 1) ⟨1, 1, [.const c]⟩ = .ok ⟨1, 1, .doubles [kf c]⟩ ∧ evalScalar (.const c : Expr F) = .error .type := by
  refine ⟨?_, rfl⟩
  obtain ⟨h1, h2⟩ := FloatSem.finite _ _ (hk c)
  have : evaluate kf K m (n + 1) (.const c) = .ok (.flt (kf c)) := by
    show Except.ok (floatExpr (kf c)) = _
    simp [floatExpr, h1, h2]
  simp [evalMatrix, evaluateMatrix, mapRes, this, andThen, numpyFromMatrix, evalScalar, numericalCast, promote, Number.toDouble]

/-! ## A number that is refused -/

/-- `floor(log(2))`, which is zero -/
abbrev floorLog : Expr ℝ := .fn .floor [.fn .log [.int 2]]

theorem floorLog_made : fns (ctors codeLic 8) 4 .log (.int 2 : Expr ℝ) = .ok (.fn .log [.int 2]) ∧
    fns (ctors codeLic 8) 4 .floor (.fn .log [.int 2] : Expr ℝ) = .ok floorLog ∧ fns (ctors codeLic 8) 4 .arccos floorLog = .ok (.fn .arccos [floorLog]) := by
  decide +kernel

theorem evaluate_floorLog (kf : SymConst → ℝ) (K : Ctors ℝ) (m n : Nat) : evaluate kf K (m + 1) (n + 3) floorLog = .ok (.int 0) := by
  have h2 : fns K (m + 1) .log (.flt 2 : Expr ℝ) = .ok (.flt (Real.log 2)) := by
    show logFn K (.flt 2) = _
    have hw : fnVal .log [⟨2, (0 : ℤ)⟩] = some ((Real.log 2 : ℝ) : ℂ) := by
      rw [fnVal, show (⟨2, ((0 : ℤ) : ℝ)⟩ : ℂ) = ((2 : ℝ) : ℂ) by apply Complex.ext <;> simp, if_neg (by simp), Complex.ofReal_log (by norm_num)]
    have e1 : (FloatOps.complexFn .log 2 (FloatOps.ofInt 0) : ℝ × ℝ) = (Real.log 2, 0) := by
      show (((fnVal .log [⟨2, (0 : ℤ)⟩]).getD 0).re, ((fnVal .log [⟨2, (0 : ℤ)⟩]).getD 0).im) = _
      rw [hw, Option.getD_some, Complex.ofReal_re, Complex.ofReal_im]
    have e2 : fltIsZero (0 : ℝ) = true := by simp [fltIsZero, FloatCmp.eq, FloatOps.ofInt]
    have i1 : isConst .euler (.flt 2 : Expr ℝ) = false := rfl
    have i2 : isInt 1 (.flt 2 : Expr ℝ) = false := rfl
    have i3 : isInt 0 (.flt 2 : Expr ℝ) = false := rfl
    simp only [logFn, i1, i2, i3, finishFn, complexCast, e1, fromComplex, e2, if_true, Bool.false_eq_true, if_false]
    rfl
  have h3 : fns K (m + 1) .floor (.flt (Real.log 2) : Expr ℝ) = .ok (.int 0) := by
    show floorFn (.flt (Real.log 2)) = _
    have h0 : ⌊Real.log 2⌋ = 0 := by
      rw [Int.floor_eq_iff]
      have := Real.log_two_gt_d9
      have := Real.log_two_lt_d9
      constructor <;> norm_num <;> linarith
    have : (FnOps.floorI64 (Real.log 2) : Res Int) = .ok 0 := by
      show (if InI64 ⌊Real.log 2⌋ then Except.ok ⌊Real.log 2⌋ else Except.error Err.ub) = _
      rw [h0, if_pos (by decide)]
    simp only [floorFn, this]
    rfl
  have s1 : evaluate kf K (m + 1) (n + 1) (.int 2) = .ok (.flt 2) := by
    show Except.ok (Expr.flt ((2 : ℤ) : ℝ)) = _
    norm_num
  have s2 : evaluate kf K (m + 1) (n + 2) (.fn .log [.int 2]) = .ok (.flt (Real.log 2)) := by
    show mapChildren K (m + 1) (evaluate kf K (m + 1) (n + 1)) (.node (.fn .log) [.int 2]) = _
    rw [mapChildren_node _ _ _ _ _ (by intro c a b h; cases h)]
    simp only [mapRes, s1, rebuild, h2]
  show mapChildren K (m + 1) (evaluate kf K (m + 1) (n + 2)) (.node (.fn .floor) [.fn .log [.int 2]]) = _
  rw [mapChildren_node _ _ _ _ _ (by intro c a b h; cases h)]
  simp only [mapRes, s2, rebuild, h3]

/-- `acos(floor(log(2)))` is the number `pi / 2`, but `MatrixExpr.eval` refuses a matrix with it: `floor` returns the integer zero, for which `acos`
returns a symbolic multiple of `pi` again. -/
theorem C64_number_refuted (kf : SymConst → ℝ) (n : Nat) (ρ : Env ℝ) :
    evalMatrix kf (ctors codeLic 8) 4 (n + 4) ⟨1, 1, [.fn .arccos [floorLog]]⟩ = .error .type ∧
    eval ρ (.fn .arccos [floorLog]) = some ((Real.pi / 2 : ℝ) : ℂ) := by
  constructor
  · have h1 := evaluate_floorLog kf (ctors codeLic 8) 3 n
    have h2 : fns (ctors codeLic 8) 4 .arccos (.int 0 : Expr ℝ) = .ok (.mul [.rat ⟨1, 2⟩, .const .pi]) := by decide +kernel
    have h3 : evaluate kf (ctors codeLic 8) 4 (n + 4) (.fn .arccos [floorLog]) = .ok (.mul [.rat ⟨1, 2⟩, .const .pi]) := by
      show mapChildren (ctors codeLic 8) 4 (evaluate kf (ctors codeLic 8) 4 (n + 3)) (.node (.fn .arccos) [floorLog]) = _
      rw [mapChildren_node _ _ _ _ _ (by intro c a b h; cases h)]
      simp only [mapRes, h1, rebuild, h2]
    simp only [evalMatrix, evaluateMatrix, mapRes, h3, andThen, numpyFromMatrix]
    rfl
  · have h0 : ⌊Real.log 2⌋ = 0 := by
      rw [Int.floor_eq_iff]
      have := Real.log_two_gt_d9
      have := Real.log_two_lt_d9
      constructor <;> norm_num <;> linarith
    have h1 : eval ρ (.fn .log [.int 2]) = some ((Real.log 2 : ℝ) : ℂ) := by
      rw [eval_fn, List.map_cons, List.map_nil, eval_int]
      show (if ((2 : ℤ) : ℂ) = 0 then none else some (Complex.log ((2 : ℤ) : ℂ))) = _
      rw [if_neg (by norm_num), Complex.ofReal_log (by norm_num)]
      norm_num
    have h2 : eval ρ floorLog = some 0 := by
      rw [eval_fn, List.map_cons, List.map_nil, h1]
      show some (⟨⌊((Real.log 2 : ℝ) : ℂ).re⌋, ⌊((Real.log 2 : ℝ) : ℂ).im⌋⟩ : ℂ) = _
      rw [Complex.ofReal_re, Complex.ofReal_im, h0]
      congr 1
      apply Complex.ext <;> simp
    rw [eval_fn, List.map_cons, List.map_nil, h2]
    show some (Real.pi / 2 - -I * Complex.log (I * 0 + csqrt (1 - 0 ^ 2))) = _
    simp [csqrt]

/-! ## Non-vacuity -/

/-- The doubles of the constants over `ZReal`. -/
noncomputable def zconst (c : SymConst) : ZReal := ZReal.mk c.val

theorem zconst_exact : ExactConsts zconst := fun c => by show some (ZReal.toReal (ZReal.mk c.val)) = _; rw [ZReal.toReal_mk]

/-- `3 + 2 * i` -/
example (ρ : Env ℝ) : evalScalar (.add [.int 3, .mul [.int 2, .imag]] : Expr ℝ) = .ok (.cplx (3 + 0) (0 + 2)) ∧
    eval ρ (.add [.int 3, .mul [.int 2, .imag]]) = some (3 + 2 * I) := by
  constructor
  · have := ((C64_numbers_partial (F := ℝ) _ _ _ _ (.int 3) (.int 2) 0 0).2.2.2.2.2.1 _ (Or.inl rfl)).1
    rw [this]
    norm_num [FloatOps.add, FloatOps.ofInt]
  · simp [eval_add, eval_mul, sumO, prodO]

/-- A variable is refused. -/
example : evalScalar (.add [.int 3, vr "x"] : Expr ℝ) = .error .type := C64_symbols_refused _ (by
  intro h
  exact absurd ((over_node.1 ((over_node.1 h).2 (vr "x") (by simp))).1) (by decide))

/-- `x ** 2 + 3 * y` becomes `x ** 2.0 + 3.0 * y`. -/
abbrev polyXY : Expr ZReal := .add [.pow (vr "x") (.int 2), .mul [.int 3, vr "y"]]

set_option maxRecDepth 100000 in
example (ρ : Env ZReal) : ∃ r, LawfulRun ρ 8 (fun K => evaluate zconst K 4 6 polyXY) r ∧ r ≠ polyXY ∧ ∀ z, eval ρ polyXY = some z → eval ρ r = some z := by
  have h1 : evaluate zconst (ctors codeLic 8) 4 6 polyXY = .ok (.add [.mul [.flt (.int 3), vr "y"], .pow (vr "x") (.flt (.int 2))]) ∨
      evaluate zconst (ctors codeLic 8) 4 6 polyXY = .ok (.add [.pow (vr "x") (.flt (.int 2)), .mul [.flt (.int 3), vr "y"]]) := by decide +kernel
  have h2 : evaluate zconst (ctors noLic 8) 4 6 polyXY = evaluate zconst (ctors codeLic 8) 4 6 polyXY := by decide +kernel
  have hp : Plain polyXY := by simp [plain_node, Head.plain, Head.interpreted, Head.isLeaf]
  have hg : Good polyXY := by
    refine good_add.2 fun t ht => ?_
    simp only [List.mem_cons, List.not_mem_nil, or_false] at ht
    rcases ht with rfl | rfl
    · exact good_pow.2 ⟨good_varNode rfl rfl, good_int.2 (by decide)⟩
    · exact good_mul.2 ⟨by decide, by simp [good_int, InI64, minI, maxI, good_varNode (F := ZReal) (t := vr "y") rfl rfl]⟩
  rcases h1 with h1 | h1
  all_goals
    have hl : LawfulRun ρ 8 (fun K => evaluate zconst K 4 6 polyXY) _ := ⟨h1, noLic, noLic_true ρ, h2.trans h1⟩
    exact ⟨_, hl, by decide, (C64_evaluate_value ρ zconst zconst_exact 8 4 6 polyXY _ hp hg hl).2⟩

/-- A matrix with an integer and an imaginary number becomes an array of complex numbers. -/
abbrev rowOf : Mat (Expr ZReal) := ⟨1, 2, [.int 3, .mul [.int 2, .imag]]⟩

set_option maxRecDepth 100000 in
example (ρ : Env ZReal) : ∃ A, LawfulRunOn (· = ρ) 8 (fun _ K => evalMatrix zconst K 4 6 rowOf) A ∧ ArrayOf ρ rowOf A := by
  obtain ⟨A, h1⟩ : ∃ A, evalMatrix zconst (ctors codeLic 8) 4 6 rowOf = .ok A := by
    have h : (evalMatrix zconst (ctors codeLic 8) 4 6 rowOf).isOk = true := by decide +kernel
    cases hA : evalMatrix zconst (ctors codeLic 8) 4 6 rowOf with
    | error e => rw [hA] at h; cases h
    | ok A => exact ⟨A, rfl⟩
  have h2 : evaluate zconst (ctors noLic 8) 4 6 (.int 3) = evaluate zconst (ctors codeLic 8) 4 6 (.int 3) := by decide +kernel
  have h3 : evaluate zconst (ctors noLic 8) 4 6 (.mul [.int 2, .imag]) = evaluate zconst (ctors codeLic 8) 4 6 (.mul [.int 2, .imag]) := by decide +kernel
  have h4 : evalMatrix zconst (ctors noLic 8) 4 6 rowOf = evalMatrix zconst (ctors codeLic 8) 4 6 rowOf := by
    simp only [evalMatrix, evaluateMatrix, mapRes, h2, h3]
  have hl : LawfulRunOn (· = ρ) 8 (fun _ K => evalMatrix zconst K 4 6 rowOf) A :=
    ⟨h1, noLic, fun ρ' _ => noLic_true ρ', h4.trans h1⟩
  refine ⟨A, hl, C64_matrix_value ρ zconst zconst_exact 8 4 6 rowOf A (fun e he => ?_) hl⟩
  simp only [rowOf, List.mem_cons, List.not_mem_nil, or_false] at he
  rcases he with rfl | rfl
  · exact ⟨by simp [plain_node, Head.plain, Head.interpreted, Head.isLeaf], good_int.2 (by decide)⟩
  · exact ⟨by simp [plain_node, Head.plain, Head.interpreted, Head.isLeaf], good_mul.2 ⟨by decide, by simp [good_int, good_imag, InI64, minI, maxI]⟩⟩

end Wf.Sym
