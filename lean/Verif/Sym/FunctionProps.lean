import Verif.Sym.RelationLemmas
import Verif.Sym.LawfulSpec
import Verif.Sym.ValueProps

/-!
# C22, C23, C24: comparisons, functions and piecewise expressions

Values are those of `EvalSpec`. Floats are exact (`FnSem`); for C22 and C24 only the comparison of floats matters, which is exact in IEEE 754
(and `compare_int_float` is C07).
-/

namespace Wf.Sym
open Complex

variable {F : Type} [DecidableEq F] [FnSem F]

/-! ## C22 -/

/-- If a comparison of two expressions gives a constant, the constant is the truth of the comparison under every assignment that gives the
operands values. -/
theorem C22_constant_is_truth (op : RelOp) (a b : Expr F) (t : Bool) (ha : Good a) (hb : Good b) (h : relCreate op a b = .ok (.bconst t))
    (ρ : Env F) (x y : ℂ) (hx : eval ρ a = some x) (hy : eval ρ b = some y) (w : ℂ) (hw : relVal op x y = some w) : (t = true ↔ w = 1) := by
  have h1 := (relCreate_ok ρ ha hb h).2 w (by rw [relO, hx, hy]; exact hw)
  rw [eval_bconst] at h1
  cases t
  · simp only [Bool.false_eq_true, if_false, Option.some.injEq] at h1
    simp [← h1]
  · simp only [if_true, Option.some.injEq] at h1
    simp [← h1]

/-- The same spelled out for `<` and real values. -/
theorem C22_less_than (a b : Expr F) (t : Bool) (ha : Good a) (hb : Good b) (h : relCreate .lt a b = .ok (.bconst t))
    (ρ : Env F) (x y : ℝ) (hx : eval ρ a = some (x : ℂ)) (hy : eval ρ b = some (y : ℂ)) : (t = true ↔ x < y) := by
  have hw : relVal .lt x y = some (if x < y then 1 else 0) := by simp [relVal]
  rw [C22_constant_is_truth .lt a b t ha hb h ρ x y hx hy _ hw]
  split_ifs with h1 <;> simp [h1]

/-- … for `≤` … -/
theorem C22_less_equal (a b : Expr F) (t : Bool) (ha : Good a) (hb : Good b) (h : relCreate .le a b = .ok (.bconst t))
    (ρ : Env F) (x y : ℝ) (hx : eval ρ a = some (x : ℂ)) (hy : eval ρ b = some (y : ℂ)) : (t = true ↔ x ≤ y) := by
  have hw : relVal .le x y = some (if x ≤ y then 1 else 0) := by simp [relVal]
  rw [C22_constant_is_truth .le a b t ha hb h ρ x y hx hy _ hw]
  split_ifs with h1 <;> simp [h1]

/-- … and for `==`, where the values may be complex. -/
theorem C22_equal (a b : Expr F) (t : Bool) (ha : Good a) (hb : Good b) (h : relCreate .eq a b = .ok (.bconst t))
    (ρ : Env F) (x y : ℂ) (hx : eval ρ a = some x) (hy : eval ρ b = some y) : (t = true ↔ x = y) := by
  rw [C22_constant_is_truth .eq a b t ha hb h ρ x y hx hy _ rfl]
  split_ifs with h1 <;> simp [h1]

/-- A comparison that is not decided keeps its value: a relation whose operands may have been exchanged. -/
theorem C22_relation_value (op : RelOp) (a b r : Expr F) (ha : Good a) (hb : Good b) (h : relCreate op a b = .ok r)
    (ρ : Env F) (x y : ℂ) (hx : eval ρ a = some x) (hy : eval ρ b = some y) (w : ℂ) (hw : relVal op x y = some w) : eval ρ r = some w :=
  (relCreate_ok ρ ha hb h).2 w (by rw [relO, hx, hy]; exact hw)

/-- Numbers of the same kind are always decided, or the comparison of rationals overflows and raises. -/
theorem C22_numbers_decided (op : RelOp) (m n : Int) (hm : InI64 m) (hn : InI64 n) :
    ∃ t, relCreate op (.int m : Expr F) (.int n) = .ok (.bconst t) := by
  have h1 : ∀ a b : Int, InI64 a → InI64 b → ratLt (ratOfInt a) (ratOfInt b) = .ok (decide ((ratOfInt a).val < (ratOfInt b).val)) := by
    intro a b ha hb
    rw [C06_less_than _ _ (canonical_ofInt ha) (canonical_ofInt hb), if_pos]
    simpa [ratOfInt] using ⟨ha, hb⟩
  have z1 : ∀ k : Int, isZoo (.int k : Expr F) = false := fun k => by
    by_contra h; rw [Bool.not_eq_false] at h; cases isZoo_iff.1 h
  have z2 : ∀ k : Int, isUndef (.int k : Expr F) = false := fun k => by
    by_contra h; rw [Bool.not_eq_false] at h; cases isUndef_iff.1 h
  refine ⟨relOf op (decide ((ratOfInt m).val < (ratOfInt n).val)) (decide ((ratOfInt n).val < (ratOfInt m).val)), ?_⟩
  unfold relCreate
  rw [z1, z1, z2, z2]
  simp only [Bool.or_self, Bool.false_eq_true, if_false]
  unfold relSimplify numLt
  simp only [h1 m n hm hn, h1 n m hn hm]

/-- Comparing infinity or an undefined expression is refused. -/
theorem C22_rejects (op : RelOp) (a b : Expr F) (h : a = .zoo ∨ b = .zoo ∨ a = .undef ∨ b = .undef) : relCreate op a b = .error .type := by
  have : (isZoo a || isZoo b || isUndef a || isUndef b) = true := by
    simp only [Bool.or_eq_true, isZoo_iff, isUndef_iff]; tauto
  rw [relCreate, if_pos this]

/-! Non-vacuity -/
example : relCreate .lt (.rat ⟨1, 3⟩ : Expr ℝ) (.rat ⟨1, 2⟩) = .ok (.bconst true) := by decide +kernel
example : relCreate .le (.int 3 : Expr ℝ) (.const .pi) = .ok (.bconst true) ∧ relCreate .lt (.const .pi : Expr ℝ) (.const .euler) = .ok (.bconst false) := by
  decide +kernel
example : relCreate .eq (vy : Expr ℝ) vx = .ok (.rel .eq vx vy) := by decide +kernel

/-! ## C23 -/

/-- What a function returns has the value of the function, under every assignment where that exists and the power rules used on the way (when the
imaginary unit is divided out, a sign is moved or a multiple of pi is written down) are lawful. All functions of one argument. -/
theorem C23_function_value (n m : Nat) (f : BuiltIn) (x r : Expr F) (hx : Good x) (ρ : Env F) (h : LawfulRun ρ n (fun K => fns K m f x) r)
    (v z : ℂ) (hv : eval ρ x = some v) (hz : fnVal f [v] = some z) : eval ρ r = some z := by
  obtain ⟨lic, ht, hr⟩ := h.lawful
  exact (fns_ok (ctors_sound lic ρ n) m f x r hx hr).2 ht z (by rw [fn1, hv]; exact hz)

/-- `atan2` likewise: the angle of the point (x, y). -/
theorem C23_atan2_value (n : Nat) (y x r : Expr F) (hy : Good y) (hx : Good x) (ρ : Env F) (h : LawfulRun ρ n (fun K => atan2Fn K y x) r)
    (b a : ℝ) (hb : eval ρ y = some (b : ℂ)) (ha : eval ρ x = some (a : ℂ)) (h0 : ¬ (a = 0 ∧ b = 0)) : eval ρ r = some ((arg ⟨a, b⟩ : ℝ) : ℂ) := by
  obtain ⟨lic, ht, hr⟩ := h.lawful
  refine (atan2Fn_ok (ctors_sound lic ρ n) hy hx hr).2 ht _ ?_
  rw [atan2Val, hb, ha]
  simp only [Option.bind_some, fnVal, ofReal_im, ofReal_re, true_and]
  rw [if_pos]
  simpa using h0

/-- The rational multiples of pi: whatever `cos(q π)` returns has that value (no power rule is involved). -/
theorem C23_cos_of_pi_multiple (n m : Nat) (q : RatC) (hq : q.Canonical) (x r : Expr F) (hx : Good x) (hp : piCoeff x = some q) (ρ : Env F)
    (h : LawfulRun ρ n (fun K => fns K m .cos x) r) : eval ρ r = some ((Real.cos ((q.val : ℝ) * Real.pi) : ℝ) : ℂ) := by
  refine C23_function_value n m .cos x r hx ρ h _ _ (piCoeff_ok hx hp).2 ?_
  simp [fnVal]

/-- Logarithm, absolute value, sign and floor of real arguments in familiar terms. -/
theorem C23_real_functions (n m : Nat) (x r : Expr F) (hx : Good x) (ρ : Env F) (a : ℝ) (ha : eval ρ x = some (a : ℂ)) :
    (LawfulRun ρ n (fun K => fns K m .log x) r → 0 < a → eval ρ r = some ((Real.log a : ℝ) : ℂ)) ∧
    (LawfulRun ρ n (fun K => fns K m .abs x) r → eval ρ r = some ((|a| : ℝ) : ℂ)) ∧
    (LawfulRun ρ n (fun K => fns K m .signum x) r → eval ρ r = some ((if 0 < a then 1 else if a < 0 then -1 else 0 : ℂ))) ∧
    (LawfulRun ρ n (fun K => fns K m .floor x) r → eval ρ r = some ((⌊a⌋ : ℤ) : ℂ)) ∧
    (LawfulRun ρ n (fun K => fns K m .tanh x) r → eval ρ r = some ((Real.tanh a : ℝ) : ℂ)) := by
  refine ⟨fun h h0 => ?_, fun h => ?_, fun h => ?_, fun h => ?_, fun h => ?_⟩
  · refine C23_function_value n m .log x r hx ρ h _ _ ha ?_
    simp [fnVal, h0.ne', ofReal_log h0.le]
  · exact C23_function_value n m .abs x r hx ρ h _ _ ha (abs_real a)
  · exact C23_function_value n m .signum x r hx ρ h _ _ ha (signum_real a)
  · exact C23_function_value n m .floor x r hx ρ h _ _ ha (floor_real a)
  · refine C23_function_value n m .tanh x r hx ρ h _ _ ha ?_
    have : cosh (a : ℂ) ≠ 0 := by
      rw [← ofReal_cosh]; exact_mod_cast (Real.cosh_pos a).ne'
    simp [fnVal, this]

/-- The floor of a float that does not fit in 64 bits is undefined behaviour (a cast out of range). -/
theorem C23_floor_out_of_range (K : Ctors F) (m : Nat) (f : F) (x : ℝ) (hf : FloatSem.val f = some x) (hx : ¬ InI64 ⌊x⌋) :
    fns K (m + 1) .floor (.flt f) = .error .ub := by
  have h1 : FnOps.floorI64 f = .error .ub := (FnSem.floor_val f x hf).trans (if_neg hx)
  show floorFn (.flt f) = _
  unfold floorFn
  simp only [(FloatSem.finite f x hf).1, Bool.false_eq_true, if_false, h1]

/-! Non-vacuity: the cosine of `3π/2 · …`, the hyperbolic sine of an imaginary argument, cancellation of inverses. -/
example : fns (ctors codeLic 6) 3 .cos (.mul [.rat ⟨7, 2⟩, .const .pi] : Expr ℝ) = .ok (.int 0) := by decide +kernel
example : fns (ctors codeLic 8) 3 .sin (.mul [.imag, .int (-2), vx] : Expr ℝ) =
    .ok (.mul [.fn .sinh [.mul [.int 2, vx]], .imag, .int (-1)]) := by decide +kernel
example : fns (ctors codeLic 6) 3 .tanh (.fn .arctanh [vx] : Expr ℝ) = .ok vx := by decide +kernel
example : LawfulRun (F := ℝ) (valuesOf fun _ => 1) 8 (fun K => fns K 3 .sin (.mul [.imag, .int (-2), vx]))
    (.mul [.fn .sinh [.mul [.int 2, vx]], .imag, .int (-1)]) :=
  ⟨by decide +kernel, noLic, noLic_true _, by decide +kernel⟩
example : LawfulRun (F := ℝ) (valuesOf fun _ => 1) 8 (fun K => atan2Fn K (.int 5) (.int (-5))) (.mul [.rat ⟨3, 4⟩, .const .pi]) :=
  ⟨by decide +kernel, noLic, noLic_true _, by decide +kernel⟩
example : fns (ctors codeLic 6) 3 .floor (.rat ⟨-7, 2⟩ : Expr ℝ) = .ok (.int (-4)) ∧
    fns (ctors codeLic 6) 3 .abs (.rat ⟨-7, 2⟩ : Expr ℝ) = .ok (.rat ⟨7, 2⟩) := by decide +kernel

/-! ## C24 -/

/-- `where(c, a, b)` has the value of `a` if `c` holds … -/
theorem C24_where_true (c a b : Expr F) (ρ : Env F) (hc : eval ρ c = some 1) (z : ℂ) (ha : eval ρ a = some z) : eval ρ (condCreate c a b) = some z :=
  condCreate_ok ρ c a b z (by rw [hc, condO]; simpa using ha)

/-- … and of `b` if it does not. The other branch need not have a value. -/
theorem C24_where_false (c a b : Expr F) (ρ : Env F) (hc : eval ρ c = some 0) (z : ℂ) (hb : eval ρ b = some z) : eval ρ (condCreate c a b) = some z :=
  condCreate_ok ρ c a b z (by rw [hc, condO]; simpa using hb)

/-- `max` is the larger value. -/
theorem C24_max (a b r : Expr F) (ha : Good a) (hb : Good b) (h : maxFn a b = .ok r) (ρ : Env F) (x y : ℝ) (hx : eval ρ a = some (x : ℂ))
    (hy : eval ρ b = some (y : ℂ)) : eval ρ r = some ((max x y : ℝ) : ℂ) := by
  unfold maxFn at h
  cases hc : relCreate .lt a b with
  | error e => simp [hc] at h
  | ok c =>
    simp only [hc] at h
    cases h
    have hv := C22_relation_value .lt a b c ha hb hc ρ x y hx hy (if x < y then 1 else 0) (by simp [relVal])
    by_cases hlt : x < y
    · rw [if_pos hlt] at hv
      rw [max_eq_right hlt.le]
      exact C24_where_true c b a ρ hv _ hy
    · rw [if_neg hlt] at hv
      rw [max_eq_left (not_lt.1 hlt)]
      exact C24_where_false c b a ρ hv _ hx

/-- `min` is the smaller value. -/
theorem C24_min (a b r : Expr F) (ha : Good a) (hb : Good b) (h : minFn a b = .ok r) (ρ : Env F) (x y : ℝ) (hx : eval ρ a = some (x : ℂ))
    (hy : eval ρ b = some (y : ℂ)) : eval ρ r = some ((min x y : ℝ) : ℂ) := by
  unfold minFn at h
  cases hc : relCreate .lt b a with
  | error e => simp [hc] at h
  | ok c =>
    simp only [hc] at h
    cases h
    have hv := C22_relation_value .lt b a c hb ha hc ρ y x hy hx (if y < x then 1 else 0) (by simp [relVal])
    by_cases hlt : y < x
    · rw [if_pos hlt] at hv
      rw [min_eq_right hlt.le]
      exact C24_where_true c b a ρ hv _ hy
    · rw [if_neg hlt] at hv
      rw [min_eq_left (not_lt.1 hlt)]
      exact C24_where_false c b a ρ hv _ hx

/-- `iverson(c)` is one if the condition holds and zero if not. -/
theorem C24_iverson (c : Expr F) (ρ : Env F) (z : ℂ) (hc : eval ρ c = some z) : eval ρ (iversonFn c) = some z := by
  unfold iversonFn
  split
  · rw [eval_bconst] at hc; rw [eval_int, ← hc]; simp
  · rw [eval_bconst] at hc; rw [eval_int, ← hc]; simp
  · rw [eval_iverson]; exact hc

/-! Non-vacuity -/
example : maxFn (vx : Expr ℝ) vy = .ok (.cond (.rel .lt vx vy) vy vx) ∧ minFn (.int 2 : Expr ℝ) (.rat ⟨1, 2⟩) = .ok (.rat ⟨1, 2⟩) := by decide +kernel
example : condCreate (.rel .lt vx vy : Expr ℝ) vz vz = vz := by decide +kernel

end Wf.Sym
