import Verif.Sym.PermuteLemmas
import Verif.Sym.ValueProps

/-! # The order of the operands of sums and products -/

namespace Wf.Sym
open List (Perm)

variable {F : Type} [DecidableEq F] [FloatSem F]

/-- **C14** (part). Without floats, adding the operands in another order gives the same expression, whatever the power rules decide and however deep
the calls nest. Both sums must return: with the operands in one order an intermediate sum may leave the 64-bit range. -/
theorem C14_sum_partial (reg : Registry) (lic : Lic F) (n : Nat) (ts us : List (Expr F)) (r r' : Expr F) (hp : ts.Perm us) (hg : ∀ t ∈ ts, Good t)
    (hr : ∀ t ∈ ts, t.Regular reg) (hf : ∀ t ∈ ts, NoFloats t) (h : (ctors lic n).add ts = .ok r) (h' : (ctors lic n).add us = .ok r') : r = r' := by
  cases n with
  | zero => cases h
  | succ n => exact addFrom_perm reg hp hg hf (fun t ht => registered_of reg t (hr t ht)) h h'

/-- **C14** (part). Without floats, multiplying the operands in another order gives the same expression, if the base of each factor is not a number,
`i`, `E`, an exponential, a product or a power, and the exponents of factors with the same base are numbers. Both products must return. -/
theorem C14_product_partial (reg : Registry) (lic : Lic F) (n : Nat) (ts us : List (Expr F)) (r r' : Expr F) (hp : ts.Perm us) (hg : ∀ t ∈ ts, Good t)
    (hr : ∀ t ∈ ts, t.Regular reg) (hf : ∀ t ∈ ts, NoFloats t) (hm : Mergeable (flatMuls ts))
    (hb : ∀ t ∈ flatMuls ts, ∀ b e, factorOf t = some (b, e) → PlainBase b) (h : (ctors lic n).mul ts = .ok r) (h' : (ctors lic n).mul us = .ok r') :
    r = r' := by
  cases n with
  | zero => cases h
  | succ n =>
    refine mulFrom_perm reg hp hg hf (fun t ht => registered_of reg t (hr t ht)) hm (fun t ht hc => hb t ht _ (powerOf t).2 ?_) h h'
    unfold factorOf; rw [hc]

/-- **C12** (shape, part). A sum made from operands without floats has no nested sum, at most one numeric constant, and no two terms that differ
only by a numeric coefficient. The factors of each term, apart from its coefficient, must be powers of different bases that are not numbers, `i`,
`E`, exponentials, products or powers. -/
theorem C12_shape_partial (reg : Registry) (lic : Lic F) (n : Nat) (ts : List (Expr F)) (r : Expr F) (h2 : 2 ≤ ts.length) (hg : ∀ t ∈ ts, Good t)
    (hr : ∀ t ∈ ts, t.Regular reg) (hf : ∀ t ∈ ts, NoFloats t) (hm : ∀ t ∈ flatAdds ts, Coeff.ofExpr t = none → PlainRest (asCoeffMul t).2)
    (h : (ctors lic n).add ts = .ok r) : SumShape r := by
  cases n with
  | zero => cases h
  | succ n => exact addFrom_shape reg h2 hg hf (fun t ht => registered_of reg t (hr t ht)) hm h

/-! ## Non-vacuity -/

/-- A registry without types or functions of interest. -/
def noReg : Registry := ⟨fun n => ⟨n, .nil, 0⟩, fun n => ⟨n, [], .scalar .floating⟩⟩

/-- `x + 2 + 3 y z + y + 2 y z` and its reverse. -/
example :
    let ts : List (Expr ℝ) := [vx, .int 2, .mul [.int 3, vy, vz], vy, .mul [.int 2, vy, vz]]
    let r : Expr ℝ := .add [.int 2, vx, vy, .mul [.int 5, vy, vz]]
    (∀ t ∈ ts, Good t) ∧ (∀ t ∈ ts, t.Regular noReg) ∧ (∀ t ∈ ts, NoFloats t) ∧ (ctors codeLic 8).add ts = .ok r ∧
      (ctors codeLic 8).add ts.reverse = .ok r := by
  refine ⟨?_, ?_, ?_, by decide +kernel, by decide +kernel⟩
  · intro t ht
    have h2 := good_int (F := ℝ) (n := 2) |>.2 (inI64_small (by decide) (by decide))
    have h3 := good_int (F := ℝ) (n := 3) |>.2 (inI64_small (by decide) (by decide))
    simp only [List.mem_cons, List.not_mem_nil, or_false] at ht
    rcases ht with rfl | rfl | rfl | rfl | rfl
    · exact good_var _ _
    · exact h2
    · exact good_mul.2 ⟨⟨by simp, by decide⟩, by simpa using ⟨h3, good_var _ _, good_var _ _⟩⟩
    · exact good_var _ _
    · exact good_mul.2 ⟨⟨by simp, by decide⟩, by simpa using ⟨h2, good_var _ _, good_var _ _⟩⟩
  · simp [Expr.Regular, Expr.All, Expr.Alls, Head.Regular]
  · simp [NoFloats, Expr.All, Expr.Alls]

/-- `x * 2 * y ** 2 * y ** (1/2) * (y + z) * z ** x` and its reverse. -/
example :
    let ts : List (Expr ℝ) := [vx, .int 2, .pow vy (.int 2), .pow vy half, .add [vy, vz], .pow vz vx]
    let r : Expr ℝ := .mul [.pow vz vx, .add [vy, vz], .int 2, vx, .pow vy (.rat ⟨5, 2⟩)]
    (∀ t ∈ ts, Good t) ∧ (∀ t ∈ ts, t.Regular noReg) ∧ (∀ t ∈ ts, NoFloats t) ∧ Mergeable (flatMuls ts) ∧
      (∀ t ∈ flatMuls ts, ∀ b e, factorOf t = some (b, e) → PlainBase b) ∧ (ctors codeLic 8).mul ts = .ok r ∧
      (ctors codeLic 8).mul ts.reverse = .ok r := by
  have h2 := good_int (F := ℝ) (n := 2) |>.2 (inI64_small (by decide) (by decide))
  have hh := good_half
  refine ⟨?_, ?_, ?_, ?_, ?_, by decide +kernel, by decide +kernel⟩
  · intro t ht
    simp only [List.mem_cons, List.not_mem_nil, or_false] at ht
    rcases ht with rfl | rfl | rfl | rfl | rfl | rfl
    · exact good_var _ _
    · exact h2
    · exact good_pow.2 ⟨good_var _ _, h2⟩
    · exact good_pow.2 ⟨good_var _ _, hh⟩
    · exact good_add.2 (by simpa using ⟨good_var _ _, good_var _ _⟩)
    · exact good_pow.2 ⟨good_var _ _, good_var _ _⟩
  · simp [Expr.Regular, Expr.All, Expr.Alls, Head.Regular, RatC.Canonical]
    exact ⟨inI64_small (by decide) (by decide), inI64_small (by decide) (by decide)⟩
  · simp [NoFloats, Expr.All, Expr.Alls]
  · have e : (flatMuls [vx, .int 2, .pow vy (.int 2), .pow vy half, .add [vy, vz], .pow vz vx]).filterMap factorOf =
        [(vx, .int 1), (vy, .int 2), (vy, half), (.add [vy, vz], .int 1), (vz, vx)] := by decide +kernel
    unfold Mergeable
    rw [e]
    have hx : ExactNum (.int 2 : Expr ℝ) ∧ ExactNum half := ⟨⟨h2, rfl, by simp⟩, ⟨hh, rfl, by simp⟩⟩
    simp [hx]
  · have e : flatMuls [vx, .int 2, .pow vy (.int 2), .pow vy half, .add [vy, vz], .pow vz vx] =
        [vx, .int 2, .pow vy (.int 2), .pow vy half, .add [vy, vz], .pow vz vx] := by decide +kernel
    rw [e]
    intro t ht b e hbe
    have plain : ∀ b : Expr ℝ, b ∈ [vx, vy, vz, .add [vy, vz]] → PlainBase b := by
      intro b hb
      simp only [List.mem_cons, List.not_mem_nil, or_false] at hb
      rcases hb with rfl | rfl | rfl | rfl <;> exact ⟨rfl, rfl, rfl, rfl, by simp⟩
    simp only [List.mem_cons, List.not_mem_nil, or_false] at ht
    rcases ht with rfl | rfl | rfl | rfl | rfl | rfl <;> cases hbe <;> exact plain _ (by simp)

/-- `x + 2 + 3 y z + (y + 2 y z)` meets the conditions of `C12_shape_partial`. -/
example :
    let ts : List (Expr ℝ) := [vx, .int 2, .mul [.int 3, vy, vz], .add [vy, .mul [.int 2, vy, vz]]]
    (∀ t ∈ ts, Good t) ∧ (∀ t ∈ ts, t.Regular noReg) ∧ (∀ t ∈ ts, NoFloats t) ∧
      (∀ t ∈ flatAdds ts, Coeff.ofExpr t = none → PlainRest (asCoeffMul t).2) ∧
      (ctors codeLic 8).add ts = .ok (.add [.int 2, vx, vy, .mul [.int 5, vy, vz]]) := by
  have h2 := good_int (F := ℝ) (n := 2) |>.2 (inI64_small (by decide) (by decide))
  have h3 := good_int (F := ℝ) (n := 3) |>.2 (inI64_small (by decide) (by decide))
  have m2 : Good (.mul [.int 2, vy, vz] : Expr ℝ) := good_mul.2 ⟨⟨by simp, by decide⟩, by simpa using ⟨h2, good_var _ _, good_var _ _⟩⟩
  have m3 : Good (.mul [.int 3, vy, vz] : Expr ℝ) := good_mul.2 ⟨⟨by simp, by decide⟩, by simpa using ⟨h3, good_var _ _, good_var _ _⟩⟩
  refine ⟨?_, ?_, ?_, ?_, by decide +kernel⟩
  · intro t ht
    simp only [List.mem_cons, List.not_mem_nil, or_false] at ht
    rcases ht with rfl | rfl | rfl | rfl
    · exact good_var _ _
    · exact h2
    · exact m3
    · exact good_add.2 (by simpa using ⟨good_var _ _, m2⟩)
  · simp [Expr.Regular, Expr.All, Expr.Alls, Head.Regular]
  · simp [NoFloats, Expr.All, Expr.Alls]
  · have e : flatAdds [vx, .int 2, .mul [.int 3, vy, vz], .add [vy, .mul [.int 2, vy, vz]]] =
        [vx, .int 2, .mul [.int 3, vy, vz], vy, .mul [.int 2, vy, vz]] := by decide +kernel
    rw [e]
    have var : ∀ n s, PlainRest (.var n s : Expr ℝ) := fun n s => ⟨rfl, by simp [Expr.var, Expr.head], fun fs h => by cases h⟩
    have prod : PlainRest (.mul [vy, vz] : Expr ℝ) := by
      refine ⟨rfl, by simp [Expr.mul, Expr.head], fun fs h => ?_⟩
      cases h
      refine ⟨by simp; decide +kernel, ?_, by decide +kernel⟩
      intro f hf
      simp only [List.mem_cons, List.not_mem_nil, or_false] at hf
      rcases hf with rfl | rfl <;> exact ⟨rfl, by decide +kernel, ⟨rfl, rfl, rfl, rfl, by simp [powerOf]⟩, fun b e h => by cases h⟩
    have e2 : asCoeffMul (.mul [.int 2, vy, vz] : Expr ℝ) = (.int 2, .mul [vy, vz]) := by decide +kernel
    have e3 : asCoeffMul (.mul [.int 3, vy, vz] : Expr ℝ) = (.int 3, .mul [vy, vz]) := by decide +kernel
    intro t ht hc
    simp only [List.mem_cons, List.not_mem_nil, or_false] at ht
    rcases ht with rfl | rfl | rfl | rfl | rfl
    · exact var _ _
    · cases hc
    · rw [e3]; exact prod
    · exact var _ _
    · rw [e2]; exact prod

/-! ## Orders that matter -/

/-- **C14**, refuted with floats: a sum of floats that becomes zero is dropped, with its type. `1.0 - 1.0 + 1` is the integer one and `1.0 + 1 - 1.0`
is the float `1.0`. -/
theorem C14_float_sum :
    let a : Expr ℝ := .flt 1
    let b : Expr ℝ := .flt (-1)
    (ctors codeLic 8).add [a, b, .int 1] = .ok (.int 1) ∧ (ctors codeLic 8).add [a, .int 1, b] = .ok (.flt 1) := by
  have z : ∀ a : ℝ, fltIsZero a = decide (a = 0) := fun a => by
    show decide (a = ((0 : ℤ) : ℝ)) = _
    simp
  have f : ∀ a : ℝ, (Coeff.flt a).toExpr = .ok (.flt a) := fun a => rfl
  have e1 : addCoeff (.int 0) (.flt (1 : ℝ)) = .ok (.flt 1) := by
    show Except.ok (fltCoeff ((1 : ℝ) + ((0 : ℤ) : ℝ))) = _
    simp [fltCoeff, z]
  have e2 : addCoeff (.flt (1 : ℝ)) (.flt (-1)) = .ok (.int 0) := by
    show Except.ok (fltCoeff ((1 : ℝ) + -1)) = _
    simp [fltCoeff, z]
  have e3 : addCoeff (.int 0 : Coeff ℝ) (.int 1) = .ok (.int 1) := rfl
  have e4 : addCoeff (.flt (1 : ℝ)) (.int 1) = .ok (.flt 2) := by
    show Except.ok (fltCoeff ((1 : ℝ) + ((1 : ℤ) : ℝ))) = _
    norm_num [fltCoeff, z]
  have e5 : addCoeff (.flt (2 : ℝ)) (.flt (-1)) = .ok (.flt 1) := by
    show Except.ok (fltCoeff ((2 : ℝ) + -1)) = _
    norm_num [fltCoeff, z]
  intro a b
  constructor
  · show sumGeneral _ [a, b, .int 1] = _
    unfold sumGeneral
    simp only [a, b, flatAdds, flatAdd, List.append_nil, List.cons_append, List.nil_append, foldRes, addTerm, Coeff.ofExpr, e1, e2, e3]
    rfl
  · show sumGeneral _ [a, .int 1, b] = _
    unfold sumGeneral
    simp only [a, b, flatAdds, flatAdd, List.append_nil, List.cons_append, List.nil_append, foldRes, addTerm, Coeff.ofExpr, e1, e4, e5]
    rfl

/-- **C14**, refuted for powers of a product: `(y z) ** (1/2) * (y z) ** (1/2) * (y z) ** w` becomes `y z (y z) ** w`, and with the last factor in
the middle it becomes `(y z) ** (1 + w)`. -/
theorem C14_like_powers :
    let m : Expr ℝ := .mul [vy, vz]
    let p : Expr ℝ := .pow m half
    let q : Expr ℝ := .pow m (.var "w" .real)
    (ctors codeLic 8).mul [vy, vz] = .ok m ∧ (ctors codeLic 8).pow m half = .ok p ∧ (ctors codeLic 8).pow m (.var "w" .real) = .ok q ∧
      (ctors codeLic 8).mul [p, p, q] = .ok (.mul [vy, vz, q]) ∧
      (ctors codeLic 8).mul [p, q, p] = .ok (.pow m (.add [.int 1, .var "w" .real])) := by
  decide +kernel

end Wf.Sym
