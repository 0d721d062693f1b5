import Verif.Sym.ArgsLemmas
import Verif.Sym.PermuteProps

/-!
# C77: sums and products are made again from their operands

`expr.args` are the operands of a sum or product, `args_visitor.cc:19-34` (`Expr.args`), and `sym.addition` and `sym.multiplication` make a sum or product
from operands, `scalar_wrapper.cc:407-414`. A caller who takes an expression apart and puts it together again, in any order, should get the same
expression.
-/

namespace Wf.Sym
open List (Perm)

variable {F : Type} [DecidableEq F] [FloatSem F]

/-- **C77** for sums (part). A sum that is made from operands without floats is made again, with the same terms in the same order, from its `args` in any
order: the sum returns and does not overflow. The terms must be as in `C12_shape_partial`, and a sum of two terms must not contain complex infinity. -/
theorem C77_sum_partial (reg : Registry) (lic : Lic F) (n : Nat) (ts us : List (Expr F)) (r : Expr F) (h2 : 2 ≤ ts.length) (hg : ∀ t ∈ ts, Good t)
    (hr : ∀ t ∈ ts, t.Regular reg) (hf : ∀ t ∈ ts, NoFloats t) (hm : ∀ t ∈ flatAdds ts, Coeff.ofExpr t = none → PlainRest (asCoeffMul t).2)
    (h : (ctors lic n).add ts = .ok r) (hsum : r.head = .add) (hz : Expr.zoo ∉ r.args ∨ r.args.length ≠ 2) (hu : us.Perm r.args) :
    (ctors lic n).add us = .ok r := by
  cases n with
  | zero => cases h
  | succ n =>
    obtain ⟨hd, rs⟩ := r
    have hsum : hd = .add := hsum
    subst hsum
    obtain ⟨o, xs, hl, hrs, hn⟩ := Args.sum_left reg hg hf (fun t ht => registered_of reg t (hr t ht)) hm (Args.addFrom_general h2 h)
    exact Args.addFrom_again reg hl hrs hn hu hz

/-- **C77** for products (part). A product that is made from operands without floats is made again, with the same factors in the same order, from its
`args` in any order: the product returns and does not overflow. The bases of the factors must not be numbers, `i`, `E`, exponentials, products or powers,
the exponents of the same base must be numbers, and no base may be a sum if one of the operands is a number. -/
theorem C77_product_partial (reg : Registry) (lic : Lic F) (n : Nat) (ts us : List (Expr F)) (r : Expr F) (h2 : 2 ≤ ts.length) (hg : ∀ t ∈ ts, Good t)
    (hr : ∀ t ∈ ts, t.Regular reg) (hf : ∀ t ∈ ts, NoFloats t) (hm : Mergeable (flatMuls ts))
    (hb : ∀ t ∈ flatMuls ts, Coeff.ofExpr t = none → PlainFactor t)
    (hs : (∀ t ∈ flatMuls ts, (powerOf t).1.head ≠ .add) ∨ ∀ t ∈ flatMuls ts, Coeff.ofExpr t = none)
    (h : (ctors lic n).mul ts = .ok r) (hprod : r.head = .mul) (hu : us.Perm r.args) : (ctors lic n).mul us = .ok r := by
  cases n with
  | zero => cases h
  | succ n =>
    obtain ⟨hd, rs⟩ := r
    have hprod : hd = .mul := hprod
    subst hprod
    obtain ⟨o, xs, hl, hrs, hn⟩ := Args.product_left reg hg hf (fun t ht => registered_of reg t (hr t ht)) hm hb hs (Args.mulFrom_general h2 hs h)
    exact Args.mulFrom_again reg hl hrs hn hu

/-! ## Non-vacuity -/

/-- `x + 2 + 3 y z + (y + 2 y z)` is `2 + x + y + 5 y z`, and is made again from these four terms in every order. -/
example (us : List (Expr ℝ)) (hu : us.Perm [.int 2, vx, vy, .mul [.int 5, vy, vz]]) :
    (ctors codeLic 8).add us = .ok (.add [.int 2, vx, vy, .mul [.int 5, vy, vz]]) := by
  have h2 := good_int (F := ℝ) (n := 2) |>.2 (inI64_small (by decide) (by decide))
  have h3 := good_int (F := ℝ) (n := 3) |>.2 (inI64_small (by decide) (by decide))
  have m2 : Good (.mul [.int 2, vy, vz] : Expr ℝ) := good_mul.2 ⟨⟨by simp, by decide⟩, by simpa using ⟨h2, good_var _ _, good_var _ _⟩⟩
  have m3 : Good (.mul [.int 3, vy, vz] : Expr ℝ) := good_mul.2 ⟨⟨by simp, by decide⟩, by simpa using ⟨h3, good_var _ _, good_var _ _⟩⟩
  refine C77_sum_partial noReg codeLic 8 [vx, .int 2, .mul [.int 3, vy, vz], .add [vy, .mul [.int 2, vy, vz]]] us
    (.add [.int 2, vx, vy, .mul [.int 5, vy, vz]]) (by simp) ?_ ?_ ?_ ?_ (by decide +kernel) rfl (Or.inr (by decide)) hu
  · intro t ht
    simp only [List.mem_cons, List.not_mem_nil, or_false] at ht
    rcases ht with rfl | rfl | rfl | rfl
    · exact good_var _ _
    · exact h2
    · exact m3
    · exact good_add.2 (by simpa using ⟨good_var _ _, m2⟩)
  · simp [Expr.Regular, Expr.All, Expr.Alls, Head.Regular]
  · simp [NoFloats, Expr.All, Expr.Alls]
  · have e : flatAdds [vx, .int 2, .mul [.int 3, vy, vz], .add [vy, .mul [.int 2, vy, vz]]] =
        [vx, .int 2, .mul [.int 3, vy, vz], vy, .mul [.int 2, vy, vz]] := by decide +kernel
    rw [e]
    have var : ∀ n s, PlainRest (.var n s : Expr ℝ) := fun n s => ⟨rfl, by simp [Expr.var, Expr.head], fun fs h => by cases h⟩
    have prod : PlainRest (.mul [vy, vz] : Expr ℝ) := by
      refine ⟨rfl, by simp [Expr.mul, Expr.head], fun fs h => ?_⟩
      cases h
      refine ⟨by simp; decide +kernel, ?_, by decide +kernel⟩
      intro f hf
      simp only [List.mem_cons, List.not_mem_nil, or_false] at hf
      rcases hf with rfl | rfl <;> exact ⟨rfl, by decide +kernel, ⟨rfl, rfl, rfl, rfl, by simp [powerOf]⟩, fun b e h => by cases h⟩
    have e2 : asCoeffMul (.mul [.int 2, vy, vz] : Expr ℝ) = (.int 2, .mul [vy, vz]) := by decide +kernel
    have e3 : asCoeffMul (.mul [.int 3, vy, vz] : Expr ℝ) = (.int 3, .mul [vy, vz]) := by decide +kernel
    intro t ht hc
    simp only [List.mem_cons, List.not_mem_nil, or_false] at ht
    rcases ht with rfl | rfl | rfl | rfl | rfl
    · exact var _ _
    · cases hc
    · rw [e3]; exact prod
    · exact var _ _
    · rw [e2]; exact prod

/-- `x * 2 * y ** 2 * y ** (1/2) * 3 * z ** x` is `6 * x * y ** (5/2) * z ** x`, and is made again from these four factors in every order. -/
example (us : List (Expr ℝ)) (hu : us.Perm [.pow vz vx, .int 6, vx, .pow vy (.rat ⟨5, 2⟩)]) :
    (ctors codeLic 8).mul us = .ok (.mul [.pow vz vx, .int 6, vx, .pow vy (.rat ⟨5, 2⟩)]) := by
  have h2 := good_int (F := ℝ) (n := 2) |>.2 (inI64_small (by decide) (by decide))
  have h3 := good_int (F := ℝ) (n := 3) |>.2 (inI64_small (by decide) (by decide))
  have hh := good_half
  have e : flatMuls [vx, .int 2, .pow vy (.int 2), .pow vy half, .int 3, .pow vz vx] =
      [vx, .int 2, .pow vy (.int 2), .pow vy half, .int 3, .pow vz vx] := by decide +kernel
  refine C77_product_partial noReg codeLic 8 [vx, .int 2, .pow vy (.int 2), .pow vy half, .int 3, .pow vz vx] us
    (.mul [.pow vz vx, .int 6, vx, .pow vy (.rat ⟨5, 2⟩)]) (by simp) ?_ ?_ ?_ ?_ ?_ ?_ (by decide +kernel) rfl hu
  · intro t ht
    simp only [List.mem_cons, List.not_mem_nil, or_false] at ht
    rcases ht with rfl | rfl | rfl | rfl | rfl | rfl
    · exact good_var _ _
    · exact h2
    · exact good_pow.2 ⟨good_var _ _, h2⟩
    · exact good_pow.2 ⟨good_var _ _, hh⟩
    · exact h3
    · exact good_pow.2 ⟨good_var _ _, good_var _ _⟩
  · simp [Expr.Regular, Expr.All, Expr.Alls, Head.Regular, RatC.Canonical]
    exact ⟨inI64_small (by decide) (by decide), inI64_small (by decide) (by decide)⟩
  · simp [NoFloats, Expr.All, Expr.Alls]
  · have e' : (flatMuls [vx, .int 2, .pow vy (.int 2), .pow vy half, .int 3, .pow vz vx]).filterMap factorOf =
        [(vx, .int 1), (vy, .int 2), (vy, half), (vz, vx)] := by decide +kernel
    unfold Mergeable
    rw [e']
    have hx : ExactNum (.int 2 : Expr ℝ) ∧ ExactNum half := ⟨⟨h2, rfl, by simp⟩, ⟨hh, rfl, by simp⟩⟩
    simp [hx]
  · rw [e]
    intro t ht hc
    simp only [List.mem_cons, List.not_mem_nil, or_false] at ht
    rcases ht with rfl | rfl | rfl | rfl | rfl | rfl
    · exact ⟨rfl, by decide +kernel, ⟨rfl, rfl, rfl, rfl, by simp [powerOf]⟩, fun b e h => by cases h⟩
    · cases hc
    · exact ⟨rfl, by decide +kernel, ⟨rfl, rfl, rfl, rfl, by simp [powerOf]⟩, fun b e h => by cases h; decide +kernel⟩
    · exact ⟨rfl, by decide +kernel, ⟨rfl, rfl, rfl, rfl, by simp [powerOf]⟩, fun b e h => by cases h; decide +kernel⟩
    · cases hc
    · exact ⟨rfl, by decide +kernel, ⟨rfl, rfl, rfl, rfl, by simp [powerOf]⟩, fun b e h => by cases h; decide +kernel⟩
  · rw [e]
    refine Or.inl fun t ht => ?_
    simp only [List.mem_cons, List.not_mem_nil, or_false] at ht
    rcases ht with rfl | rfl | rfl | rfl | rfl | rfl <;> simp [powerOf, Expr.head, Expr.var, Expr.int]

/-! ## Sums and products that change -/

/-- **C77**, refuted for sums with complex infinity. `x + zoo + 0` is the sum of `zoo` and `x`, but the sum of its two `args` is `zoo`. -/
theorem C77_sum_refuted : ∃ r : Expr ℝ, (ctors codeLic 8).add [vx, .zoo, .int 0] = .ok r ∧ r.head = .add ∧ (ctors codeLic 8).add r.args = .ok .zoo :=
  ⟨.add [.zoo, vx], by decide +kernel, rfl, by decide +kernel⟩

/-- **C77**, refuted for products with a numeric base. `√3 * 12 ** y * 12 ** (1/2 - y)` is the product of `2`, `√3` and `√3`, but the product of these is
the number `6`. -/
theorem C77_product_refuted : ∃ r : Expr ℝ, (ctors codeLic 12).mul [.pow (.int 3) half, .pow (.int 12) vy, .pow (.int 12) (.add [half, .mul [.int (-1), vy]])] = .ok r ∧
    r.head = .mul ∧ (ctors codeLic 12).mul r.args = .ok (.int 6) :=
  ⟨.mul [.int 2, .pow (.int 3) half, .pow (.int 3) half], by decide +kernel, rfl, by decide +kernel⟩

end Wf.Sym
