import Verif.Sym.EvalSpec
import Verif.Sym.DerivativeModel
import Verif.Sym.CseModel
import Mathlib.Analysis.Calculus.Deriv.Basic

/-!
# Specification: where an expression is differentiable by the rules of calculus
-/

namespace Wf.Sym
open Complex Filter Topology

/-- The points at which a function of one argument is differentiable: no pole and no branch cut. -/
def Regular : BuiltIn → ℂ → Prop
  | .cos, _ | .sin, _ | .cosh, _ | .sinh, _ | .exp, _ => True
  | .tan, z => cos z ≠ 0
  | .tanh, z => cosh z ≠ 0
  | .arccos, z | .arcsin, z => 1 - z ^ 2 ∈ slitPlane
  | .arctan, z => 1 - I * z ∈ slitPlane ∧ 1 + I * z ∈ slitPlane
  | .arccosh, z => z + 1 ∈ slitPlane ∧ z - 1 ∈ slitPlane
  | .arcsinh, z => z ^ 2 + 1 ∈ slitPlane
  | .arctanh, z => 1 + z ∈ slitPlane ∧ 1 - z ∈ slitPlane
  | .log, z => z ∈ slitPlane
  | _, _ => False

variable {F : Type} [DecidableEq F] [FloatSem F]

/-- The assignment `ρ` with the value of the variable `v` replaced by `t`. -/
noncomputable def Env.setVar (ρ : Env F) (v : Expr F) (t : ℂ) : Env F :=
  { ρ with leaf := fun h => if identical (.node h []) v then some t else ρ.leaf h }

/-- The assignment `ρ` as the variable `v` moves along the real line. -/
noncomputable def along (ρ : Env F) (v : Expr F) (t : ℝ) : Env F := ρ.setVar v (t : ℂ)

/-- Near `t₀` the expression is real. -/
def RealNear (ρ : ℝ → Env F) (t₀ : ℝ) (e : Expr F) : Prop := ∀ᶠ t in 𝓝 t₀, ∃ r : ℝ, eval (ρ t) e = some (r : ℂ)

/-- Near `t₀` the expression has a continuous logarithm: its value does not lie on the branch cut, or it is not zero and it stays real. -/
def LogNear (ρ : ℝ → Env F) (t₀ : ℝ) (e : Expr F) : Prop :=
  ∃ z, eval (ρ t₀) e = some z ∧ (z ∈ slitPlane ∨ (z ≠ 0 ∧ RealNear ρ t₀ e))

/-- The expression is built so that calculus gives a derivative at `t₀`. Absolute values, signs, floors and indicators are taken away from their
kinks and jumps, and the conditions of conditionals do not change near `t₀`; a positive integer power may have a base that is zero at `t₀` if the
base is not zero for every assignment in `S`. `A` says which other nodes are differentiable where certain expressions are smooth. -/
inductive Smooth (A : Expr F → List (Expr F) → Prop) (beh : NonDiff) (S : Env F → Prop) (ρ : ℝ → Env F) (t₀ : ℝ) : Expr F → Prop
  | leaf {h : Head F} {z : ℂ} (hl : h.isLeaf = true) (hs : h.isScalar = true) (hz : eval (ρ t₀) (.node h []) = some z) : Smooth A beh S ρ t₀ (.node h [])
  | add {ts : List (Expr F)} (ht : ∀ t ∈ ts, Smooth A beh S ρ t₀ t) : Smooth A beh S ρ t₀ (.add ts)
  | mul {ts : List (Expr F)} (ht : ∀ t ∈ ts, Smooth A beh S ρ t₀ t) : Smooth A beh S ρ t₀ (.mul ts)
  | pow {b e : Expr F} (hb : Smooth A beh S ρ t₀ b) (he : Smooth A beh S ρ t₀ e) (hlog : LogNear ρ t₀ b) : Smooth A beh S ρ t₀ (.pow b e)
  | powInt {b : Expr F} {n : Int} {z : ℂ} (hb : Smooth A beh S ρ t₀ b) (hz : eval (ρ t₀) b = some z) (h0 : z ≠ 0) : Smooth A beh S ρ t₀ (.pow b (.int n))
  | powZero {b : Expr F} {n : Int} {ρ₁ : Env F} {z : ℂ} (hb : Smooth A beh S ρ t₀ b) (hn : 2 ≤ n) (hS : S ρ₁) (hz : eval ρ₁ b = some z) (h0 : z ≠ 0) :
      Smooth A beh S ρ t₀ (.pow b (.int n))
  | fn {f : BuiltIn} {x : Expr F} {z : ℂ} (hx : Smooth A beh S ρ t₀ x) (hz : eval (ρ t₀) x = some z) (hr : Regular f z) : Smooth A beh S ρ t₀ (.fn f [x])
  | log {x : Expr F} (hx : Smooth A beh S ρ t₀ x) (hlog : LogNear ρ t₀ x) : Smooth A beh S ρ t₀ (.fn .log [x])
  | abs {x : Expr F} {z : ℂ} (hx : Smooth A beh S ρ t₀ x) (hr : RealNear ρ t₀ x) (hz : eval (ρ t₀) x = some z) (h0 : z ≠ 0) :
      Smooth A beh S ρ t₀ (.fn .abs [x])
  | signum {x : Expr F} {z : ℂ} (hbeh : beh = .constant) (hx : Smooth A beh S ρ t₀ x) (hr : RealNear ρ t₀ x) (hz : eval (ρ t₀) x = some z) (h0 : z ≠ 0) :
      Smooth A beh S ρ t₀ (.fn .signum [x])
  | floor {x : Expr F} {r : ℝ} (hbeh : beh = .constant) (hx : Smooth A beh S ρ t₀ x) (hr : RealNear ρ t₀ x) (hz : eval (ρ t₀) x = some (r : ℂ))
      (h0 : ∀ n : ℤ, r ≠ n) : Smooth A beh S ρ t₀ (.fn .floor [x])
  | arctan2 {y x : Expr F} {a b : ℝ} (hy : Smooth A beh S ρ t₀ y) (hx : Smooth A beh S ρ t₀ x) (hry : RealNear ρ t₀ y) (hrx : RealNear ρ t₀ x)
      (ha : eval (ρ t₀) y = some (a : ℂ)) (hb : eval (ρ t₀) x = some (b : ℂ)) (h0 : 0 < b ∨ a ≠ 0) : Smooth A beh S ρ t₀ (.fn .arctan2 [y, x])
  | iverson {c : Expr F} {z : ℂ} (hbeh : beh = .constant) (hc : ∀ᶠ t in 𝓝 t₀, eval (ρ t) c = some z) : Smooth A beh S ρ t₀ (.iverson c)
  | condTrue {c a b : Expr F} (hc : ∀ᶠ t in 𝓝 t₀, eval (ρ t) c = some 1) (ha : Smooth A beh S ρ t₀ a) : Smooth A beh S ρ t₀ (.cond c a b)
  | condFalse {c a b : Expr F} (hc : ∀ᶠ t in 𝓝 t₀, eval (ρ t) c = some 0) (hb : Smooth A beh S ρ t₀ b) : Smooth A beh S ρ t₀ (.cond c a b)
  | uneval {x : Expr F} (hx : Smooth A beh S ρ t₀ x) : Smooth A beh S ρ t₀ (.uneval x)
  | other {e : Expr F} {cs : List (Expr F)} (hA : A e cs) (hc : ∀ c ∈ cs, Smooth A beh S ρ t₀ c) : Smooth A beh S ρ t₀ e

/-- No other nodes. -/
def NoOther : Expr F → List (Expr F) → Prop := fun _ _ => False

end Wf.Sym
