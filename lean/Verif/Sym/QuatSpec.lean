import Verif.Sym.QuatModel
import Verif.Sym.LawfulSpec
import Verif.Sym.FunctionSpec
import Verif.Geo.QuaternionModel

/-!
# Specification: the values of quaternions of expressions

`Geo.Quat` and the functions on it are the formulas over numbers (C29–C32).
-/

namespace Wf.Sym

open Geo

variable {F : Type} [DecidableEq F] [FnSem F]

/-- The elements are well formed and have the values `v` under the assignment `ρ`. -/
structure QuatE.Has (ρ : Env F) (q : QuatE F) (v : Quat ℂ) : Prop where
  good : Good q.w ∧ Good q.x ∧ Good q.y ∧ Good q.z
  w : eval ρ q.w = some v.w
  x : eval ρ q.x = some v.x
  y : eval ρ q.y = some v.y
  z : eval ρ q.z = some v.z

/-- A quaternion of real numbers as one of complex numbers. -/
def _root_.Wf.Geo.Quat.toC (v : Quat ℝ) : Quat ℂ := ⟨v.w, v.x, v.y, v.z⟩

/-- The expression is well formed and has the value `z`. -/
def Has (ρ : Env F) (e : Expr F) (z : ℂ) : Prop := Good e ∧ eval ρ e = some z

/-- The elements of a vector of three expressions have the values of a vector. -/
def Has3 (ρ : Env F) (es : List (Expr F)) (v : ℝ × ℝ × ℝ) : Prop :=
  ∃ a b c, es = [a, b, c] ∧ Has ρ a v.1 ∧ Has ρ b v.2.1 ∧ Has ρ c v.2.2

end Wf.Sym
