import Verif.Sym.EvalSpec
import Verif.Sym.NumberSetModel

/-! # Specification: membership in a set of numbers, and assignments that respect the declared sets -/

namespace Wf.Sym

variable {F : Type} [DecidableEq F] [FloatSem F]

/-- The sets of numbers. Nothing is claimed of `complex` and `unknown`. -/
def NSet.Mem : NSet → ℂ → Prop
  | .positive, z => z.im = 0 ∧ 0 < z.re
  | .nonNegative, z => z.im = 0 ∧ 0 ≤ z.re
  | .real, z => z.im = 0
  | .complex, _ => True
  | .unknown, _ => True

/-- The assignment gives each variable a value in its declared set; function arguments and elements of arguments and of results of external
functions are real. -/
structure Env.Respects (ρ : Env F) : Prop where
  var : ∀ n s z, ρ.leaf (.var n s) = some z → s.Mem z
  uniq : ∀ i s z, ρ.leaf (.uniq i s) = some z → s.Mem z
  arg : ∀ n i t z, ρ.leaf (.argVar n i t) = some z → z.im = 0
  elem : ∀ i as z, ρ.opaq ρ.leaf (.node (.elem i) as) = some z → z.im = 0

/-- A node to which the classification rules apply correctly. The rules for the logarithm and for powers of a real base are right only in part.
The other two conditions are about how expressions are made: the operand of an Iverson bracket is a boolean, and an element of a constructed
value is replaced by the member it selects. -/
def TameNode (ρ : Env F) : Head F → List (Expr F) → Prop
  | .fn .log, [x] => numberSet x = .positive → ∀ v, eval ρ x = some v → 1 < v.re
  | .pow, [b, e] => numberSet b = .real → ∀ x y, eval ρ b = some x → eval ρ e = some y → 0 ≤ x.re ∨ ∃ n : ℤ, y = n
  | .iverson, [.node (.bconst _) _] => True
  | .iverson, [.node (.rel _) _] => True
  | .iverson, _ => False
  | .elem _, .node (.construct _) _ :: _ => False
  | _, _ => True

mutual
/-- Every node is tame. -/
def Tame (ρ : Env F) : Expr F → Prop
  | .node h as => TameNode ρ h as ∧ Tames ρ as
def Tames (ρ : Env F) : List (Expr F) → Prop
  | [] => True
  | a :: as => Tame ρ a ∧ Tames ρ as
end

end Wf.Sym
