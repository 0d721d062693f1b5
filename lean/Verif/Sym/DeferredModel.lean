import Verif.Sym.RebuildModel

/-! # C84: `sym.derivative`, the deferred derivative -/

namespace Wf.Sym.Deferred

variable {F : Type} [FloatCmp F] [DecidableEq F]

/-- The largest and the smallest `int`. -/
def maxInt : Int := 2147483647
@[inherit_doc maxInt] def minInt : Int := -2147483648

/-- The types of arguments that `derivative::create` accepts, `core/wf/expressions/derivative_expression.cc:16-17`. -/
def accepts (x : Expr F) : Bool :=
  match x.head with
  | .symfn _ => true
  | h => h.isVar

/-- `sym.derivative(f, x, n)`: `derivative::create`, `derivative_expression.cc:11-33`, as bound in `wrapper/pywrenfold/scalar_wrapper.cc:435-436`. The
order is an `int`: a Python integer that does not fit is refused by the binding, and the addition of two orders that does not fit is undefined
behaviour. -/
def deferred (f x : Expr F) (n : Int) : Res (Expr F) :=
  if n < minInt ∨ maxInt < n then .error .type
  else if n ≤ 0 then .error .invalidArgument
  else if accepts x = false then .error .type
  else
    match f with
    | .deriv g y k =>
      if identical y x then
        if (k : Int) + n > maxInt then .error .ub else .ok (.deriv g x (k + n.toNat))
      else .ok (.deriv f x n.toNat)
    | f => .ok (.deriv f x n.toNat)

end Wf.Sym.Deferred
