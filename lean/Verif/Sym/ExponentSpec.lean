import Verif.Sym.ClosureLemmas

/-!
# Specification: expressions whose powers need no sign question

An integer power can always be multiplied out and distributed. A power with another exponent is safe as long as its base is not itself a power, a
product, an exponential or a float.
-/

namespace Wf.Sym

variable {F : Type}

/-- The exponent is an integer constant (of the range of the code's integers). -/
def IntExp (e : Expr F) : Prop := ∃ n : Int, e = .int n ∧ InI64 n

/-- An integer or rational constant. -/
def isRatConst : Expr F → Bool
  | .int _ => true
  | .rat _ => true
  | _ => false

/-- The expression is not a product, a power, an exponential or a float. -/
def simpleBase : Expr F → Bool
  | .node .mul _ => false
  | .node .pow _ => false
  | .node (.fn .exp) _ => false
  | .node (.flt _) _ => false
  | _ => true

/-- The expression is a sum, a variable, or a constant other than a float. -/
def plainBase : Expr F → Bool
  | .node .add _ => true
  | .node (.flt _) _ => false
  | .node h _ => h.isLeaf

/-- The exponent is an integer; or the base is one for which `B` allows other exponents. The exponent of an integer or rational base is an integer
or rational number in any case. -/
def PowArgs (B : Expr F → Prop) (b e : Expr F) : Prop := IntExp e ∨ (B b ∧ (isRatConst b = true → isRatConst e = true))

/-- The condition on one node. -/
def ExpNode (B : Expr F → Prop) (h : Head F) (as : List (Expr F)) : Prop := h = .pow → ∃ b e, as = [b, e] ∧ PowArgs B b e

/-- Every exponent is an integer constant. -/
abbrev IntPowers (e : Expr F) : Prop := Over (ExpNode fun _ => False) e

/-- Every power has an integer exponent, or its base is no product, power, exponential or float. -/
abbrev SafePowers (e : Expr F) : Prop := Over (ExpNode fun b => simpleBase b = true) e

/-- Every power has an integer exponent, or its base is a sum, a variable or a constant. -/
abbrev PlainPowers (e : Expr F) : Prop := Over (ExpNode fun b => plainBase b = true) e

end Wf.Sym
