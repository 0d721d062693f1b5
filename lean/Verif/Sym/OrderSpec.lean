import Verif.Sym.ExprModel
import Verif.Num.RationalLemmas

/-! # Vocabulary for the statements about identity, order and hash -/

namespace Wf.Sym

variable {F : Type}

/-- Floating point constants that behave: `==` is equality and `<` is a strict total order, so there is no not-a-number and only one zero. -/
class LawfulFloat (F : Type) [FloatCmp F] [DecidableEq F] : Prop where
  eq_iff : ∀ a b : F, FloatCmp.eq a b = true ↔ a = b
  lt_irrefl : ∀ a : F, FloatCmp.lt a a = false
  lt_trans : ∀ a b c : F, FloatCmp.lt a b = true → FloatCmp.lt b c = true → FloatCmp.lt a c = true
  lt_total : ∀ a b : F, a ≠ b → FloatCmp.lt a b = true ∨ FloatCmp.lt b a = true

mutual
/-- `P` holds at every node. -/
def Expr.All (P : Head F → Prop) : Expr F → Prop
  | .node h as => P h ∧ Expr.Alls P as
def Expr.Alls (P : Head F → Prop) : List (Expr F) → Prop
  | [] => True
  | a :: as => Expr.All P a ∧ Expr.Alls P as
end

/-- A set of declarations in which a name identifies a custom type and an external function. -/
structure Registry where
  type : String → CType
  fn : String → ExtFn

/-- Rational constants are in lowest terms, and types and functions come from the registry. -/
def Head.Regular (reg : Registry) : Head F → Prop
  | .rat r => r.Canonical
  | .call f => f = reg.fn f.name
  | .typeArg _ t => t = reg.type t.name
  | .construct t => t = reg.type t.name
  | _ => True

/-- Every node is regular. -/
def Expr.Regular (reg : Registry) (e : Expr F) : Prop := e.All (Head.Regular reg)

end Wf.Sym
