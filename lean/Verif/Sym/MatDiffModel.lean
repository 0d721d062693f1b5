import Verif.Sym.ChainModel
import Verif.Mat.MatrixModel

/-! # Model of the derivatives of matrices of expressions -/

namespace Wf.Sym
open Mat (Mat)

variable {F : Type} [FnOps F] [DecidableEq F]

/-- `matrix_expr::diff`, `matrix_expression.cc:89-99`. The order is not checked: the loop is not entered if it is negative. -/
def matDiff (D : DiffCfg F) (m : Mat (Expr F)) (reps : Int) : Res (Mat (Expr F)) :=
  if diffArgOk D.arg then andThen (mapRes (diffTimes D reps.toNat) m.data) fun l => .ok ⟨m.rows, m.cols, l⟩ else .error .type

/-- `matrix_expr::jacobian` for a list of variables, `matrix_expression.cc:101-109`. -/
def matJacobianOver (cfg : Expr F → DiffCfg F) (m : Mat (Expr F)) (vars : List (Expr F)) : Res (Mat (Expr F)) :=
  if m.rows ≠ 1 ∧ m.cols ≠ 1 then .error .dimension
  else andThen (jacobian cfg m.data vars) fun p => .ok ⟨p.1, p.2.1, p.2.2⟩

/-- `matrix_expr::jacobian` for a vector of variables, `matrix_expression.cc:111-119`. -/
def matJacobian (cfg : Expr F → DiffCfg F) (m vars : Mat (Expr F)) : Res (Mat (Expr F)) :=
  if vars.rows ≠ 1 ∧ vars.cols ≠ 1 then .error .dimension else matJacobianOver cfg m vars.data

end Wf.Sym
