import Verif.Sym.QuatModel
import Verif.Mat.LuModel

/-!
# Model: matrices of expressions

The functions on matrices are those of `Verif.Mat`, with entries that are expressions or the exception of the operation that should have made
them. The code stops at the first exception. Every value that is computed ends up in the result or in an operand of an entry of it, so a
result is returned exactly if no entry of it is an exception.
-/

namespace Wf.Sym

open Mat

variable {F : Type} [DecidableEq F] [FnOps F]

/-- The operations on entries. `addition::from_operands` is `K.add`. -/
def exprOps (K : Ctors F) : Ops (Res (Expr F)) where
  zero := .ok (.int 0)
  one := .ok (.int 1)
  add a b := do addE K (← a) (← b)
  sub a b := do subE K (← a) (← b)
  mul a b := do mulE K (← a) (← b)
  div a b := do divE K (← a) (← b)
  sum l := do K.add (← l.mapM id)
  isZero a := match a with
    | .ok e => isInt 0 e
    | .error _ => false

/-- Entries that exist. -/
def liftM (m : Mat (Expr F)) : Mat (Res (Expr F)) := ⟨m.rows, m.cols, m.data.map .ok⟩

/-- The result, if no entry is an exception. -/
def collectM (m : Mat (Res (Expr F))) : Res (Mat (Expr F)) := do return ⟨m.rows, m.cols, ← m.data.mapM id⟩

/-- `operator*`, `matrix_expression.cc:156-158`. -/
def matMulE (K : Ctors F) (a b : Mat (Expr F)) : Res (Mat (Expr F)) := do collectM (← (liftM a).mul (exprOps K) (liftM b))
/-- `operator+`, `matrix_expression.cc:148-150`. -/
def matAddE (K : Ctors F) (a b : Mat (Expr F)) : Res (Mat (Expr F)) := do collectM (← (liftM a).add (exprOps K) (liftM b))
/-- `operator-`, `matrix_expression.cc:152-154`. -/
def matSubE (K : Ctors F) (a b : Mat (Expr F)) : Res (Mat (Expr F)) := do collectM (← (liftM a).sub (exprOps K) (liftM b))
/-- `operator*` with a scalar, `matrix_expression.cc:160-165`. -/
def matScaleE (K : Ctors F) (a : Mat (Expr F)) (s : Expr F) : Res (Mat (Expr F)) := do collectM (← (liftM a).scale (exprOps K) (.ok s))
/-- Unary minus, `matrix_expression.cc:81`. -/
def matNegE (K : Ctors F) (a : Mat (Expr F)) : Res (Mat (Expr F)) := matScaleE K a (.int (-1))

/-- `squared_norm`, `matrix_expression.cc:65-73`. -/
def matSquaredNormE (K : Ctors F) (a : Mat (Expr F)) : Res (Expr F) := do K.add (← mapRes (fun x => K.pow x (.int 2)) a.data)
/-- `norm`, `matrix_expression.cc:75`. -/
def matNormE (K : Ctors F) (a : Mat (Expr F)) : Res (Expr F) := do sqrtE K (← matSquaredNormE K a)

/-- `factorize_full_piv_lu`, `matrix_functions.cc:401-414`. -/
def luE (K : Ctors F) (A : Mat (Expr F)) : Res (Mat (Expr F) × Mat (Expr F) × Mat (Expr F) × Mat (Expr F)) := do
  let (P, L, U, Q) ← factorizeFullPivLu (exprOps K) (liftM A)
  return (← collectM P, ← collectM L, ← collectM U, ← collectM Q)

/-- `determinant`, `matrix_functions.cc:416-453`. From four rows on, all entries of the factors are computed, also those that are not used. -/
def determinantE (K : Ctors F) (m : Mat (Expr F)) : Res (Expr F) := do
  let d ← determinant (exprOps K) (fun s => .ok (.int s)) (liftM m)
  if 4 ≤ m.rows then (do
    let _ ← luE K m
    d)
  else d

/-- `where` with matrices, `functions.cc:654-674`. -/
def matWhereE (c : Expr F) (a b : Mat (Expr F)) : Res (Mat (Expr F)) :=
  if a.rows ≠ b.rows ∨ a.cols ≠ b.cols then .error .dimension
  else newMatrix a.rows a.cols (List.zipWith (condCreate c) a.data b.data)

/-- `skew_v`, `geometry/quaternion.cc:352-357,387-392`. -/
def skewE (K : Ctors F) (vx vy vz : Expr F) : Res (Mat (Expr F)) := do
  return ⟨3, 3, [.int 0, ← negE K vz, vy, vz, .int 0, ← negE K vx, ← negE K vy, vx, .int 0]⟩

/-- `I3`, `geometry/quaternion.cc:359,394`. -/
def identity3 : Mat (Expr F) := ⟨3, 3, [.int 1, .int 0, .int 0, .int 0, .int 1, .int 0, .int 0, .int 0, .int 1]⟩

/-- `I3 + skew_v * c0 + (skew_v * skew_v) * c1`, `geometry/quaternion.cc:363-366,397-399`. -/
def seriesE (K : Ctors F) (s : Mat (Expr F)) (c0 c1 : Expr F) : Res (Mat (Expr F)) := do
  matAddE K (← matAddE K identity3 (← matScaleE K s c0)) (← matScaleE K (← matMulE K s s) c1)

/-- `c0`, `geometry/quaternion.cc:347`. -/
def leftC0 (K : Ctors F) (m : Nat) (angle : Expr F) : Res (Expr F) := do
  divE K (← subE K (.int 1) (← fns K m .cos angle)) (← K.pow angle (.int 2))

/-- `c1`, `geometry/quaternion.cc:348`. -/
def leftC1 (K : Ctors F) (m : Nat) (angle : Expr F) : Res (Expr F) := do
  divE K (← subE K angle (← fns K m .sin angle)) (← K.pow angle (.int 3))

/-- `c1`, `geometry/quaternion.cc:384`. -/
def inverseC1 (K : Ctors F) (m : Nat) (angle : Expr F) : Res (Expr F) := do
  let a ← divE K (.int 1) (← K.pow angle (.int 2))
  let b ← divE K (← addE K (.int 1) (← fns K m .cos angle)) (← mulE K (← mulE K (.int 2) angle) (← fns K m .sin angle))
  subE K a b

/-- `left_jacobian_of_so3`, `geometry/quaternion.cc:334-367`, for a vector of three elements; `a > b` is `b < a` (`expression.cc:125-127`). -/
def leftJacobianE (K : Ctors F) (m : Nat) (vx vy vz : Expr F) (epsilon : Option (Expr F)) : Res (Mat (Expr F)) := do
  let angle ← lengthE K vx vy vz
  let c0 ← leftC0 K m angle
  let c1 ← leftC1 K m angle
  let c0s ← divE K (.int 1) (.int 2)
  let c1s ← divE K (.int 1) (.int 6)
  let s ← skewE K vx vy vz
  match epsilon with
  | some eps =>
    let c ← relCreate .lt eps angle
    seriesE K s (condCreate c c0 c0s) (condCreate c c1 c1s)
  | none => seriesE K s c0 c1

/-- `inverse_left_jacobian_of_so3`, `geometry/quaternion.cc:370-401`, for a vector of three elements. -/
def inverseLeftJacobianE (K : Ctors F) (m : Nat) (vx vy vz : Expr F) (epsilon : Option (Expr F)) : Res (Mat (Expr F)) := do
  let angle ← lengthE K vx vy vz
  let c0 ← divE K (.int (-1)) (.int 2)
  let c1 ← inverseC1 K m angle
  let c1s ← divE K (.int 1) (.int 12)
  let s ← skewE K vx vy vz
  match epsilon with
  | some eps =>
    let c ← relCreate .lt eps angle
    seriesE K s c0 (condCreate c c1 c1s)
  | none => seriesE K s c0 c1

end Wf.Sym
