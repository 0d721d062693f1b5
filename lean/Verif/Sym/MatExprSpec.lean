import Verif.Sym.MatExprModel
import Verif.Sym.QuatSpec
import Mathlib.Data.Matrix.Mul

/-!
# Specification: the values of matrices of expressions
-/

namespace Wf.Sym

open Mat

variable {F : Type} [DecidableEq F] [FnSem F]

/-- The matrix has as many rows and columns as `M`, and its entries, stored row by row, are well formed and have the values `M`. -/
structure HasMat (ρ : Env F) (m : Mat (Expr F)) {r c : Nat} (M : Matrix (Fin r) (Fin c) ℂ) : Prop where
  rows : m.rows = r
  cols : m.cols = c
  length : m.data.length = r * c
  small : r * c < 2 ^ 31
  entry : ∀ i j, ∃ e, m.data[i.val * c + j.val]? = some e ∧ Has ρ e (M i j)

/-- Every entry `U(k, k)` in a row other than the last is the constant zero, or its value is not zero. (These are the numbers the elimination
divides by.) -/
def PivotsHaveValues (ρ : Env F) (U : Mat (Expr F)) (n c : Nat) : Prop :=
  ∀ (k : Nat) (e : Expr F), k + 1 < n → U.data[k * c + k]? = some e → e ≠ .int 0 → eval ρ e ≠ some 0

/-- A matrix of real numbers as one of complex numbers. -/
def ofReal {r c : Nat} (M : Matrix (Fin r) (Fin c) ℝ) : Matrix (Fin r) (Fin c) ℂ := fun i j => (M i j : ℂ)

end Wf.Sym
