import Verif.Sym.EvaluateModel
import Verif.Sym.FunctionSpec

/-! # Specification: numbers and arrays of numbers -/

namespace Wf.Sym

variable {F : Type} [DecidableEq F] [FnSem F]

/-- The value of a number. A float that is not finite has none. -/
noncomputable def Number.val : Number F → Option ℂ
  | .int n => some n
  | .dbl f => (FloatSem.val f).map fun x : ℝ => (x : ℂ)
  | .cplx a b => (FloatSem.val a).bind fun x => (FloatSem.val b).map fun y => ⟨x, y⟩

/-- An element of an array. -/
def Elements.get (i : Nat) : Elements F → Option (Number F)
  | .ints l => l[i]?.map .int
  | .doubles l => l[i]?.map .dbl
  | .complexes l => l[i]?.map fun c => .cplx c.1 c.2

/-- The number of elements. -/
def Elements.length : Elements F → Nat
  | .ints l => l.length
  | .doubles l => l.length
  | .complexes l => l.length

/-- An array with the shape of the matrix whose elements have the values of its entries, where these have a value. -/
structure ArrayOf (ρ : Env F) (M : Mat.Mat (Expr F)) (A : NdArray F) : Prop where
  rows : A.rows = M.rows
  cols : A.cols = M.cols
  length : A.data.length = M.data.length
  values : ∀ (i : Nat) e z, M.data[i]? = some e → eval ρ e = some z → ∃ v, A.data.get i = some v ∧ v.val = some z

/-- The doubles of the symbolic constants are exact. -/
def ExactConsts (kf : SymConst → F) : Prop := ∀ c, FloatSem.val (kf c) = some c.val

/-- The nodes of numbers: constants, `i`, sums and products. -/
def Head.ofNumber : Head F → Bool
  | .int _ | .rat _ | .flt _ | .imag | .add | .mul => true
  | _ => false

/-- An integer or a float constant, with its value as a double. -/
inductive RealConst : Expr F → F → Prop
  | int (n : Int) : RealConst (.int n) (FloatOps.ofInt n)
  | flt (f : F) : RealConst (.flt f) f

end Wf.Sym
