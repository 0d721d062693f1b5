import Verif.Sym.RebuildModel
import Verif.Mat.MatrixModel

/-!
# Model of evaluation to numbers: `evaluate.cc`, `numerical_casts.cc`, `numpy_conversion.cc`

The doubles of the symbolic constants are a parameter `kf`.
-/

namespace Wf.Sym

open Mat

variable {F : Type} [FnOps F] [DecidableEq F]

/-! ## Reading a number off an expression -/

/-- `complex_cast(expr, allow)`, `numerical_casts.cc:14-77,93-96`. (The flag is not looked at in a product.) -/
def complexCastWith (allow : Bool) : Expr F → Option (F × F)
  | .flt f => some (f, FloatOps.ofInt 0)
  | .imag => some (FloatOps.ofInt 0, FloatOps.ofInt 1)
  | .int n => if allow then some (FloatOps.ofInt n, FloatOps.ofInt 0) else none
  | .mul [a, b] =>
    match asCoeffMul (.mul [a, b]) with
    | (.flt f, m) => if isImag m then some (FloatOps.ofInt 0, f) else none
    | (.int n, m) => if isImag m then some (FloatOps.ofInt 0, FloatOps.ofInt n) else none
    | _ => none
  | .add [a, b] =>
    match complexCastWith allow a, complexCastWith allow b with
    | some (x, y), some (u, v) => some (FloatOps.add x u, FloatOps.add y v)
    | _, _ => none
  | _ => none

/-- `std::variant<std::int64_t, double, std::complex<double>>`. -/
inductive Number (F : Type)
  | int (n : Int)
  | dbl (f : F)
  | cplx (re im : F)
deriving DecidableEq, Repr

/-- `numerical_cast`, `numerical_casts.cc:79-91`. -/
def numericalCast : Expr F → Option (Number F)
  | .flt f => some (.dbl f)
  | .int n => some (.int n)
  | e => (complexCastWith true e).map fun c => .cplx c.1 c.2

/-- `Expr.eval` of the Python interface: `eval_wrapper`, `scalar_wrapper.cc:155-163`. -/
def evalScalar (e : Expr F) : Res (Number F) :=
  match numericalCast e with
  | some v => .ok v
  | none => .error .type

/-! ## Converting the constants of an expression -/

/-- `evaluate_visitor`, `evaluate.cc:10-36`. -/
def evaluateBody (kf : SymConst → F) (K : Ctors F) (m : Nat) (R : Expr F → Res (Expr F)) : Expr F → Res (Expr F)
  | .node h as =>
    match h with
    | .int n => .ok (floatExpr (FloatOps.ofInt n))
    | .rat r => .ok (floatExpr (FloatOps.ofRat r))
    | .const c => .ok (floatExpr (kf c))
    | .zoo => .error .type
    | .deriv _ => .error .type
    | h => if h.isLeaf then .ok (.node h as) else mapChildren K m R (.node h as)

/-- `evaluate`, `evaluate.cc:50`. The cache is left out: it only saves work. -/
def evaluate (kf : SymConst → F) (K : Ctors F) (m n : Nat) : Expr F → Res (Expr F) := visitor (evaluateBody kf K m) n

/-- `matrix_expr::eval`, `matrix_expression.cc:132`. -/
def evaluateMatrix (kf : SymConst → F) (K : Ctors F) (m n : Nat) (M : Mat (Expr F)) : Res (Mat (Expr F)) :=
  andThen (mapRes (evaluate kf K m n) M.data) fun es => .ok ⟨M.rows, M.cols, es⟩

/-! ## Arrays of numbers -/

/-- The elements of an array have one type. -/
inductive Elements (F : Type)
  | ints (l : List Int)
  | doubles (l : List F)
  | complexes (l : List (F × F))

/-- An array, elements row by row. -/
structure NdArray (F : Type) where
  rows : Int
  cols : Int
  data : Elements F

/-- A number that is not complex as a double, `numpy_conversion.cc:57-62`. -/
def Number.toDouble : Number F → Res F
  | .int n => .ok (FloatOps.ofInt n)
  | .dbl f => .ok f
  | .cplx _ _ => .error .type
/-- A number as a complex one, `numpy_conversion.cc:52-55`. -/
def Number.toComplex : Number F → F × F
  | .int n => (FloatOps.ofInt n, FloatOps.ofInt 0)
  | .dbl f => (f, FloatOps.ofInt 0)
  | .cplx x y => (x, y)
/-- An integer, `numpy_conversion.cc:64-68`. -/
def Number.toInt : Number F → Res Int
  | .int n => .ok n
  | _ => .error .type

/-- The type of the elements and the conversions to it, `numpy_conversion.cc:31-69`. -/
def promote (ns : List (Number F)) : Res (Elements F) :=
  if ns.any fun | .cplx _ _ => true | _ => false then .ok (.complexes (ns.map Number.toComplex))
  else if ns.any fun | .dbl _ => true | _ => false then andThen (mapRes Number.toDouble ns) fun l => .ok (.doubles l)
  else andThen (mapRes Number.toInt ns) fun l => .ok (.ints l)

/-- `numpy_from_matrix`, `numpy_conversion.cc:13-70`. -/
def numpyFromMatrix (M : Mat (Expr F)) : Res (NdArray F) :=
  andThen (mapRes evalScalar M.data) fun ns => andThen (promote ns) fun d => .ok ⟨M.rows, M.cols, d⟩

/-- `MatrixExpr.eval` of the Python interface, `matrix_wrapper.cc:366-372`. -/
def evalMatrix (kf : SymConst → F) (K : Ctors F) (m n : Nat) (M : Mat (Expr F)) : Res (NdArray F) :=
  andThen (evaluateMatrix kf K m n M) numpyFromMatrix

end Wf.Sym
