import Verif.Sym.CtorModel
import Verif.Sym.OrderSpec
import Mathlib.Analysis.SpecialFunctions.Pow.Complex
import Mathlib.Analysis.SpecialFunctions.Pow.Real
import Mathlib.Analysis.SpecialFunctions.Trigonometric.Complex
import Mathlib.Analysis.SpecialFunctions.Complex.Arg

/-!
# Specification: the value of an expression

An expression denotes a complex number under an assignment, or has no value: `undefined`, complex infinity, a power of zero whose exponent has
no positive real part, a logarithm of zero, a pole. Powers and logarithms are the principal ones.
-/

namespace Wf.Sym
open Complex

/-- `z ** w`, principal value. A power of zero has a value only if the exponent has positive real part. -/
noncomputable def powVal (z w : ℂ) : Option ℂ :=
  if z = 0 then (if 0 < w.re then some 0 else none) else some (z ^ w)

/-- Principal square root. -/
noncomputable def csqrt (z : ℂ) : ℂ := z ^ (1 / 2 : ℂ)

/-- The value of a built-in function. Inverse functions are the principal branches, written with the principal logarithm. -/
noncomputable def fnVal : BuiltIn → List ℂ → Option ℂ
  | .cos, [z] => some (cos z)
  | .sin, [z] => some (sin z)
  | .tan, [z] => if cos z = 0 then none else some (tan z)
  | .arccos, [z] => some (Real.pi / 2 - -I * log (I * z + csqrt (1 - z ^ 2)))
  | .arcsin, [z] => some (-I * log (I * z + csqrt (1 - z ^ 2)))
  | .arctan, [z] => if z = I ∨ z = -I then none else some (I / 2 * (log (1 - I * z) - log (1 + I * z)))
  | .cosh, [z] => some (cosh z)
  | .sinh, [z] => some (sinh z)
  | .tanh, [z] => if cosh z = 0 then none else some (tanh z)
  | .arccosh, [z] => some (log (z + csqrt (z + 1) * csqrt (z - 1)))
  | .arcsinh, [z] => some (log (z + csqrt (z ^ 2 + 1)))
  | .arctanh, [z] => if z = 1 ∨ z = -1 then none else some ((log (1 + z) - log (1 - z)) / 2)
  | .exp, [z] => some (exp z)
  | .log, [z] => if z = 0 then none else some (log z)
  | .abs, [z] => some (‖z‖ : ℂ)
  | .signum, [z] => if z = 0 then some 0 else some (z / ‖z‖)
  | .floor, [z] => some ⟨⌊z.re⌋, ⌊z.im⌋⟩
  | .arctan2, [y, x] => if y.im = 0 ∧ x.im = 0 ∧ ¬ (x = 0 ∧ y = 0) then some (arg ⟨x.re, y.re⟩ : ℂ) else none
  | _, _ => none

/-- The value of a symbolic constant. -/
noncomputable def SymConst.val : SymConst → ℝ
  | .euler => Real.exp 1
  | .pi => Real.pi

/-- The value of a relation: one or zero; `<` and `≤` need real operands. -/
noncomputable def relVal : RelOp → ℂ → ℂ → Option ℂ
  | .lt, a, b => if a.im = 0 ∧ b.im = 0 then some (if a.re < b.re then 1 else 0) else none
  | .le, a, b => if a.im = 0 ∧ b.im = 0 then some (if a.re ≤ b.re then 1 else 0) else none
  | .eq, a, b => some (if a = b then 1 else 0)

/-- Exact floating point: the arithmetic of `FloatOps` computes real numbers without rounding. `val f = none` means that `f` is not a finite number.
`pow` is only required to be right where `std::pow` is real. -/
class FloatSem (F : Type) [DecidableEq F] extends FloatOps F, LawfulFloat F where
  val : F → Option ℝ
  val_ofInt : ∀ n : Int, InI64 n → val (ofInt n) = some n
  val_ofRat : ∀ r : RatC, r.Canonical → val (ofRat r) = some (r.val : ℝ)
  val_add : ∀ a b x y, val a = some x → val b = some y → val (add a b) = some (x + y)
  val_mul : ∀ a b x y, val a = some x → val b = some y → val (mul a b) = some (x * y)
  val_pow : ∀ a b x y, val a = some x → val b = some y → (0 < x ∨ (x = 0 ∧ 0 < y) ∨ (x ≠ 0 ∧ ∃ n : ℤ, y = n)) → val (pow a b) = some (x ^ y)
  finite : ∀ a x, val a = some x → isNan a = false ∧ isInf a = false
  lt_iff : ∀ a b x y, val a = some x → val b = some y → (lt a b = true ↔ x < y)
  absLtOne_iff : ∀ a x, val a = some x → (absLtOne a = true ↔ |x| < 1)
  val_complexFn : ∀ f a b x y w, val a = some x → val b = some y → fnVal f [⟨x, y⟩] = some w →
    val (complexFn f a b).1 = some w.re ∧ val (complexFn f a b).2 = some w.im

/-- An assignment: values of the variables, meanings of the user-declared functions, and values of the nodes that are not interpreted here
(elements of compound expressions, unevaluated derivatives and substitutions), which may depend on the values of the variables. -/
structure Env (F : Type) where
  leaf : Head F → Option ℂ
  symfn : String → List ℂ → Option ℂ
  opaq : (Head F → Option ℂ) → Expr F → Option ℂ

/-- Sum of the values, if all exist. -/
noncomputable def sumO : List (Option ℂ) → Option ℂ
  | [] => some 0
  | a :: as => a.bind fun z => (sumO as).map (z + ·)
/-- Product of the values, if all exist. -/
noncomputable def prodO : List (Option ℂ) → Option ℂ
  | [] => some 1
  | a :: as => a.bind fun z => (prodO as).map (z * ·)
/-- All the values, if all exist. -/
def seqO : List (Option ℂ) → Option (List ℂ)
  | [] => some []
  | a :: as => a.bind fun z => (seqO as).map (z :: ·)
/-- Power of values that may not exist. -/
noncomputable def powO (a b : Option ℂ) : Option ℂ := a.bind fun z => b.bind fun w => powVal z w
/-- Choice between values that may not exist: only the chosen one has to. -/
noncomputable def condO (c a b : Option ℂ) : Option ℂ := c.bind fun z => if z = 1 then a else if z = 0 then b else none

variable {F : Type} [DecidableEq F] [FloatSem F]

/-- The value of a node from the values of its children. -/
noncomputable def headVal (ρ : Env F) (e : Expr F) (h : Head F) (vs : List (Option ℂ)) : Option ℂ :=
  match h, vs with
  | .flt f, [] => (FloatSem.val f).map (fun x : ℝ => (x : ℂ))
  | .int n, [] => some (n : ℂ)
  | .rat r, [] => some ((r.val : ℚ) : ℂ)
  | .const c, [] => some ((c.val : ℝ) : ℂ)
  | .imag, [] => some I
  | .var n s, [] => ρ.leaf (.var n s)
  | .argVar n i t, [] => ρ.leaf (.argVar n i t)
  | .uniq i s, [] => ρ.leaf (.uniq i s)
  | .mul, vs => prodO vs
  | .add, vs => sumO vs
  | .pow, [b, e] => powO b e
  | .fn f, vs => (seqO vs).bind (fnVal f)
  | .symfn n, vs => (seqO vs).bind (ρ.symfn n)
  | .uneval, [v] => v
  | .stop, [v] => v
  | .iverson, [v] => v
  | .cond, [c, a, b] => condO c a b
  | .bconst b, [] => some (if b then 1 else 0)
  | .rel op, [a, b] => a.bind fun x => b.bind fun y => relVal op x y
  | .elem _, _ => ρ.opaq ρ.leaf e
  | .deriv _, _ => ρ.opaq ρ.leaf e
  | .subst, _ => ρ.opaq ρ.leaf e
  | _, _ => none

mutual
/-- The value of an expression. -/
noncomputable def eval (ρ : Env F) : Expr F → Option ℂ
  | .node h as => headVal ρ (.node h as) h (evals ρ as)
/-- The values of several expressions. -/
noncomputable def evals (ρ : Env F) : List (Expr F) → List (Option ℂ)
  | [] => []
  | a :: as => eval ρ a :: evals ρ as
end

/-! ## Well-formed expressions -/

/-- A node as the public interface makes it: integers fit in 64 bits, rational constants are in lowest terms and are not integers, and a product
has at least two factors of which at most one is a number. -/
def GoodNode : Head F → List (Expr F) → Prop
  | .int n, _ => InI64 n
  | .rat r, _ => r.Canonical ∧ r.d ≠ 1
  | .mul, ts => 2 ≤ ts.length ∧ (ts.filter isNumeric).length ≤ 1
  | _, _ => True

mutual
/-- Every node is as the public interface makes it. -/
def Good : Expr F → Prop
  | .node h as => GoodNode h as ∧ Goods as
def Goods : List (Expr F) → Prop
  | [] => True
  | a :: as => Good a ∧ Goods as
end

/-! ## True licences -/

/-- The answers to the sign questions are right under the assignment `ρ`. -/
structure Lic.TrueAt (lic : Lic F) (ρ : Env F) : Prop where
  /-- the base is a non-negative real and the inner exponent is real -/
  mulExp : ∀ b e, lic.mulExp b e = true → ∀ x y, eval ρ b = some x → eval ρ e = some y → x.im = 0 ∧ 0 ≤ x.re ∧ y.im = 0
  /-- the factor is a non-negative real -/
  nonneg : ∀ t, lic.nonneg t = true → ∀ x, eval ρ t = some x → x.im = 0 ∧ 0 ≤ x.re
  /-- the argument of the exponential is real -/
  expReal : ∀ t, lic.expReal t = true → ∀ x, eval ρ t = some x → x.im = 0
  /-- the power of floats is real -/
  floatPow : ∀ a b, lic.floatPow a b = true → ∀ x y, FloatSem.val a = some x → FloatSem.val b = some y → 0 ≤ x ∨ ∃ n : ℤ, y = n

end Wf.Sym
