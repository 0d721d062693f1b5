import Verif.Sym.EvalSpec
import Verif.Sym.OrderSpec

/-! # Vocabulary for the statements about the order of operands -/

namespace Wf.Sym

variable {F : Type} [DecidableEq F]

/-- There is no float. -/
def NoFloats (e : Expr F) : Prop := e.All (fun h => ∀ f, h ≠ .flt f)

/-- A number that is not a float. -/
def ExactNum (e : Expr F) : Prop := Good e ∧ isNumeric e = true ∧ ∀ f, e ≠ .flt f

/-- A factor as a base and an exponent, as the product visitor sees it. -/
def powerOf : Expr F → Expr F × Expr F
  | .pow b e => (b, e)
  | .fn .exp [x] => (.const .euler, x)
  | t => (t, .int 1)

/-- The factors that are not constants, as powers. -/
def factorOf (t : Expr F) : Option (Expr F × Expr F) :=
  match Coeff.ofExpr t with
  | some _ => none
  | none => some (powerOf t)

/-- Two factors with the same base have numbers as exponents. -/
def Mergeable (L : List (Expr F)) : Prop := (L.filterMap factorOf).Pairwise fun x y => x.1 = y.1 → ExactNum x.2 ∧ ExactNum y.2

/-- A base the power rules do not look into: not a number, infinity, undefined, `i`, `E`, an exponential, a product or a power. -/
def PlainBase [FloatOps F] (b : Expr F) : Prop :=
  Coeff.ofExpr b = none ∧ isMulOrPow b = false ∧ isImag b = false ∧ isConst .euler b = false ∧ ∀ xs, b ≠ .fn .exp xs

/-- A power of a plain base as the product constructor writes it. -/
def PlainFactor [FloatOps F] (f : Expr F) : Prop :=
  Coeff.ofExpr f = none ∧ f.head ≠ .mul ∧ PlainBase (powerOf f).1 ∧
  ∀ b e, f = .pow b e → e ≠ .int 0 ∧ e ≠ .int 1 ∧ e ≠ .zoo ∧ e ≠ .undef

/-- What remains of a term without its numeric coefficient: not a sum, and if it is a product, then a sorted product of powers of different plain
bases. -/
def PlainRest [FloatOps F] (m : Expr F) : Prop :=
  Coeff.ofExpr m = none ∧ m.head ≠ .add ∧
  ∀ fs, m = .mul fs → fs.Pairwise (fun a b => termLe a b = true) ∧ (∀ f ∈ fs, PlainFactor f) ∧ (fs.map fun f => (powerOf f).1).Nodup

/-- A sum in canonical form: no operand is a sum, at most one operand is a constant, and no two operands differ only by a numeric coefficient. -/
def SumShape [FloatOps F] (r : Expr F) : Prop :=
  ∀ rs, r = .add rs →
    (∀ t ∈ rs, t.head ≠ .add) ∧ (rs.filter fun t => (Coeff.ofExpr t).isSome).length ≤ 1 ∧
    ((rs.filter fun t => (Coeff.ofExpr t).isNone).map fun t => (asCoeffMul t).2).Nodup

end Wf.Sym
