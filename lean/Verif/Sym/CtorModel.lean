import Verif.Sym.ExprModel
import Verif.Num.PowerModel
import Mathlib.Data.List.Sort

/-!
# Model of the simplifying constructors for sums, products and powers

`addition::from_operands`, `multiplication::from_operands` and `power::create` call each other. They are modelled by open recursion: `step K`
is the body of each constructor with its calls to the others going to `K`, and `ctors n` is `step` iterated `n` times from constructors that
always fail, so `n` is the size of the C++ stack, counted in nested calls of these constructors. `visit` is the visitor of
`multiplication_parts`, which also calls itself on a new expression.

Simplifications. `std::unordered_map` is an association list in order of insertion, searched by identity. Sorting compares rational constants
in unbounded integers (`exactOrder`). The questions about the sign of an operand that decide a power rule are asked of a record `Lic`;
`NumberSetModel.lean` gives the answers of the code.
-/

namespace Wf.Sym

/-- Floating point arithmetic (`double` in the code), as used by the simplifying constructors and functions. -/
class FloatOps (F : Type) extends FloatCmp F where
  add : F → F → F
  mul : F → F → F
  /-- `std::pow` -/
  pow : F → F → F
  /-- conversion of an integer constant, `numeric_expressions.h:189-191` -/
  ofInt : Int → F
  /-- conversion of a rational constant, `numeric_expressions.h:259-263` -/
  ofRat : RatC → F
  /-- `std::isnan` -/
  isNan : F → Bool
  /-- `std::isinf` -/
  isInf : F → Bool
  /-- `std::abs(x) < 1.0` -/
  absLtOne : F → Bool
  /-- the function of `std::complex<double>` applied by `operate_on_float`, `functions.cc:21-31` -/
  complexFn : BuiltIn → F → F → F × F

variable {F : Type} [FloatOps F] [DecidableEq F]

/-- `is_zero`, `is_negative` and `is_positive` of a float constant, `numeric_expressions.h:157-163`. -/
def fltIsZero (f : F) : Bool := FloatCmp.eq f (FloatOps.ofInt 0)
@[inherit_doc fltIsZero] def fltIsNeg (f : F) : Bool := FloatCmp.lt f (FloatOps.ofInt 0)
@[inherit_doc fltIsZero] def fltIsPos (f : F) : Bool := FloatCmp.lt (FloatOps.ofInt 0) f

/-- Apply a fallible function to each element in turn. -/
def mapRes {α β : Type} (f : α → Res β) : List α → Res (List β)
  | [] => .ok []
  | a :: as =>
    match f a with
    | .error e => .error e
    | .ok b =>
      match mapRes f as with
      | .error e => .error e
      | .ok bs => .ok (b :: bs)

/-- Thread a state through a list. -/
def foldRes {σ α : Type} (f : σ → α → Res σ) : σ → List α → Res σ
  | s, [] => .ok s
  | s, a :: as =>
    match f s a with
    | .error e => .error e
    | .ok s' => foldRes f s' as

/-- `is_zero`, `is_one`, `is_negative_one`, `is_complex_infinity`, `is_undefined`, `is_i`, `is_pi`: identity with the constant, `constants.h`. -/
def isInt (n : Int) (e : Expr F) : Bool := identical e (.int n)
@[inherit_doc isInt] def isZoo (e : Expr F) : Bool := identical e .zoo
@[inherit_doc isInt] def isUndef (e : Expr F) : Bool := identical e .undef
@[inherit_doc isInt] def isImag (e : Expr F) : Bool := identical e .imag
@[inherit_doc isInt] def isConst (c : SymConst) (e : Expr F) : Bool := identical e (.const c)

/-- `addition_parts::constant_coeff`, `addition.h:95-96`, and `multiplication_parts::constant_coeff`, `multiplication.h:130-131`. -/
inductive Coeff (F : Type)
  | int (n : Int) | rat (r : RatC) | flt (f : F) | undef | zoo
deriving DecidableEq, Repr

/-- `scalar_expr(rational_constant)`, `expression.cc:22-29`. -/
def ratExpr (r : RatC) : Res (Expr F) :=
  match ratTryInt r with
  | .error e => .error e
  | .ok (some n) => .ok (.int n)
  | .ok none => .ok (.rat r)

/-- `scalar_expr::from_float`, `expression.cc:41-53`. (The exception for other non-finite values is unreachable.) -/
def floatExpr (f : F) : Expr F :=
  if FloatOps.isNan f then .undef else if FloatOps.isInf f then .zoo else .flt f

/-- `std::visit([](const auto x) { return scalar_expr(x); }, coeff)`, `addition.cc:166`, `multiplication.cc:233-234`. -/
def Coeff.toExpr : Coeff F → Res (Expr F)
  | .int n => .ok (.int n)
  | .rat r => ratExpr r
  | .flt f => .ok (floatExpr f)
  | .undef => .ok .undef
  | .zoo => .ok .zoo

/-- The node as a constant coefficient, if it is one. -/
def Coeff.ofExpr : Expr F → Option (Coeff F)
  | .int n => some (.int n)
  | .rat r => some (.rat r)
  | .flt f => some (.flt f)
  | .undef => some .undef
  | .zoo => some .zoo
  | _ => none

/-- `is_type<integer_constant, rational_constant, float_constant>()`. -/
def isNumeric : Expr F → Bool
  | .int _ => true
  | .rat _ => true
  | .flt _ => true
  | _ => false

/-- The node as an integer, rational or float coefficient. -/
def numericOf : Expr F → Option (Coeff F)
  | .int n => some (.int n)
  | .rat r => some (.rat r)
  | .flt f => some (.flt f)
  | _ => none

/-- A float sum or product: zero becomes the integer zero, `addition.cc:31-39`, `multiplication.cc:29-40`. -/
def fltCoeff (f : F) : Coeff F := if fltIsZero f then .int 0 else .flt f

/-- Lift a rational result. -/
def ratCoeff : Res RatC → Res (Coeff F)
  | .ok r => .ok (.rat r)
  | .error e => .error e
@[inherit_doc ratCoeff] def intCoeff : Res Int → Res (Coeff F)
  | .ok n => .ok (.int n)
  | .error e => .error e

/-- `add_numeric_constants`, `addition.cc:20-72`. -/
def addCoeff : Coeff F → Coeff F → Res (Coeff F)
  | .undef, _ => .ok .undef
  | _, .undef => .ok .undef
  | .zoo, .zoo => .ok .undef
  | .zoo, _ => .ok .zoo
  | _, .zoo => .ok .zoo
  | .int a, .int b => intCoeff (cadd a b)
  | .rat a, .int b => ratCoeff (ratAdd a (ratOfInt b))
  | .rat a, .rat b => ratCoeff (ratAdd a b)
  | .int a, .rat b => ratCoeff (ratAdd b (ratOfInt a))
  | .flt a, .flt b => .ok (fltCoeff (FloatOps.add a b))
  | .flt a, .int b => .ok (fltCoeff (FloatOps.add a (FloatOps.ofInt b)))
  | .flt a, .rat b => .ok (fltCoeff (FloatOps.add a (FloatOps.ofRat b)))
  | .int a, .flt b => .ok (fltCoeff (FloatOps.add b (FloatOps.ofInt a)))
  | .rat a, .flt b => .ok (fltCoeff (FloatOps.add b (FloatOps.ofRat a)))

/-- `multiply_numeric_constants`, `multiplication.cc:17-74`. -/
def mulCoeff : Coeff F → Coeff F → Res (Coeff F)
  | .undef, _ => .ok .undef
  | _, .undef => .ok .undef
  | .zoo, .int b => .ok (if b = 0 then .undef else .zoo)
  | .zoo, .rat b => .ok (if b.n = 0 then .undef else .zoo)
  | .zoo, .flt b => .ok (if fltIsZero b then .undef else .zoo)
  | .zoo, .zoo => .ok .zoo
  | .int a, .zoo => .ok (if a = 0 then .undef else .zoo)
  | .rat a, .zoo => .ok (if a.n = 0 then .undef else .zoo)
  | .flt a, .zoo => .ok (if fltIsZero a then .undef else .zoo)
  | .int a, .int b => intCoeff (cmul a b)
  | .rat a, .int b => ratCoeff (ratMul a (ratOfInt b))
  | .rat a, .rat b => ratCoeff (ratMul a b)
  | .int a, .rat b => ratCoeff (ratMul b (ratOfInt a))
  | .flt a, .flt b => .ok (fltCoeff (FloatOps.mul a b))
  | .flt a, .int b => .ok (fltCoeff (FloatOps.mul a (FloatOps.ofInt b)))
  | .flt a, .rat b => .ok (fltCoeff (FloatOps.mul a (FloatOps.ofRat b)))
  | .int a, .flt b => .ok (fltCoeff (FloatOps.mul b (FloatOps.ofInt a)))
  | .rat a, .flt b => .ok (fltCoeff (FloatOps.mul b (FloatOps.ofRat a)))

/-- The comparison of `sort_terms`, `addition.cc:116-128`, `multiplication.cc:92-102`: hash first, then the canonical order. -/
def termLe (a b : Expr F) : Bool :=
  if hash a < hash b then true
  else if hash b < hash a then false
  else exactOrder a b != .gt

/-- `sort_terms`. -/
def sortTerms (ts : List (Expr F)) : List (Expr F) := ts.insertionSort (fun a b => termLe a b = true)

/-- `make_expr<multiplication>(a, b)`, `multiplication.h:43-45`. -/
def newMul2 (a b : Expr F) : Expr F := .mul (sortTerms [a, b])

/-- `maybe_new_mul`, `multiplication.cc:75-83`. -/
def maybeNewMul : List (Expr F) → Expr F
  | [] => .int 1
  | [a] => a
  | ts => .mul (sortTerms ts)

/-- `split_multiplication`, `multiplication.cc:254-272`. -/
def splitMul (ts : List (Expr F)) : Expr F × Expr F :=
  if ts.filter isNumeric = [] then (.int 1, .mul ts)
  else (maybeNewMul (ts.filter isNumeric), maybeNewMul (ts.filter (fun t => !isNumeric t)))

/-- `as_coeff_and_mul`, `multiplication.cc:274-298`. -/
def asCoeffMul : Expr F → Expr F × Expr F
  | .int n => (.int n, .int 1)
  | .rat r => (.rat r, .int 1)
  | .flt f => (.flt f, .int 1)
  | .mul [a, b] =>
    if isNumeric a && !isNumeric b then (a, b)
    else if !isNumeric a && isNumeric b then (b, a)
    else splitMul [a, b]
  | .mul ts => splitMul ts
  | e => (.int 1, e)

/-- `has_numeric_coefficient`, `multiplication.cc:193-203`. -/
def hasNumericCoeff : Expr F → Bool
  | .int _ => true
  | .rat _ => true
  | .flt _ => true
  | .mul ts => ts.any isNumeric
  | _ => false

/-- `complex_cast(expr, false)`, `numerical_casts.cc:12-85`. -/
def complexCast : Expr F → Option (F × F)
  | .flt f => some (f, FloatOps.ofInt 0)
  | .imag => some (FloatOps.ofInt 0, FloatOps.ofInt 1)
  | .mul [a, b] =>
    match asCoeffMul (.mul [a, b]) with
    | (.flt f, m) => if isImag m then some (FloatOps.ofInt 0, f) else none
    | (.int n, m) => if isImag m then some (FloatOps.ofInt 0, FloatOps.ofInt n) else none
    | _ => none
  | .add [a, b] =>
    match complexCast a, complexCast b with
    | some (x, y), some (u, v) => some (FloatOps.add x u, FloatOps.add y v)
    | _, _ => none
  | _ => none

/-- `multiplication_parts`, `multiplication.h:129-190`, with `factorize_integers_ = false`. -/
structure MulParts (F : Type) where
  coeff : Coeff F
  terms : List (Expr F × Expr F)

/-- `addition_parts`, `addition.h:94-137`. -/
structure AddParts (F : Type) where
  coeff : Coeff F
  terms : List (Expr F × Expr F)

/-- The constructors that call each other. -/
structure Ctors (F : Type) where
  /-- `addition::from_operands` -/
  add : List (Expr F) → Res (Expr F)
  /-- `multiplication::from_operands`; two operands also stand for `from_two_operands` and `operator*` -/
  mul : List (Expr F) → Res (Expr F)
  /-- `power::create` -/
  pow : Expr F → Expr F → Res (Expr F)
  /-- `visit(expr, parts)` -/
  visit : MulParts F → Expr F → Res (MulParts F)

/-- The sign questions that decide whether a power rule applies. -/
structure Lic (F : Type) where
  /-- may `(base ** inner) ** outer` become `base ** (inner * outer)` for every outer exponent? `power.cc:367-371` -/
  mulExp : Expr F → Expr F → Bool
  /-- may a rational exponent be applied to this factor separately? `power.cc:383-386` -/
  nonneg : Expr F → Bool
  /-- may `exp(f) ** y` become `exp(f * y)` for every `y`? `power.cc:412` -/
  expReal : Expr F → Bool
  /-- may `std::pow` be applied to these floats? (The code does not ask.) `power.cc:58-66` -/
  floatPow : F → F → Bool

/-! ## Associative containers keyed by expressions -/

/-- Find by key. -/
def findKey (k : Expr F) : List (Expr F × Expr F) → Option (Expr F)
  | [] => none
  | (a, v) :: rest => if identical a k then some v else findKey k rest

/-- Replace the value stored under a key. -/
def setKey (k v : Expr F) : List (Expr F × Expr F) → List (Expr F × Expr F)
  | [] => []
  | (a, w) :: rest => if identical a k then (a, v) :: rest else (a, w) :: setKey k v rest

/-- Remove a key. -/
def eraseKey (k : Expr F) : List (Expr F × Expr F) → List (Expr F × Expr F)
  | [] => []
  | (a, w) :: rest => if identical a k then rest else (a, w) :: eraseKey k rest

/-! ## Sums -/

mutual
/-- The operands reached by `addition_parts::add_terms`, which enters nested sums, `addition.cc:129-133`. -/
def flatAdd : Expr F → List (Expr F)
  | .node h as =>
    match h with
    | .add => flatAdds as
    | _ => [.node h as]
def flatAdds : List (Expr F) → List (Expr F)
  | [] => []
  | a :: as => flatAdd a ++ flatAdds as
end

/-- `add_numeric_constants::apply`, `addition.cc:75-90`: the two-operand path. A sum with `undefined` is undefined, and a sum of complex
infinity with anything else is complex infinity. -/
def addTwo (a b : Expr F) : Res (Option (Expr F)) :=
  match Coeff.ofExpr a, Coeff.ofExpr b with
  | some x, some y =>
    match addCoeff x y with
    | .error e => .error e
    | .ok c =>
      match c.toExpr with
      | .error e => .error e
      | .ok r => .ok (some r)
  | some .undef, none => .ok (some .undef)
  | none, some .undef => .ok (some .undef)
  | some .zoo, none => .ok (some .zoo)
  | none, some .zoo => .ok (some .zoo)
  | _, _ => .ok none

/-- `addition_parts::operator()` on an operand that is not a sum, `addition.cc:136-146`. -/
def addTerm (K : Ctors F) (p : AddParts F) (t : Expr F) : Res (AddParts F) :=
  match Coeff.ofExpr t with
  | some c =>
    match addCoeff p.coeff c with
    | .error e => .error e
    | .ok c' => .ok { p with coeff := c' }
  | none =>
    match findKey (asCoeffMul t).2 p.terms with
    | none => .ok { p with terms := p.terms ++ [((asCoeffMul t).2, (asCoeffMul t).1)] }
    | some c0 =>
      match K.add [c0, (asCoeffMul t).1] with
      | .error e => .error e
      | .ok c' => .ok { p with terms := setKey (asCoeffMul t).2 c' p.terms }

/-- The operand made from a multiplicand and its coefficient, `addition.cc:176-184`. -/
def sumOperand (K : Ctors F) (mc : Expr F × Expr F) : Res (Expr F) :=
  if isInt 1 mc.2 then .ok mc.1
  else
    match mc.1.head, mc.2.head with
    | .mul, _ => K.mul [mc.1, mc.2]
    | _, .mul => K.mul [mc.1, mc.2]
    | _, _ => .ok (newMul2 mc.2 mc.1)

/-- The end of `create_addition`, `addition.cc:188-193`. -/
def newSum : List (Expr F) → Expr F
  | [] => .int 0
  | [a] => a
  | ts => .add (sortTerms ts)

/-- `normalize_coefficients` and `create_addition`, `addition.cc:163-194`. -/
def createSum (K : Ctors F) (p : AddParts F) : Res (Expr F) :=
  match p.coeff.toExpr with
  | .error e => .error e
  | .ok c =>
    if isUndef c then .ok .undef
    else
      match mapRes (sumOperand K) (p.terms.filter (fun mc => !isInt 0 mc.2)) with
      | .error e => .error e
      | .ok ts => .ok (newSum (if isInt 0 c then ts else c :: ts))

/-- `addition_parts` filled from the operands and turned back into an expression, `addition.cc:107-112`. -/
def sumGeneral (K : Ctors F) (ts : List (Expr F)) : Res (Expr F) :=
  match foldRes (addTerm K) ⟨.int 0, []⟩ (flatAdds ts) with
  | .error e => .error e
  | .ok p => createSum K p

/-- `addition::from_operands`, `addition.cc:93-113`. -/
def addFrom (K : Ctors F) : List (Expr F) → Res (Expr F)
  | [] => .error .invalidArgument
  | [a] => .ok a
  | [a, b] =>
    match addTwo a b with
    | .error e => .error e
    | .ok (some r) => .ok r
    | .ok none => sumGeneral K [a, b]
  | ts => sumGeneral K ts

/-! ## Functions of a complex float -/

/-- The result of `operate_on_float`, `functions.cc:22-31`, and `from_complex`, `expression.cc:37-39`. -/
def fromComplex (K : Ctors F) (c : F × F) : Res (Expr F) :=
  if fltIsZero c.2 then .ok (floatExpr c.1)
  else
    match K.mul [floatExpr c.2, .imag] with
    | .error e => .error e
    | .ok m => K.add [floatExpr c.1, m]

/-- `wf::exp`, `functions.cc:55-70`. -/
def expFn (K : Ctors F) (x : Expr F) : Res (Expr F) :=
  if isInt 0 x then .ok (.int 1)
  else if isInt 1 x then .ok (.const .euler)
  else if isZoo x || isUndef x then .ok .undef
  else
    match complexCast x with
    | some c => fromComplex K (FloatOps.complexFn .exp c.1 c.2)
    | none => .ok (.fn .exp [x])

/-! ## Powers -/

/-- An operand of the numeric power rules as an expression, `power.cc:196-223`. -/
def powOperandExpr : PowOperand → Res (Expr F)
  | .coeff r => ratExpr r
  | .imag => .ok .imag
  | .pow b r =>
    match ratExpr r with
    | .error e => .error e
    | .ok x => .ok (.pow (.int b) x)

/-- The result of the numeric power rules as an expression. -/
def numPowExpr (K : Ctors F) : NumPow → Res (Expr F)
  | .num r => ratExpr r
  | .zoo => .ok .zoo
  | .undef => .ok .undef
  | .prod ops =>
    match mapRes powOperandExpr ops with
    | .error e => .error e
    | .ok ts => K.mul ts

/-- Run a numeric rule. -/
def numPowRes (K : Ctors F) (r : Res NumPow) : Res (Option (Expr F)) :=
  match r with
  | .error e => .error e
  | .ok x =>
    match numPowExpr K x with
    | .error e => .error e
    | .ok r => .ok (some r)

/-- `apply_float_and_numeric`, `power.cc:58-67`. The result is stored without a check that it is finite. -/
def powFloat (lic : Lic F) (bzero eneg : Bool) (b e : F) : Option (Expr F) :=
  if bzero && eneg then some .zoo
  else if lic.floatPow b e then some (.flt (FloatOps.pow b e))
  else none

/-- `apply_infinity_and_numeric_constant`, `power.cc:226-236`. -/
def powZoo (pos neg : Bool) : Expr F := if pos then .zoo else if neg then .int 0 else .undef

/-- `power_numerics_visitor`, `power.cc:32-237`. -/
def powNumeric (K : Ctors F) (lic : Lic F) (b e : Expr F) : Res (Option (Expr F)) :=
  match Coeff.ofExpr b, Coeff.ofExpr e with
  | some .undef, _ => .ok (some .undef)
  | _, some .undef => .ok (some .undef)
  | some (.flt x), some (.flt y) => .ok (powFloat lic (fltIsZero x) (fltIsNeg y) x y)
  | some (.flt x), some (.int y) => .ok (powFloat lic (fltIsZero x) (decide (y < 0)) x (FloatOps.ofInt y))
  | some (.flt x), some (.rat y) => .ok (powFloat lic (fltIsZero x) (ratIsNegative y) x (FloatOps.ofRat y))
  | some (.int x), some (.flt y) => .ok (powFloat lic (decide (x = 0)) (fltIsNeg y) (FloatOps.ofInt x) y)
  | some (.rat x), some (.flt y) => .ok (powFloat lic (ratIsZero x) (fltIsNeg y) (FloatOps.ofRat x) y)
  | some (.int x), some (.int y) => numPowRes K (powIntInt x y)
  | some (.rat x), some (.int y) => numPowRes K (powRatInt x y)
  | some (.int x), some (.rat y) => numPowRes K (powIntRat x y)
  | some .zoo, some (.int y) => .ok (some (powZoo (decide (y > 0)) (decide (y < 0))))
  | some .zoo, some (.rat y) => .ok (some (powZoo (ratIsPositive y) (ratIsNegative y)))
  | some .zoo, some (.flt y) => .ok (some (powZoo (fltIsPos y) (fltIsNeg y)))
  | _, _ => .ok none

/-- `power_imaginary_visitor` on an integer exponent, `power.cc:282-299`. -/
def imagInt (n : Int) : Expr F :=
  match imaginaryUnitPower n with
  | .one => .int 1
  | .negOne => .int (-1)
  | .i => .imag
  | .negI => newMul2 (.int (-1)) .imag

/-- `power_imaginary_visitor` on a rational exponent, `power.cc:301-334`. -/
def imagRatExpr (r : RatC) : Res (Expr F) :=
  match imagRat r with
  | .error e => .error e
  | .ok p =>
    match ratExpr p.exponent with
    | .error e => .error e
    | .ok x => .ok (if p.negative then newMul2 (.int (-1)) (.pow .imag x) else .pow .imag x)

/-- `i ** exp`, `power.cc:276-335,439-445`. -/
def powImag (b e : Expr F) : Res (Option (Expr F)) :=
  if isImag b then
    match e with
    | .int n => .ok (some (imagInt n))
    | .rat r =>
      match imagRatExpr r with
      | .error e => .error e
      | .ok x => .ok (some x)
    | _ => .ok none
  else .ok none

/-- `magnitude_less_than_one`, `power.cc:337-347`. -/
def magLtOne : Expr F → Res Bool
  | .rat r => ratIsProper r
  | .flt f => .ok (FloatOps.absLtOne f)
  | _ => .ok false

/-- `is_type<integer_constant>()`. -/
def isIntConst : Expr F → Bool
  | .int _ => true
  | _ => false

/-- `can_multiply_exponents`, `power.cc:353-373`. -/
def canMulExp (lic : Lic F) (b0 e0 e : Expr F) : Res Bool :=
  match magLtOne e0 with
  | .error e => .error e
  | .ok m => .ok (m || isIntConst e || lic.mulExp b0 e0)

/-- `maybe_distribute_rational_exponent`, `power.cc:377-402`. -/
def distributeExp (K : Ctors F) (lic : Lic F) (ts : List (Expr F)) (e : Expr F) : Res (Option (Expr F)) :=
  match mapRes (fun t => K.pow t e) (ts.filter lic.nonneg) with
  | .error e => .error e
  | .ok [] => .ok none
  | .ok ps =>
    match K.mul ps with
    | .error e => .error e
    | .ok a =>
      if ts.filter (fun t => !lic.nonneg t) = [] then .ok (some a)
      else
        match K.mul (ts.filter (fun t => !lic.nonneg t)) with
        | .error e => .error e
        | .ok r =>
          match K.pow r e with
          | .error e => .error e
          | .ok p =>
            match K.mul [a, p] with
            | .error e => .error e
            | .ok x => .ok (some x)

/-- An integer power of a product, `power.cc:480-484`. -/
def powProduct (K : Ctors F) (ts : List (Expr F)) (e : Expr F) : Res (Option (Expr F)) :=
  match mapRes (fun t => K.pow t e) ts with
  | .error e => .error e
  | .ok ps =>
    match K.mul ps with
    | .error e => .error e
    | .ok x => .ok (some x)

/-- The end of `pow_maybe_simplify`, `power.cc:466-492`. -/
def powTail (K : Ctors F) (lic : Lic F) (b e : Expr F) : Res (Option (Expr F)) :=
  if isZoo e then .ok (some .undef)
  else if isInt 0 e then .ok (some (.int 1))
  else if isInt 1 e then .ok (some b)
  else
    match b, e with
    | .mul ts, .int n => powProduct K ts (.int n)
    | .mul ts, .rat r => distributeExp K lic ts (.rat r)
    | _, _ => .ok none

/-- The rules for a power of a power and of an exponential, `power.cc:453-465`. -/
def powNested (K : Ctors F) (lic : Lic F) (b e : Expr F) : Res (Option (Expr F)) :=
  match b with
  | .pow b0 e0 =>
    match canMulExp lic b0 e0 e with
    | .error e => .error e
    | .ok false => powTail K lic b e
    | .ok true =>
      match K.mul [e0, e] with
      | .error e => .error e
      | .ok x =>
        match K.pow b0 x with
        | .error e => .error e
        | .ok r => .ok (some r)
  | .fn .exp [x] =>
    if lic.expReal x || isIntConst e then
      match K.mul [x, e] with
      | .error e => .error e
      | .ok y =>
        match expFn K y with
        | .error e => .error e
        | .ok r => .ok (some r)
    else powTail K lic b e
  | _ => powTail K lic b e

/-- The rules after the numeric ones, `power.cc:434-465`. -/
def powSymbolic (K : Ctors F) (lic : Lic F) (b e : Expr F) : Res (Option (Expr F)) :=
  if (isInt 1 b || isInt (-1) b) && isZoo e then .ok (some .undef)
  else
    match powImag b e with
    | .error e => .error e
    | .ok (some r) => .ok (some r)
    | .ok none =>
      if isConst .euler b then
        match expFn K e with
        | .error e => .error e
        | .ok r => .ok (some r)
      else powNested K lic b e

/-- `pow_maybe_simplify`, `power.cc:427-492`. -/
def powSimplify (K : Ctors F) (lic : Lic F) (b e : Expr F) : Res (Option (Expr F)) :=
  match powNumeric K lic b e with
  | .error e => .error e
  | .ok (some r) => .ok (some r)
  | .ok none => powSymbolic K lic b e

/-- `power::create`, `power.cc:420-425`. -/
def powCreate (K : Ctors F) (lic : Lic F) (b e : Expr F) : Res (Expr F) :=
  match powSimplify K lic b e with
  | .error e => .error e
  | .ok (some r) => .ok r
  | .ok none => .ok (.pow b e)

/-! ## Products -/

mutual
/-- The operands reached by the visitor, which enters nested products, `multiplication.cc:104-109`. -/
def flatMul : Expr F → List (Expr F)
  | .node h as =>
    match h with
    | .mul => flatMuls as
    | _ => [.node h as]
def flatMuls : List (Expr F) → List (Expr F)
  | [] => []
  | a :: as => flatMul a ++ flatMuls as
end

/-- `is_type<multiplication, power>()`. -/
def isMulOrPow (e : Expr F) : Bool :=
  match e.head with
  | .mul => true
  | .pow => true
  | _ => false

/-- The update of an existing entry by `insert_power`, `multiplication.cc:142-161`. -/
def mergePower (K : Ctors F) (lic : Lic F) (p : MulParts F) (b u : Expr F) : Res (MulParts F) :=
  if isMulOrPow b then
    match powSimplify K lic b u with
    | .error e => .error e
    | .ok (some r) =>
      if isMulOrPow r then K.visit { p with terms := eraseKey b p.terms } r
      else .ok { p with terms := setKey b u p.terms }
    | .ok none => .ok { p with terms := setKey b u p.terms }
  else .ok { p with terms := setKey b u p.terms }

/-- `multiplication_parts::insert_power`, `multiplication.cc:146-165`. -/
def insertPower (K : Ctors F) (lic : Lic F) (p : MulParts F) (b e : Expr F) : Res (MulParts F) :=
  match findKey b p.terms with
  | none => .ok { p with terms := p.terms ++ [(b, e)] }
  | some e0 =>
    match K.add [e0, e] with
    | .error e => .error e
    | .ok u => mergePower K lic p b u

/-- `multiplication_parts::operator()` on an operand that is not a product, `multiplication.cc:111-138`. -/
def mulTerm (K : Ctors F) (lic : Lic F) (p : MulParts F) (t : Expr F) : Res (MulParts F) :=
  match Coeff.ofExpr t with
  | some c =>
    match mulCoeff p.coeff c with
    | .error e => .error e
    | .ok c' => .ok { p with coeff := c' }
  | none =>
    match t with
    | .pow b e => insertPower K lic p b e
    | .fn .exp [x] => insertPower K lic p (.const .euler) x
    | t => insertPower K lic p t (.int 1)

/-- `visit(expr, parts)` / `multiply_term`, `multiplication.cc:103-144,186`. -/
def mulVisit (K : Ctors F) (lic : Lic F) (p : MulParts F) (t : Expr F) : Res (MulParts F) :=
  foldRes (mulTerm K lic) p (flatMul t)

/-- State of the loop of `create_multiplication`: coefficient and operands so far. -/
abbrev CreateSt (F : Type) := Coeff F × List (Expr F)

/-- One iteration of the loop of `create_multiplication` on the simplified power, `multiplication.cc:213-229`. -/
def collectPower (st : CreateSt F) (pw : Expr F) : Res (CreateSt F) :=
  if hasNumericCoeff pw then
    match numericOf (asCoeffMul pw).1 with
    | none => .ok (st.1, if isInt 1 (asCoeffMul pw).2 then st.2 else st.2 ++ [(asCoeffMul pw).2])
    | some c =>
      match mulCoeff st.1 c with
      | .error e => .error e
      | .ok c' => .ok (c', if isInt 1 (asCoeffMul pw).2 then st.2 else st.2 ++ [(asCoeffMul pw).2])
  else .ok (st.1, st.2 ++ [pw])

/-- The loop body of `create_multiplication`, `multiplication.cc:210-230`. -/
def createStep (K : Ctors F) (st : CreateSt F) (be : Expr F × Expr F) : Res (CreateSt F) :=
  match K.pow be.1 be.2 with
  | .error e => .error e
  | .ok pw => collectPower st pw

/-- `multiplication::multiply_into_addition`, `multiplication.h:81-86`. -/
def mulIntoAdd (K : Ctors F) (ts : List (Expr F)) (c : Expr F) : Res (Expr F) :=
  match mapRes (fun t => K.mul [t, c]) ts with
  | .error e => .error e
  | .ok rs => K.add rs

/-- The end of `create_multiplication`, `multiplication.cc:232-250`. -/
def finishProduct (K : Ctors F) (c : Expr F) (args : List (Expr F)) : Res (Expr F) :=
  if isInt 0 c || isUndef c then .ok c
  else
    match args, isInt 1 c with
    | [.add ts], false => mulIntoAdd K ts c
    | args, true => .ok (maybeNewMul args)
    | args, false => .ok (maybeNewMul (args ++ [c]))

/-- `normalize_coefficients` and `create_multiplication`, `multiplication.cc:188-251`. -/
def createProduct (K : Ctors F) (p : MulParts F) : Res (Expr F) :=
  match foldRes (createStep K) (p.coeff, []) (p.terms.filter (fun be => !isInt 0 be.2)) with
  | .error e => .error e
  | .ok st =>
    match st.1.toExpr with
    | .error e => .error e
    | .ok c => finishProduct K c st.2

/-- `multiplication_parts` filled from the operands and turned back into an expression, `multiplication.h:222-227,244-248`. -/
def productGeneral (K : Ctors F) (lic : Lic F) (ts : List (Expr F)) : Res (Expr F) :=
  match foldRes (mulVisit K lic) ⟨.int 1, []⟩ ts with
  | .error e => .error e
  | .ok p => createProduct K p

/-- `multiplication::from_two_operands`, `multiplication.h:235-249`. -/
def mulTwo (K : Ctors F) (lic : Lic F) (a b : Expr F) : Res (Expr F) :=
  match a, b with
  | .add ts, b => if isNumeric b then mulIntoAdd K ts b else productGeneral K lic [.add ts, b]
  | a, .add ts => if isNumeric a then mulIntoAdd K ts a else productGeneral K lic [a, .add ts]
  | a, b => productGeneral K lic [a, b]

/-- `multiplication::from_operands`, `multiplication.h:203-228`. -/
def mulFrom (K : Ctors F) (lic : Lic F) : List (Expr F) → Res (Expr F)
  | [] => .error .invalidArgument
  | [a] => .ok a
  | [a, b] => mulTwo K lic a b
  | ts => productGeneral K lic ts

/-! ## Tying the knot -/

/-- One more level of nesting. -/
def step (lic : Lic F) (K : Ctors F) : Ctors F where
  add := addFrom K
  mul := mulFrom K lic
  pow := powCreate K lic
  visit := mulVisit K lic

/-- The constructors when the stack has room for `n` nested calls. -/
def ctors (lic : Lic F) : Nat → Ctors F
  | 0 => ⟨fun _ => .error .terminate, fun _ => .error .terminate, fun _ _ => .error .terminate, fun _ _ => .error .terminate⟩
  | n + 1 => step lic (ctors lic n)

end Wf.Sym
