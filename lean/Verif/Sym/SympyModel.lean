import Verif.Sym.RebuildModel

/-!
# Model of the conversions to and from SymPy

A SymPy expression is a tree, as SymPy's constructors make it with `evaluate=False`. (With `evaluate=True` they also simplify.) The pairs of a
`Piecewise` are a flat list `value, condition, value, condition, ...`; the children of a `Derivative` are the function and the variables; the
children of a `Subs` are the expression, the symbols and the values. Matrices are not modelled here. The cache of `Conversions` only saves work.
-/

namespace Wf.Sym

/-- The functions of the SymPy module that the conversions use. -/
inductive SpFn
  | cos | sin | tan | acos | asin | atan | cosh | sinh | tanh | acosh | asinh | atanh | exp | log | Abs | sign | floor | atan2
deriving DecidableEq, Repr

/-- The attribute of the SymPy module under which a function is found. -/
def SpFn.attr : SpFn → String
  | .cos => "cos" | .sin => "sin" | .tan => "tan" | .acos => "acos" | .asin => "asin" | .atan => "atan" | .cosh => "cosh" | .sinh => "sinh"
  | .tanh => "tanh" | .acosh => "acosh" | .asinh => "asinh" | .atanh => "atanh" | .exp => "exp" | .log => "log" | .Abs => "Abs" | .sign => "sign"
  | .floor => "floor" | .atan2 => "atan2"

/-- All of them. -/
def SpFn.all : List SpFn :=
  [.cos, .sin, .tan, .acos, .asin, .atan, .cosh, .sinh, .tanh, .acosh, .asinh, .atanh, .exp, .log, .Abs, .sign, .floor, .atan2]

/-- The classes of relations. -/
inductive SpRel
  | lt | le | gt | ge | eq
deriving DecidableEq, Repr

/-- What SymPy knows of a symbol: the truth of `is_positive`, `is_nonnegative`, `is_real` and `is_complex`, and a number standing for all other
assumptions (`integer=True`, say). -/
structure SpAsm where
  positive : Bool
  nonnegative : Bool
  real : Bool
  complex : Bool
  other : Nat
deriving DecidableEq, Repr

/-- A SymPy `Symbol`: symbols are the same if the names and the assumptions are. -/
structure SpSym where
  name : String
  asm : SpAsm
deriving DecidableEq, Repr

/-- The class of a SymPy object and the data it stores besides its arguments. `applied` is the application of an undefined function, with a flag
that tells whether assumptions were placed on it; `deriv` has the orders of the variables and `subs` the number of symbols. -/
inductive SpHead (F : Type)
  | add | mul | pow | fn (f : SpFn) | max | min | piecewise | deriv (orders : List Nat) | subs (n : Nat)
  | flt (f : F) | integer (n : Int) | rational (p q : Int) | I | E | pi | zoo | nan | true | false
  | rel (r : SpRel) | heaviside | symbol (s : SpSym) | applied (name : String) (assumed : Bool) | unevaluated
deriving DecidableEq, Repr

/-- A SymPy expression. -/
inductive Sp (F : Type)
  | node (h : SpHead F) (args : List (Sp F))
deriving Repr

/-! ## To SymPy -/

/-- Keyword arguments of `symbols`. -/
inductive SpKey
  | positive | nonnegative | real | complex
deriving DecidableEq, Repr

/-- What SymPy deduces from the keyword arguments. -/
def SpAsm.deduce (ks : List SpKey) : SpAsm where
  positive := ks.contains .positive
  nonnegative := ks.contains .positive || ks.contains .nonnegative
  real := ks.contains .positive || ks.contains .nonnegative || ks.contains .real
  complex := ks.contains .positive || ks.contains .nonnegative || ks.contains .real || ks.contains .complex
  other := 0

/-- `get_variable_kwargs`, `sympy_conversion.cc:187-206`. -/
def symbolKwargs : NSet → List SpKey
  | .positive => [.positive]
  | .nonNegative => [.nonnegative]
  | .real => [.real]
  | .complex => [.complex]
  | .unknown => []

/-- Characters that do not separate or expand names in the argument of SymPy's `symbols`. -/
def isSymbolChar (c : Char) : Bool := !c.isWhitespace && c != ',' && c != ':' && c != '\\'

/-- White space is removed at both ends. -/
def strip (l : List Char) : List Char := ((l.dropWhile Char.isWhitespace).reverse.dropWhile Char.isWhitespace).reverse

/-- SymPy's `symbols`: names are separated by commas and white space, and `x:3` is a range. If this is not a single name, the result is a tuple or
an exception, not an expression. (Backslashes protect separators; names with backslashes are not modelled.) -/
def sympySymbols (name : String) : Res String :=
  if (strip name.toList).isEmpty then .error .invalidArgument
  else if (strip name.toList).all isSymbolChar then .ok (String.ofList (strip name.toList))
  else .error .type

/-- The name of the function in SymPy, `sympy_conversion.cc:66-68`. -/
def sympyName (f : BuiltIn) : String := if f = .abs then "Abs" else f.name

/-- `get_sympy_attr`, `sympy_conversion.cc:22-29`, for functions. -/
def sympyAttr (name : String) : Option SpFn := SpFn.all.find? fun f => f.attr == name

/-- `sympy_relational_from_operation`, `sympy_conversion.cc:138-148`. -/
def sympyRel : RelOp → SpRel
  | .lt => .lt
  | .le => .le
  | .eq => .eq

variable {F : Type} [FnOps F] [DecidableEq F]

/-- Conditionals, `sympy_conversion.cc:74-87`, from the node and its converted children. -/
def toSympyCond (c x y : Expr F) (c' x' y' : Sp F) : Res (Sp F) :=
  andThen (relCreate .lt y x) fun r =>
    if identical c r then .ok (.node .max [x', y'])
    else andThen (relCreate .lt x y) fun r =>
      if identical c r then .ok (.node .min [x', y'])
      else .ok (.node .piecewise [x', c', y', .node .true []])

/-- The visitor for each kind of node, `sympy_conversion.cc:56-215`, from the node's children and the converted children. (In a maximum or minimum
the condition is not converted; its operands are.) -/
def toSympyNode (h : Head F) (as : List (Expr F)) (ss : List (Sp F)) : Res (Sp F) :=
  match h, as, ss with
  | .add, _, ss => .ok (.node .add ss)
  | .mul, _, ss => .ok (.node .mul ss)
  | .pow, _, ss => .ok (.node .pow ss)
  | .fn f, _, ss =>
    match sympyAttr (sympyName f) with
    | some g => .ok (.node (.fn g) ss)
    | none => .error .type
  | .bconst b, _, _ => .ok (.node (if b then .true else .false) [])
  | .zoo, _, _ => .ok (.node .zoo [])
  | .cond, [c, x, y], [c', x', y'] => toSympyCond c x y c' x' y'
  | .deriv n, [_, _], [f, x] => .ok (.node (.deriv [n]) [f, x])
  | .flt f, _, _ => .ok (.node (.flt f) [])
  | .imag, _, _ => .ok (.node .I [])
  | .int n, _, _ => .ok (.node (.integer n) [])
  | .iverson, _, [c] => .ok (.node .piecewise [.node (.integer 1) [], c, .node (.integer 0) [], .node .true []])
  | .rat r, _, _ => .ok (.node (.rational r.n r.d) [])
  | .rel op, _, ss => .ok (.node (.rel (sympyRel op)) ss)
  | .subst, [_, _, _], [e, x, p] => .ok (.node (.subs 1) [e, x, p])
  | .const .euler, _, _ => .ok (.node .E [])
  | .const .pi, _, _ => .ok (.node .pi [])
  | .symfn n, _, ss => .ok (.node (.applied n false) ss)
  | .undef, _, _ => .ok (.node .nan [])
  | .uneval, _, ss => .ok (.node .unevaluated ss)
  | .var n s, _, _ => andThen (sympySymbols n) fun name => .ok (.node (.symbol ⟨name, .deduce (symbolKwargs s)⟩) [])
  | _, _, _ => .error .type

mutual
/-- `to_sympy`, `sympy_conversion.py:251-273`, `sympy_conversion.cc:42-44,225-228`, with `evaluate=False`. -/
def toSympy : Expr F → Res (Sp F)
  | .node h as => andThen (toSympys as) fun ss => toSympyNode h as ss
/-- `convert_to_args`, `sympy_conversion.cc:46-54`. -/
def toSympys : List (Expr F) → Res (List (Sp F))
  | [] => .ok []
  | a :: as => andThen (toSympy a) fun s => andThen (toSympys as) fun ss => .ok (s :: ss)
end

/-! ## From SymPy -/

/-- The functions of `type_map`, `sympy_conversion.py:41-58`. -/
def fromSympyFn : SpFn → BuiltIn
  | .cos => .cos | .sin => .sin | .tan => .tan | .acos => .arccos | .asin => .arcsin | .atan => .arctan | .cosh => .cosh | .sinh => .sinh
  | .tanh => .tanh | .acosh => .arccosh | .asinh => .arcsinh | .atanh => .arctanh | .log => .log | .exp => .exp | .Abs => .abs | .sign => .signum
  | .floor => .floor | .atan2 => .arctan2

/-- `convert_symbol`, `sympy_conversion.py:91-107`, with `create_symbol`, `scalar_wrapper.cc:100-105`. -/
def fromSympySymbol (s : SpSym) : Res (Expr F) :=
  if s.name.isEmpty then .error .invalidArgument
  else .ok (.var s.name
    (if s.asm.positive then .positive else if s.asm.nonnegative then .nonNegative else if s.asm.real then .real
     else if s.asm.complex then .complex else .unknown))

/-- The relations of `type_map`, `sympy_conversion.py:59-63`; `>` and `>=` exchange the operands, `expression.cc:125-127,133-135`. -/
def fromSympyRel : SpRel → Expr F → Expr F → Res (Expr F)
  | .lt, a, b => relCreate .lt a b
  | .le, a, b => relCreate .le a b
  | .gt, a, b => relCreate .lt b a
  | .ge, a, b => relCreate .le b a
  | .eq, a, b => relCreate .eq a b

/-- `convert_heaviside`, `sympy_conversion.py:139-145`. -/
def fromHeaviside (x h : Expr F) : Res (Expr F) :=
  andThen (relCreate .lt (.int 0) x) fun p => andThen (relCreate .lt x (.int 0)) fun n => .ok (condCreate p (.int 1) (condCreate n (.int 0) h))

/-- The loop of `convert_derivative`, `sympy_conversion.py:154-157`. -/
def fromDerivative : Expr F → List (Expr F × Nat) → Res (Expr F)
  | e, [] => .ok e
  | e, (x, n) :: l => andThen (derivCreate e x n) fun d => fromDerivative d l

/-- The loop of `convert_subs`, `sympy_conversion.py:163-168`. -/
def fromSubs : Expr F → List (Expr F × Expr F) → Res (Expr F)
  | e, [] => .ok e
  | e, (x, p) :: l => andThen (substCreate e x p) fun s => fromSubs s l

/-- `sym.rational`, `scalar_wrapper.cc:317-325`. The arguments have to fit in 64 bits. -/
def fromRational (p q : Int) : Res (Expr F) :=
  if InI64 p ∧ InI64 q then
    if q = 0 then .error .arithmetic else andThen (ratMk p q) ratExpr
  else .error .type

/-- The converters of `value_map`, `type_map` and `custom_converters`, `sympy_conversion.py:22-79`, and `convert_applied_undef`, `170-178`, from the
converted arguments. -/
def fromSympyNode (K : Ctors F) (m : Nat) (h : SpHead F) (bs : List (Expr F)) : Res (Expr F) :=
  match h, bs with
  | .add, bs => K.add bs
  | .mul, bs => K.mul bs
  | .pow, bs => rebuild K m .pow bs
  | .fn f, bs => rebuild K m (.fn (fromSympyFn f)) bs
  | .max, [a, b] => maxFn a b
  | .min, [a, b] => minFn a b
  | .deriv ns, e :: xs => fromDerivative e (xs.zip ns)
  | .subs n, e :: l => fromSubs e ((l.take n).zip (l.drop n))
  | .flt f, _ => .ok (floatExpr f)
  | .integer n, _ => if InI64 n then .ok (.int n) else .error .type
  | .rational p q, _ => fromRational p q
  | .I, _ => .ok .imag
  | .E, _ => .ok (.const .euler)
  | .pi, _ => .ok (.const .pi)
  | .zoo, _ => .ok .zoo
  | .nan, _ => .ok .undef
  | .true, _ => .ok (.bconst true)
  | .false, _ => .ok (.bconst false)
  | .rel r, [a, b] => fromSympyRel r a b
  | .heaviside, [x, h] => fromHeaviside x h
  | .symbol s, _ => fromSympySymbol s
  | .applied n assumed, bs => if assumed then .error .type else .ok (.symfn n bs)
  | .unevaluated, [x] => .ok (unevalCreate x)
  | _, _ => .error .type

/-- The values of a `Piecewise` are one and zero, `sympy_conversion.py:117-121`. -/
def isIversonPiece : List (Sp F) → Bool
  | [.node (.integer a) [], _, .node (.integer b) [], _] => a == 1 && b == 0
  | _ => false

mutual
/-- `Conversions.__call__` and `_convert_expr`, `sympy_conversion.py:180-224`. -/
def fromSympy (K : Ctors F) (m : Nat) : Sp F → Res (Expr F)
  | .node .piecewise ss => if isIversonPiece ss then andThen (fromSecond K m ss) fun c => .ok (iversonFn c) else fromPieces K m ss
  | .node h ss => andThen (fromSympys K m ss) fun bs => fromSympyNode K m h bs
/-- The conversion of several arguments. -/
def fromSympys (K : Ctors F) (m : Nat) : List (Sp F) → Res (List (Expr F))
  | [] => .ok []
  | s :: ss => andThen (fromSympy K m s) fun b => andThen (fromSympys K m ss) fun bs => .ok (b :: bs)
/-- The condition of the first pair. -/
def fromSecond (K : Ctors F) (m : Nat) : List (Sp F) → Res (Expr F)
  | _ :: c :: _ => fromSympy K m c
  | _ => .error .type
/-- `convert_piecewise`, `sympy_conversion.py:123-126`: the last condition is not looked at. -/
def fromPieces (K : Ctors F) (m : Nat) : List (Sp F) → Res (Expr F)
  | [v, _] => fromSympy K m v
  | v :: c :: rest =>
    andThen (fromPieces K m rest) fun out => andThen (fromSympy K m c) fun c' => andThen (fromSympy K m v) fun v' => .ok (condCreate c' v' out)
  | _ => .error .type
end

end Wf.Sym
