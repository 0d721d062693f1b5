import Verif.Sym.SubstituteModel

/-!
# Model of differentiation

`derivative_visitor`, `derivative.cc`. The derivative of a node is computed from the node, its children and their derivatives. The cache is left
out: it only saves work. Not modelled: symbolic function invocations and substitutions that are not carried out; for these the visitor calls a
parameter.
-/

namespace Wf.Sym

variable {F : Type} [FnOps F] [DecidableEq F]

/-- `non_differentiable_behavior`, `enumerations.h:131-138`. -/
inductive NonDiff
  | constant | abstract
deriving DecidableEq

/-- What stays fixed: the constructors, `argument_`, `non_diff_behavior_`, and the rules that are not modelled. -/
structure DiffCfg (F : Type) where
  K : Ctors F
  m : Nat
  arg : Expr F
  beh : NonDiff
  other : Expr F → List (Expr F) → Res (Expr F)

/-- `derivative::create(expr, argument_, 1)` or zero, `derivative.cc:64-68,201-205,209-213,240-244`. -/
def diffKink (D : DiffCfg F) (e : Res (Expr F)) : Res (Expr F) :=
  match D.beh with
  | .abstract => andThen e fun e => derivCreate e D.arg 1
  | .constant => .ok (.int 0)

/-- `scalar_expr(1) / 2` -/
def oneHalf (K : Ctors F) : Res (Expr F) := divE K (.int 1) (.int 2)
/-- `-scalar_expr(1) / 2` -/
def negOneHalf (K : Ctors F) : Res (Expr F) := andThen (negE K (.int 1)) fun n => divE K n (.int 2)

/-- The terms of the product rule, `derivative.cc:115-125`: `pre` are the factors before this one. -/
def productTerms (K : Ctors F) : List (Expr F) → List (Expr F) → List (Expr F) → Res (List (Expr F))
  | pre, t :: ts, d :: ds =>
    if isInt 0 d then productTerms K (pre ++ [t]) ts ds
    else andThen (K.mul (d :: (pre ++ ts))) fun p => andThen (productTerms K (pre ++ [t]) ts ds) fun ps => .ok (p :: ps)
  | _, _, _ => .ok []

/-- `derivative_visitor::operator()(const multiplication&)`, `derivative.cc:107-131`. -/
def diffProduct (K : Ctors F) (ts ds : List (Expr F)) : Res (Expr F) :=
  andThen (productTerms K [] ts ds) fun ps =>
    match ps with
    | [] => .ok (.int 0)
    | ps => K.add ps

/-- `1 - a ** 2` -/
def oneMinusSquare (K : Ctors F) (a : Expr F) : Res (Expr F) := andThen (K.pow a (.int 2)) fun s => subE K (.int 1) s
/-- `a ** 2 + 1` -/
def squarePlusOne (K : Ctors F) (a : Expr F) : Res (Expr F) := andThen (K.pow a (.int 2)) fun s => K.add [s, .int 1]

/-- The rule for a function `func` of one argument `a` with derivative `d`, `derivative.cc:147-214`. -/
def diffFn1 (D : DiffCfg F) (func : Expr F) (f : BuiltIn) (a d : Expr F) : Res (Expr F) :=
  match f with
  | .cos => andThen (fns D.K D.m .sin a) fun s => andThen (negE D.K s) fun n => D.K.mul [n, d]
  | .sin => andThen (fns D.K D.m .cos a) fun c => D.K.mul [c, d]
  | .tan => andThen (fns D.K D.m .cos a) fun c => andThen (D.K.pow c (.int (-2))) fun p => D.K.mul [p, d]
  | .arccos => andThen (oneMinusSquare D.K a) fun s => andThen (negOneHalf D.K) fun h => andThen (D.K.pow s h) fun p =>
      andThen (negE D.K p) fun n => D.K.mul [n, d]
  | .arcsin => andThen (oneMinusSquare D.K a) fun s => andThen (negOneHalf D.K) fun h => andThen (D.K.pow s h) fun p => D.K.mul [p, d]
  | .arctan => andThen (squarePlusOne D.K a) fun s => divE D.K d s
  | .cosh => andThen (fns D.K D.m .sinh a) fun s => D.K.mul [d, s]
  | .sinh => andThen (fns D.K D.m .cosh a) fun c => D.K.mul [d, c]
  | .tanh => andThen (oneMinusSquare D.K func) fun s => D.K.mul [s, d]
  | .arccosh => andThen (oneHalf D.K) fun h => andThen (D.K.add [a, .int 1]) fun p => andThen (D.K.pow p h) fun p' =>
      andThen (subE D.K a (.int 1)) fun q => andThen (D.K.pow q h) fun q' => andThen (D.K.mul [p', q']) fun s =>
      andThen (D.K.pow s (.int (-1))) fun i => D.K.mul [i, d]
  | .arcsinh => andThen (squarePlusOne D.K a) fun s => andThen (negOneHalf D.K) fun h => andThen (D.K.pow s h) fun p => D.K.mul [p, d]
  | .arctanh => andThen (oneMinusSquare D.K a) fun s => andThen (D.K.pow s (.int (-1))) fun p => D.K.mul [p, d]
  | .exp => D.K.mul [func, d]
  | .log => andThen (D.K.pow a (.int (-1))) fun p => D.K.mul [p, d]
  | .abs => andThen (fns D.K D.m .abs a) fun b => andThen (divE D.K a b) fun q => D.K.mul [q, d]
  | .signum => diffKink D (fns D.K D.m .signum a)
  | .floor => diffKink D (fns D.K D.m .floor a)
  | .arctan2 => .error .assertion

/-- `-(y * x') / s + (x * y') / s` where `s = y * y + x * x`, `derivative.cc:215-224`. -/
def diffAtan2 (K : Ctors F) (y x dy dx : Expr F) : Res (Expr F) :=
  andThen (K.mul [y, y]) fun yy => andThen (K.mul [x, x]) fun xx => andThen (K.add [yy, xx]) fun s =>
  andThen (K.mul [y, dx]) fun a => andThen (negE K a) fun na => andThen (divE K na s) fun p =>
  andThen (K.mul [x, dy]) fun b => andThen (divE K b s) fun q => K.add [p, q]

/-- `derivative_visitor::operator()(const built_in_function_invocation&)`, `derivative.cc:134-227`. -/
def diffFn (D : DiffCfg F) (func : Expr F) (f : BuiltIn) (as ds : List (Expr F)) : Res (Expr F) :=
  if ds.all (isInt 0) then .ok (.int 0)
  else
    match as, ds with
    | [a], [d] => diffFn1 D func f a d
    | [y, x], [dy, dx] => if f = .arctan2 then diffAtan2 D.K y x dy dx else .error .assertion
    | _, _ => .error .assertion

/-- `derivative_visitor::operator()(const power&)`, `derivative.cc:257-267`. -/
def diffPow (K : Ctors F) (m : Nat) (b e db de : Expr F) : Res (Expr F) :=
  if isInt 0 db && isInt 0 de then .ok (.int 0)
  else
    andThen (subE K e (.int 1)) fun e1 => andThen (K.pow b e1) fun p => andThen (K.mul [e, p]) fun q => andThen (K.mul [q, db]) fun l =>
    andThen (K.pow b e) fun p' => andThen (fns K m .log b) fun g => andThen (K.mul [p', g]) fun q' => andThen (K.mul [q', de]) fun r =>
    K.add [l, r]

mutual
/-- `is_function_of`, `utility_visitors.cc:95-115`: a node of the type of the target is compared with it, and its children are not visited. -/
def isFunctionOf (target : Expr F) : Expr F → Bool
  | .node h as => if h.rank = target.head.rank then identical (.node h as) target else anyFunctionOf target as
@[inherit_doc isFunctionOf] def anyFunctionOf (target : Expr F) : List (Expr F) → Bool
  | [] => false
  | a :: as => isFunctionOf target a || anyFunctionOf target as
end

/-- `derivative_visitor::operator()(const derivative&)`, `derivative.cc:83-100`. -/
def diffDeriv (D : DiffCfg F) (e f : Expr F) : Res (Expr F) :=
  if identical e D.arg then .ok (.int 1)
  else if isFunctionOf D.arg f = false then .ok (.int 0)
  else if D.arg.head.rank = (Head.symfn "" : Head F).rank && identical f D.arg then .ok (.int 0)
  else derivCreate e D.arg 1

/-- The derivative of a node, given the derivatives of all children and of the branches of a conditional. -/
def diffNode (D : DiffCfg F) (h : Head F) (as : List (Expr F)) (kids branches : Unit → Res (List (Expr F))) : Res (Expr F) :=
  match h with
  | .flt _ | .int _ | .rat _ | .const _ | .zoo | .imag => .ok (.int 0)
  | .undef => .ok .undef
  | .var _ _ | .argVar _ _ _ | .uniq _ _ => .ok (.int (if identical (.node h as) D.arg then 1 else 0))
  | .add => andThen (kids ()) D.K.add
  | .mul => andThen (kids ()) (diffProduct D.K as)
  | .pow => andThen (kids ()) fun ds =>
      match as, ds with
      | [b, e], [db, de] => diffPow D.K D.m b e db de
      | _, _ => .error .assertion
  | .fn f => andThen (kids ()) (diffFn D (.node h as) f as)
  | .cond => andThen (branches ()) fun ds =>
      match as, ds with
      | [c, _, _], [da, db] => .ok (condCreate c da db)
      | _, _ => .error .assertion
  | .uneval => andThen (kids ()) fun ds =>
      match ds with
      | [d] => .ok (unevalCreate d)
      | _ => .error .assertion
  | .stop => .ok (.int 0)
  | .iverson => diffKink D (.ok (.node h as))
  | .elem _ => if identical (.node h as) D.arg then .ok (.int 1) else diffKink D (.ok (.node h as))
  | .deriv _ =>
      match as with
      | [f, _] => diffDeriv D (.node h as) f
      | _ => .error .assertion
  | _ => andThen (kids ()) (D.other (.node h as))

mutual
/-- `derivative_visitor`, `derivative.cc:46-403`. -/
def diffE (D : DiffCfg F) : Expr F → Res (Expr F)
  | .node h as => diffNode D h as (fun _ => diffs D as) (fun _ => diffTail D as)
/-- The derivatives of several expressions. -/
def diffs (D : DiffCfg F) : List (Expr F) → Res (List (Expr F))
  | [] => .ok []
  | a :: as => andThen (diffE D a) fun d => andThen (diffs D as) fun ds => .ok (d :: ds)
/-- The derivatives of all but the first. -/
def diffTail (D : DiffCfg F) : List (Expr F) → Res (List (Expr F))
  | [] => .ok []
  | _ :: as => diffs D as
end

/-- The check in the constructor of `derivative_visitor`, `derivative.cc:23-44`. -/
def diffArgOk : Expr F → Bool
  | .node (.symfn _) _ | .node (.elem _) _ => true
  | .deriv (.symfn _ _) _ _ => true
  | e => e.head.isVar

/-- The loop of `diff`, `derivative.cc:405-416`. -/
def diffTimes (D : DiffCfg F) : Nat → Expr F → Res (Expr F)
  | 0, e => .ok e
  | n + 1, e => andThen (diffE D e) (diffTimes D n)

/-- `diff`, `derivative.cc:405-416`. -/
def diff (D : DiffCfg F) (e : Expr F) (reps : Int) : Res (Expr F) :=
  if reps < 0 then .error .invalidArgument
  else if diffArgOk D.arg then diffTimes D reps.toNat e
  else .error .type

/-- The rows of one column, `derivative.cc:440-442`: `result_span(row, col)` of a row-major span is the element `row * cols + col`. -/
def jacobianRows (D : DiffCfg F) (cols col : Nat) : Nat → List (Expr F) → List (Expr F) → Res (List (Expr F))
  | _, [], buf => .ok buf
  | row, f :: fs, buf => andThen (diffE D f) fun d => jacobianRows D cols col (row + 1) fs (buf.set (row * cols + col) d)

/-- The columns, `derivative.cc:437-443`; `cfg` makes the visitor for a variable. -/
def jacobianCols (cfg : Expr F → DiffCfg F) (cols : Nat) (fs : List (Expr F)) : Nat → List (Expr F) → List (Expr F) → Res (List (Expr F))
  | _, [], buf => .ok buf
  | col, v :: vs, buf =>
    if diffArgOk v then andThen (jacobianRows (cfg v) cols col 0 fs buf) (jacobianCols cfg cols fs (col + 1) vs) else .error .type

/-- `jacobian`, `derivative.cc:418-447`: the number of rows and columns, and the elements. -/
def jacobian (cfg : Expr F → DiffCfg F) (fs vs : List (Expr F)) : Res (Nat × Nat × List (Expr F)) :=
  if fs.isEmpty then .error .dimension
  else if vs.isEmpty then .error .dimension
  else (jacobianCols cfg vs.length fs 0 vs (List.replicate (fs.length * vs.length) (.int 0))).map fun buf => (fs.length, vs.length, buf)

end Wf.Sym
