import Verif.Sym.CtorModel

/-!
# Model of `functions.cc`, `relational.cc`, `conditional.cc`

The functions call each other (`cos` calls `cosh` and itself). As for the constructors, each body calls an argument `R`, and `fns K n` is the
body iterated `n` times: `n` is the depth of nested calls.
-/

namespace Wf.Sym

/-- The floating point operations used by the functions. -/
class FnOps (F : Type) extends FloatOps F where
  /-- `compare_int_float`, `integer_utils.h:94`: the order of the integer relative to the float; nothing for a NaN -/
  cmpInt : Int → F → Option Ordering
  /-- `std::atan2` -/
  atan2 : F → F → F
  /-- `static_cast<std::int64_t>(std::floor(f))` -/
  floorI64 : F → Res Int

variable {F : Type} [FnOps F] [DecidableEq F]

/-! ## Pieces -/

/-- Unary minus, `expression.cc:78-80`: the product with minus one. -/
def negE (K : Ctors F) (x : Expr F) : Res (Expr F) := K.mul [.int (-1), x]

/-- Division, `expression.cc:116-119`. -/
def divE (K : Ctors F) (a b : Expr F) : Res (Expr F) :=
  match K.pow b (.int (-1)) with
  | .error e => .error e
  | .ok p => K.mul [a, p]

mutual
/-- `is_negative_number`, `utility_visitors.cc:31-51`. -/
def isNegNum : Expr F → Bool
  | .node h as =>
    match h with
    | .int n => decide (n < 0)
    | .rat r => ratIsNegative r
    | .flt f => fltIsNeg f
    | .mul => decide (countNeg as % 2 = 1)
    | _ => false
/-- The number of factors that are negative numbers. -/
def countNeg : List (Expr F) → Nat
  | [] => 0
  | a :: as => (if isNegNum a then 1 else 0) + countNeg as
end

/-- The factors contain the imaginary unit. -/
def hasImag : Expr F → Bool
  | .mul ts => ts.any isImag
  | _ => false

/-- The argument of the swapped function in `maybe_swap_hyperbolic_trig`, `functions.cc:72-87`. -/
def swapArg (K : Ctors F) (x : Expr F) : Res (Option (Expr F)) :=
  if isImag x then .ok (some (.int 1))
  else if hasImag x then
    match divE K x .imag with
    | .error e => .error e
    | .ok y => .ok (some y)
  else .ok none

/-- `try_cast_to_rational`, `functions.cc:89-96`. -/
def tryRat : Expr F → Option RatC
  | .rat r => some r
  | .int n => some (ratOfInt n)
  | _ => none

/-- The argument is a rational multiple of pi. -/
def piCoeff (x : Expr F) : Option RatC := if isConst .pi (asCoeffMul x).2 then tryRat (asCoeffMul x).1 else none

/-- A function of a rational multiple of pi that is not in the table: `make_expr<…>(f, scalar_expr(r) * constants::pi)`. -/
def fnOfPi (K : Ctors F) (f : BuiltIn) (r : RatC) : Res (Expr F) :=
  match ratExpr r with
  | .error e => .error e
  | .ok c =>
    match K.mul [c, .const .pi] with
    | .error e => .error e
    | .ok x => .ok (.fn f [x])

/-- The end of most functions: evaluate floats, reject infinity and undefined, else make a node. -/
def finishFn (K : Ctors F) (f : BuiltIn) (x : Expr F) : Res (Expr F) :=
  match complexCast x with
  | some c => fromComplex K (FloatOps.complexFn f c.1 c.2)
  | none => if isZoo x || isUndef x then .ok .undef else .ok (.fn f [x])

/-- Apply a function and multiply by a factor. -/
def timesCall (K : Ctors F) (c : Expr F) (r : Res (Expr F)) : Res (Expr F) :=
  match r with
  | .error e => .error e
  | .ok y => K.mul [c, y]

/-- `f(-x)` -/
def callNeg (K : Ctors F) (R : BuiltIn → Expr F → Res (Expr F)) (f : BuiltIn) (x : Expr F) : Res (Expr F) :=
  match negE K x with
  | .error e => .error e
  | .ok y => R f y

/-- `constants::pi / n` -/
def piOver (K : Ctors F) (n : Int) : Res (Expr F) := divE K (.const .pi) (.int n)

/-! ## Trigonometric functions -/

/-- The table of `cos`, `functions.cc:105-119`. -/
def cosPi (K : Ctors F) (q : RatC) : Res (Expr F) :=
  match modPi q with
  | .error e => .error e
  | .ok r =>
    if ratIsZero r then .ok (.int 1)
    else if ratIsOne r then .ok (.int (-1))
    else if ratEq r ⟨1, 2⟩ || ratEq r ⟨-1, 2⟩ then .ok (.int 0)
    else fnOfPi K .cos r

/-- The table of `sin`, `functions.cc:149-162`. -/
def sinPi (K : Ctors F) (q : RatC) : Res (Expr F) :=
  match modPi q with
  | .error e => .error e
  | .ok r =>
    if ratIsZero r || ratIsOne r then .ok (.int 0)
    else if ratEq r ⟨1, 2⟩ then .ok (.int 1)
    else if ratEq r ⟨-1, 2⟩ then .ok (.int (-1))
    else fnOfPi K .sin r

/-- `convert_to_tan_range`, `functions.cc:178-186`. -/
def tanRange (r : RatC) : Res RatC :=
  match ratGt r ⟨1, 2⟩ with
  | .error e => .error e
  | .ok true => ratSub r ⟨1, 1⟩
  | .ok false =>
    match ratLt r ⟨-1, 2⟩ with
    | .error e => .error e
    | .ok true => ratAdd ⟨1, 1⟩ r
    | .ok false => .ok r

/-- The table of `tan`, `functions.cc:201-216`. -/
def tanPi (K : Ctors F) (q : RatC) : Res (Expr F) :=
  match modPi q with
  | .error e => .error e
  | .ok r1 =>
    match tanRange r1 with
    | .error e => .error e
    | .ok r =>
      if ratIsZero r then .ok (.int 0)
      else if ratEq r ⟨1, 2⟩ || ratEq r ⟨-1, 2⟩ then .ok .zoo
      else fnOfPi K .tan r

/-- `cos`, `functions.cc:99-138`. -/
def cosFn (K : Ctors F) (R : BuiltIn → Expr F → Res (Expr F)) (x : Expr F) : Res (Expr F) :=
  match swapArg K x with
  | .error e => .error e
  | .ok (some y) => R .cosh y
  | .ok none =>
    match piCoeff x with
    | some r => cosPi K r
    | none =>
      if !isConst .pi (asCoeffMul x).2 && isInt 0 (asCoeffMul x).1 then .ok (.int 1)
      else if isNegNum x then callNeg K R .cos x
      else finishFn K .cos x

/-- `sin`, `functions.cc:140-176`. -/
def sinFn (K : Ctors F) (R : BuiltIn → Expr F → Res (Expr F)) (x : Expr F) : Res (Expr F) :=
  match swapArg K x with
  | .error e => .error e
  | .ok (some y) => timesCall K .imag (R .sinh y)
  | .ok none =>
    match piCoeff x with
    | some r => sinPi K r
    | none =>
      if isInt 0 x then .ok (.int 0)
      else if isNegNum x then timesCall K (.int (-1)) (callNeg K R .sin x)
      else finishFn K .sin x

/-- `tan`, `functions.cc:193-230`. -/
def tanFn (K : Ctors F) (R : BuiltIn → Expr F → Res (Expr F)) (x : Expr F) : Res (Expr F) :=
  match swapArg K x with
  | .error e => .error e
  | .ok (some y) => timesCall K .imag (R .tanh y)
  | .ok none =>
    match piCoeff x with
    | some r => tanPi K r
    | none =>
      if isInt 0 x then .ok (.int 0)
      else if isNegNum x then timesCall K (.int (-1)) (callNeg K R .tan x)
      else finishFn K .tan x

/-! ## Inverse trigonometric functions -/

/-- `acos`, `functions.cc:233-259`. (For a real argument of magnitude at most one the code calls the real function.) -/
def acosFn (K : Ctors F) (x : Expr F) : Res (Expr F) :=
  if isInt 0 x then piOver K 2
  else if isInt 1 x then .ok (.int 0)
  else if isInt (-1) x then .ok (.const .pi)
  else finishFn K .arccos x

/-- `asin`, `functions.cc:261-278`. -/
def asinFn (K : Ctors F) (R : BuiltIn → Expr F → Res (Expr F)) (x : Expr F) : Res (Expr F) :=
  if isInt 0 x then .ok (.int 0)
  else if isInt 1 x then piOver K 2
  else if isInt (-1) x then timesCall K (.int (-1)) (piOver K 2)
  else if isNegNum x then timesCall K (.int (-1)) (callNeg K R .arcsin x)
  else finishFn K .arcsin x

/-- `atan`, `functions.cc:285-302`. -/
def atanFn (K : Ctors F) (R : BuiltIn → Expr F → Res (Expr F)) (x : Expr F) : Res (Expr F) :=
  if isInt 0 x then .ok (.int 0)
  else if isInt 1 x then piOver K 4
  else if isInt (-1) x then timesCall K (.int (-1)) (piOver K 4)
  else if isNegNum x then timesCall K (.int (-1)) (callNeg K R .arctan x)
  else finishFn K .arctan x

/-! ## Hyperbolic functions -/

/-- The end of a hyperbolic function, which cancels its inverse, `functions.cc:314-327,342-356,370-384`. -/
def finishHyp (K : Ctors F) (f inv : BuiltIn) (x : Expr F) : Res (Expr F) :=
  match complexCast x with
  | some c => fromComplex K (FloatOps.complexFn f c.1 c.2)
  | none =>
    if isZoo x || isUndef x then .ok .undef
    else
      match x with
      | .fn g [y] => if g = inv then .ok y else .ok (.fn f [x])
      | _ => .ok (.fn f [x])

/-- `cosh`, `functions.cc:304-328`. -/
def coshFn (K : Ctors F) (R : BuiltIn → Expr F → Res (Expr F)) (x : Expr F) : Res (Expr F) :=
  match swapArg K x with
  | .error e => .error e
  | .ok (some y) => R .cos y
  | .ok none =>
    if isInt 0 x then .ok (.int 1)
    else if isNegNum x then callNeg K R .cosh x
    else finishHyp K .cosh .arccosh x

/-- `sinh`, `functions.cc:330-357`. -/
def sinhFn (K : Ctors F) (R : BuiltIn → Expr F → Res (Expr F)) (x : Expr F) : Res (Expr F) :=
  match swapArg K x with
  | .error e => .error e
  | .ok (some y) => timesCall K .imag (R .sin y)
  | .ok none =>
    if isInt 0 x then .ok (.int 0)
    else if isNegNum x then timesCall K (.int (-1)) (callNeg K R .sinh x)
    else finishHyp K .sinh .arcsinh x

/-- `tanh`, `functions.cc:359-385`. -/
def tanhFn (K : Ctors F) (R : BuiltIn → Expr F → Res (Expr F)) (x : Expr F) : Res (Expr F) :=
  match swapArg K x with
  | .error e => .error e
  | .ok (some y) => timesCall K .imag (R .tan y)
  | .ok none =>
    if isInt 0 x then .ok (.int 0)
    else if isNegNum x then timesCall K (.int (-1)) (callNeg K R .tanh x)
    else finishHyp K .tanh .arctanh x

/-- `acosh`, `functions.cc:388-400`: zero is `i * pi / 2`. -/
def acoshFn (K : Ctors F) (x : Expr F) : Res (Expr F) :=
  if isInt 0 x then
    match K.mul [.imag, .const .pi] with
    | .error e => .error e
    | .ok m => divE K m (.int 2)
  else finishFn K .arccosh x

/-- `asinh`, `functions.cc:402-415`. -/
def asinhFn (K : Ctors F) (x : Expr F) : Res (Expr F) := if isInt 0 x then .ok (.int 0) else finishFn K .arcsinh x

/-- `atanh`, `functions.cc:417-429`. -/
def atanhFn (K : Ctors F) (x : Expr F) : Res (Expr F) := if isInt 0 x then .ok (.int 0) else finishFn K .arctanh x

/-! ## Logarithm, absolute value, sign, floor -/

/-- `log`, `functions.cc:33-53`. -/
def logFn (K : Ctors F) (x : Expr F) : Res (Expr F) :=
  if isConst .euler x then .ok (.int 1)
  else if isInt 1 x then .ok (.int 0)
  else if isInt 0 x then .ok .undef
  else finishFn K .log x

/-- The absolute value of a rational, `functions.cc:492-499`. -/
def absRat (x : Expr F) (r : RatC) : Res (Expr F) :=
  if 0 ≤ r.n then .ok x
  else
    match cneg r.n with
    | .error e => .error e
    | .ok n =>
      match ratMk n r.d with
      | .error e => .error e
      | .ok q => ratExpr q

/-- `abs`, `functions.cc:485-524`. (The doubles of all symbolic constants are positive.) -/
def absFn (K : Ctors F) (x : Expr F) : Res (Expr F) :=
  match x with
  | .fn .abs as => .ok (.fn .abs as)
  | x =>
    match tryRat x with
    | some r => absRat x r
    | none =>
      match complexCast x with
      | some c => fromComplex K (FloatOps.complexFn .abs c.1 c.2)
      | none =>
        match x with
        | .const c => .ok (.const c)
        | x => if isZoo x || isUndef x then .ok .undef else .ok (.fn .abs [x])

/-- `sign`, `functions.cc:531-534`. -/
def signInt (n : Int) : Int := if 0 < n then 1 else if n < 0 then -1 else 0
@[inherit_doc signInt] def signFlt (f : F) : Int := if fltIsPos f then 1 else if fltIsNeg f then -1 else 0

/-- `signum`, `functions.cc:529-582`. (Infinity is not treated.) -/
def signumFn (x : Expr F) : Res (Expr F) :=
  match x with
  | .int n => .ok (.int (signInt n))
  | .rat r => .ok (.int (signInt r.n))
  | .flt f => if FloatOps.isNan f then .ok (.fn .signum [.flt f]) else .ok (.int (signFlt f))
  | .const _ => .ok (.int 1)
  | .fn .signum as => .ok (.fn .signum as)
  | .undef => .ok .undef
  | x => .ok (.fn .signum [x])

/-- The integer part of the double of a symbolic constant, `functions.cc:619-622`. -/
def SymConst.floor : SymConst → Int
  | .euler => 2
  | .pi => 3

/-- `floor`, `functions.cc:584-641`. -/
def floorFn (x : Expr F) : Res (Expr F) :=
  match x with
  | .int n => .ok (.int n)
  | .rat r =>
    match ratNormalized r with
    | .error e => .error e
    | .ok p => .ok (.int (if ratIsNegative r then p.1 - 1 else p.1))
  | .flt f =>
    if FloatOps.isNan f then .ok (.fn .floor [.flt f])
    else
      match FnOps.floorI64 f with
      | .error e => .error e
      | .ok n => .ok (.int n)
  | .fn .floor as => .ok (.fn .floor as)
  | .const c => .ok (.int c.floor)
  | .zoo => .ok .zoo
  | .undef => .ok .undef
  | x => .ok (.fn .floor [x])

/-! ## The functions of one argument -/

/-- The body of each function. -/
def fnStep (K : Ctors F) (R : BuiltIn → Expr F → Res (Expr F)) : BuiltIn → Expr F → Res (Expr F)
  | .cos, x => cosFn K R x
  | .sin, x => sinFn K R x
  | .tan, x => tanFn K R x
  | .arccos, x => acosFn K x
  | .arcsin, x => asinFn K R x
  | .arctan, x => atanFn K R x
  | .cosh, x => coshFn K R x
  | .sinh, x => sinhFn K R x
  | .tanh, x => tanhFn K R x
  | .arccosh, x => acoshFn K x
  | .arcsinh, x => asinhFn K x
  | .arctanh, x => atanhFn K x
  | .exp, x => expFn K x
  | .log, x => logFn K x
  | .abs, x => absFn K x
  | .signum, x => signumFn x
  | .floor, x => floorFn x
  | .arctan2, _ => .error .assertion

/-- The functions, with calls nested at most `n` deep. -/
def fns (K : Ctors F) : Nat → BuiltIn → Expr F → Res (Expr F)
  | 0, _, _ => .error .terminate
  | n + 1, f, x => fnStep K (fns K n) f x

/-! ## `atan2` -/

/-- The solutions for equal magnitudes, `functions.cc:452-458`: `± pi/4`, `± 3 pi/4`. -/
def quadrant (K : Ctors F) (yneg xneg : Bool) : Res (Expr F) :=
  match yneg, xneg with
  | false, false => piOver K 4
  | false, true =>
    match K.mul [.int 3, .const .pi] with
    | .error e => .error e
    | .ok m => divE K m (.int 4)
  | true, false =>
    match negE K (.const .pi) with
    | .error e => .error e
    | .ok m => divE K m (.int 4)
  | true, true =>
    match K.mul [.int (-3), .const .pi] with
    | .error e => .error e
    | .ok m => divE K m (.int 4)

/-- `atan2` of integers, `functions.cc:437-460`. -/
def atan2Int (K : Ctors F) (y x : Int) : Res (Option (Expr F)) :=
  if y = 0 ∧ x = 1 then .ok (some (.int 0))
  else if y = 1 ∧ x = 0 then
    match piOver K 2 with
    | .error e => .error e
    | .ok r => .ok (some r)
  else if y = 0 ∧ x = -1 then .ok (some (.const .pi))
  else if y = -1 ∧ x = 0 then
    match timesCall K (.int (-1)) (piOver K 2) with
    | .error e => .error e
    | .ok r => .ok (some r)
  else
    match cabs y with
    | .error e => .error e
    | .ok a =>
      match cabs x with
      | .error e => .error e
      | .ok b =>
        if a = b ∧ x ≠ 0 then
          match quadrant K (decide (y < 0)) (decide (x < 0)) with
          | .error e => .error e
          | .ok r => .ok (some r)
        else .ok none

/-- `atan2_visitor`, `functions.cc:432-470`. -/
def atan2Simplify (K : Ctors F) (y x : Expr F) : Res (Option (Expr F)) :=
  if isZoo y || isZoo x || isUndef y || isUndef x then .ok (some .undef)
  else
    match y, x with
    | .flt a, .flt b => .ok (some (floatExpr (FnOps.atan2 a b)))
    | .int a, .int b => atan2Int K a b
    | _, _ => .ok none

/-- `atan2`, `functions.cc:472-478`. -/
def atan2Fn (K : Ctors F) (y x : Expr F) : Res (Expr F) :=
  match atan2Simplify K y x with
  | .error e => .error e
  | .ok (some r) => .ok r
  | .ok none => .ok (.fn .arctan2 [y, x])

/-! ## Relations, conditionals, maximum and minimum -/

/-- `M_E` and `M_PI`: `double_from_symbolic_constant`, `special_constants.h:33-41`. -/
def SymConst.dbl : SymConst → ℚ
  | .euler => 6121026514868073 / 2251799813685248
  | .pi => 884279719003555 / 281474976710656

/-- `CompareNumerics`, `relational.cc:13-59`: is the first less than the second? Nothing if the pair is not compared. -/
def numLt (a b : Expr F) : Option (Res Bool) :=
  match a, b with
  | .int x, .int y => some (ratLt (ratOfInt x) (ratOfInt y))
  | .int x, .rat y => some (ratLt (ratOfInt x) y)
  | .rat x, .int y => some (ratLt x (ratOfInt y))
  | .rat x, .rat y => some (ratLt x y)
  | .int x, .const c => some (.ok (decide ((x : ℚ) < c.dbl)))
  | .const c, .int y => some (.ok (decide (c.dbl < (y : ℚ))))
  | .const c, .const d => some (.ok (decide (c.dbl < d.dbl)))
  | .flt x, .flt y => some (.ok (FloatCmp.lt x y))
  | .int x, .flt y =>
    match FnOps.cmpInt x y with
    | none => some (.error .assertion)
    | some o => some (.ok (decide (o = .lt)))
  | .flt x, .int y =>
    match FnOps.cmpInt y x with
    | none => some (.error .assertion)
    | some o => some (.ok (decide (o = .gt)))
  | _, _ => none

/-- The truth of a relation from the two strict comparisons, `relational.cc:78-92`. -/
def relOf : RelOp → Bool → Bool → Bool
  | .lt, ab, _ => ab
  | .eq, ab, ba => !ab && !ba
  | .le, ab, ba => ab || !ba

/-- `RelationalSimplification`, `relational.cc:74-98`. -/
def relSimplify (op : RelOp) (a b : Expr F) : Res (Option Bool) :=
  match numLt a b, numLt b a with
  | some (.ok ab), some (.ok ba) => .ok (some (relOf op ab ba))
  | some (.error e), _ => .error e
  | _, some (.error e) => .error e
  | _, _ => .ok none

/-- The operands of an equality in canonical order, `relational.cc:116-121`. -/
def relNode (op : RelOp) (a b : Expr F) : Res (Expr F) :=
  match op with
  | .eq =>
    match order a b with
    | .error e => .error e
    | .ok .lt => .ok (.rel .eq a b)
    | .ok _ => .ok (.rel .eq b a)
  | op => .ok (.rel op a b)

/-- `relational::create`, `relational.cc:100-124`. -/
def relCreate (op : RelOp) (a b : Expr F) : Res (Expr F) :=
  if isZoo a || isZoo b || isUndef a || isUndef b then .error .type
  else
    match relSimplify op a b with
    | .error e => .error e
    | .ok (some t) => .ok (.bconst t)
    | .ok none => relNode op a b

/-- `conditional::create`, `conditional.cc:10-23`. -/
def condCreate (c a b : Expr F) : Expr F :=
  if identical c (.bconst true) then a
  else if identical c (.bconst false) then b
  else if identical a b then a
  else .cond c a b

/-- `max`, `functions.cc:646`. -/
def maxFn (a b : Expr F) : Res (Expr F) :=
  match relCreate .lt a b with
  | .error e => .error e
  | .ok c => .ok (condCreate c b a)

/-- `min`, `functions.cc:647`. -/
def minFn (a b : Expr F) : Res (Expr F) :=
  match relCreate .lt b a with
  | .error e => .error e
  | .ok c => .ok (condCreate c b a)

/-- `iverson`, `functions.cc:676-686`. -/
def iversonFn (c : Expr F) : Expr F :=
  match c with
  | .bconst true => .int 1
  | .bconst false => .int 0
  | c => .iverson c

end Wf.Sym
