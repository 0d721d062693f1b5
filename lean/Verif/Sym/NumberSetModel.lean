import Verif.Sym.CtorModel

/-! # Model of `number_set.cc`: which set of numbers an expression belongs to -/

namespace Wf.Sym

variable {F : Type} [FloatOps F]

/-- `is_non_negative`, `number_set.cc:13-15`. -/
def NSet.isNonNeg : NSet → Bool
  | .positive => true | .nonNegative => true | _ => false

/-- `contains_zero`, `number_set.cc:17-19`. -/
def NSet.containsZero : NSet → Bool
  | .positive => false | _ => true

/-- `is_real_set`, `number_set.h`. -/
def NSet.isReal : NSet → Bool
  | .positive => true | .nonNegative => true | .real => true | _ => false

/-- `std::max` on the enumeration. -/
def NSet.max (a b : NSet) : NSet := if a.index < b.index then b else a

/-- `combine_sets_add`, `number_set.cc:21-31`. -/
def combineAdd (a b : NSet) : NSet :=
  match a, b with
  | .positive, .nonNegative => .positive
  | .nonNegative, .positive => .positive
  | a, b => NSet.max a b

/-- `combine_sets_mul`, `number_set.cc:33-35`. -/
def combineMul (a b : NSet) : NSet := NSet.max a b

/-- `handle_add_or_mul`, `number_set.cc:39-52`. (Stopping early at `unknown` gives the same answer: both rules keep `unknown`.) -/
def combineAll (f : NSet → NSet → NSet) : List NSet → NSet
  | [] => .unknown
  | s :: ss => ss.foldl (fun a b => if a = .unknown then a else f a b) s

/-- `handle_numeric`, `number_set.cc:174-182`. -/
def numericSet (pos neg : Bool) : NSet := if pos then .positive else if !neg then .nonNegative else .real

/-- The rule for a function of one argument (and `atan2`), `number_set.cc:103-168`. -/
def fnSet (f : BuiltIn) (args : List NSet) : NSet :=
  if args.any (fun s => decide (s = .unknown)) then .unknown
  else
    match args with
    | [] => .unknown
    | a :: _ =>
      match f with
      | .cos | .sin => if a.isReal then .real else .complex
      | .tan | .arccos | .arcsin | .arctan | .arccosh | .arcsinh | .arctanh | .arctan2 => .unknown
      | .cosh => if a.isReal then .positive else .unknown
      | .sinh | .tanh => if a.isReal then a else .unknown
      | .log => if a = .positive then .positive else .unknown
      | .exp => if a.isReal then .positive else .unknown
      | .abs => if a = .positive then .positive else .nonNegative
      | .signum => if a.isReal then a else .unknown
      | .floor => if a = .positive then .nonNegative else a

/-- The exponent is an even integer constant, `number_set.cc:217-218`. -/
def isEvenInt : Expr F → Bool
  | .int n => cIsEven n
  | _ => false

/-- The rule for powers, `number_set.cc:203-229`. -/
def powSet (base exp : NSet) (even : Bool) : NSet :=
  if base = .complex ∨ exp = .complex ∨ base = .unknown ∨ exp = .unknown then .unknown
  else if base.containsZero && !exp.isNonNeg then .unknown
  else if base.isReal then
    if even then (if base.containsZero then .nonNegative else .positive)
    else if base.isNonNeg && exp.isNonNeg then base
    else .real
  else .unknown

/-- Second child. -/
def secondArg : List (Expr F) → Option (Expr F)
  | [_, e] => some e
  | _ => none

mutual
/-- `determine_numeric_set`, `number_set.cc:37-272`. (An element of a constructed value takes the set of the member it selects; such an
element is normally replaced by the member when it is made.) -/
def numberSet : Expr F → NSet
  | .node h as =>
    match h with
    | .flt f => numericSet (fltIsPos f) (fltIsNeg f)
    | .int n => numericSet (decide (0 < n)) (decide (n < 0))
    | .rat r => numericSet (ratIsPositive r) (ratIsNegative r)
    | .const _ => .positive
    | .zoo => .unknown
    | .imag => .complex
    | .var _ s => s
    | .argVar _ _ _ => .real
    | .uniq _ s => s
    | .mul => combineAll combineMul (numberSets as)
    | .add => combineAll combineAdd (numberSets as)
    | .pow =>
      match numberSets as with
      | [b, e] => powSet b e ((secondArg as).elim false isEvenInt)
      | _ => .unknown
    | .fn f => fnSet f (numberSets as)
    | .symfn _ => .unknown
    | .uneval => (numberSets as).headD .unknown
    | .cond =>
      match numberSets as with
      | [_, a, b] => NSet.max a b
      | _ => .unknown
    | .iverson => .nonNegative
    | .elem i => elemSet i as
    | .deriv _ => .unknown
    | .subst => .unknown
    | .stop => (numberSets as).headD .unknown
    | .undef => .unknown
    | .rel _ => .nonNegative
    | _ => .unknown
def numberSets : List (Expr F) → List NSet
  | [] => []
  | a :: as => numberSet a :: numberSets as
/-- `number_set.cc:64-85`: a member of an external function's result or of an argument is real. -/
def elemSet (i : Nat) : List (Expr F) → NSet
  | .node (.construct _) ms :: _ => (numberSets ms).getD i .unknown
  | _ => .real
end

/-- The answers of the code to the sign questions of the power rules, `power.cc:367-371,383-386,412`. -/
def codeLic : Lic F where
  mulExp b _ := (numberSet b).isNonNeg
  nonneg t := (numberSet t).isNonNeg
  expReal x := decide (numberSet (.fn .exp [x]) = .positive)
  floatPow _ _ := true

end Wf.Sym
