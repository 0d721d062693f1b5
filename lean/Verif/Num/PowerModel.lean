import Verif.Num.RationalModel
import Verif.Num.IntegerUtilsModel

/-!
# Model of the numeric cases of `expressions/power.{h,cc}`

Floats are not modelled here (`apply_float_and_numeric` calls `std::pow`).
-/

namespace Wf

/-- `factorize_rational_exponent`, `expressions/power.h:51-61`. -/
def factorizeRationalExponent (r : RatC) : Res (Int × RatC) := do
  let i ← cdiv r.n r.d
  let m ← cmod r.n r.d
  let f ← ratMk m r.d
  if r.n ≥ 0 ∨ f.n = 0 then return (i, f)
  else do
    let i' ← csub i 1
    let one ← ratMk 1 1
    let f' ← ratAdd f one
    return (i', f')

/-- An operand of the product returned by `apply_int_and_rational`: a rational coefficient, the imaginary unit, or an
unevaluated power of an integer. -/
inductive PowOperand where
  | coeff (r : RatC)
  | imag
  | pow (base : Int) (exp : RatC)
deriving DecidableEq, Repr

/-- The value returned by the numeric power rules: a number, complex infinity, undefined, or a
product of operands (handed to `multiplication::from_operands`). -/
inductive NumPow where
  | num (r : RatC)
  | zoo
  | undef
  | prod (ops : List PowOperand)
deriving DecidableEq, Repr

/-- `apply_rational_and_int`, `expressions/power.cc:88-106`. -/
def powRatInt (base : RatC) (exp : Int) : Res NumPow :=
  if base.n = 0 ∧ exp < 0 then .ok .zoo
  else if base.n = 0 ∧ exp = 0 then .ok .undef
  else do
    let a ← cabs exp
    let e ← cToU64 a
    let n ← integerPower base.n e
    let d ← integerPower base.d e
    if exp ≥ 0 then do
      let r ← ratMk n d
      return .num r
    else do
      let r ← ratMk d n
      return .num r

/-- `apply_int_and_int`, `expressions/power.cc:69-85`. -/
def powIntInt (base exp : Int) : Res NumPow :=
  if exp < 0 then
    if base = 0 then .ok .zoo
    else do
      let b ← ratMk 1 base
      let e ← cneg exp
      powRatInt b e
  else if base = 0 ∧ exp = 0 then .ok .undef
  else do
    let p ← integerPowerChecked base exp
    return .num ⟨p, 1⟩

/-- An entry of `exp_to_base`: exponent denominator ↦ integer base and exponent,
`expressions/power.cc:109-112,136`. -/
structure ExpEntry where
  den : Int
  base : Int
  exponent : Int
deriving DecidableEq, Repr

/-- `exp_to_base.emplace(...)` and the merge on collision, `expressions/power.cc:174-189`. The hash map is
an association list without repeated denominators. -/
def insertEntry (f : PrimeFactor) (frac : RatC) : List ExpEntry → Res (List ExpEntry)
  | [] => .ok [⟨frac.d, f.base, frac.n⟩]
  | e :: rest =>
    if e.den = frac.d then do
      let g ← cgcd e.exponent frac.n
      let x ← cdiv e.exponent g
      let p ← integerPowerChecked e.base x
      let y ← cdiv frac.n g
      let q ← integerPowerChecked f.base y
      let b ← cmul p q
      return ⟨e.den, b, g⟩ :: rest
    else do
      let rest' ← insertEntry f frac rest
      return e :: rest'

/-- One iteration of the loop over the prime factors, `expressions/power.cc:151-190`. -/
def intRatStep (exp : RatC) (st : RatC × List ExpEntry) (f : PrimeFactor) : Res (RatC × List ExpEntry) := do
  let actual ← ratMul exp ⟨f.exponent, 1⟩
  let (ip, frac) ← factorizeRationalExponent actual
  let isInt ← ratIsInteger frac
  if frac.n < 0 ∨ (frac.n ≠ 0 ∧ isInt) then throw .assertion
  let c ← (show Res RatC from
    if ip ≥ 0 then do
      let p ← integerPowerChecked f.base ip
      let r ← ratMk p 1
      ratMul st.1 r
    else do
      let m ← cneg ip
      let p ← integerPowerChecked f.base m
      let r ← ratMk 1 p
      ratMul st.1 r)
  if frac.n = 0 then return (c, st.2)
  else do
    let m ← insertEntry f frac st.2
    return (c, m)

/-- The loop over the prime factors. -/
def intRatLoop (exp : RatC) : RatC × List ExpEntry → List PrimeFactor → Res (RatC × List ExpEntry)
  | st, [] => .ok st
  | st, f :: fs => do
    let st' ← intRatStep exp st f
    intRatLoop exp st' fs

/-- `it->second.base *= -1` for the entry with the given denominator and exponent, if there is one,
`expressions/power.cc:205-207`. `none`: no such entry. -/
def negateEntry (frac : RatC) : List ExpEntry → Res (Option (List ExpEntry))
  | [] => .ok none
  | e :: rest =>
    if e.den = frac.d then
      if e.exponent = frac.n then do
        let b ← cmul e.base (-1)
        return some (⟨e.den, b, e.exponent⟩ :: rest)
      else return none
    else do
      match ← negateEntry frac rest with
      | none => return none
      | some r => return some (e :: r)

/-- The operands made from the entries, `expressions/power.cc:215-219`. -/
def entryOperands : List ExpEntry → Res (List PowOperand)
  | [] => .ok []
  | e :: rest => do
    let r ← ratMk e.exponent e.den
    let rest' ← entryOperands rest
    return .pow e.base r :: rest'

/-- The treatment of the sign of the base, `expressions/power.cc:196-213`: new coefficient, new entries and the
operands pushed so far. -/
def intRatSign (base : Int) (exp : RatC) (st : RatC × List ExpEntry) :
    Res (RatC × List ExpEntry × List PowOperand) :=
  if base < 0 then do
    let (ip, frac) ← factorizeRationalExponent exp
    let c ← (show Res RatC from if cIsEven ip then .ok st.1 else ratMulInt st.1 (-1))
    if frac = ⟨1, 2⟩ then return (c, st.2, [.imag])
    else if frac.n ≠ 0 then do
      match ← negateEntry frac st.2 with
      | some m => return (c, m, [])
      | none => return (c, st.2, [.pow (-1) frac])
    else return (c, st.2, [])
  else return (st.1, st.2, [])

/-- `apply_int_and_rational`, `expressions/power.cc:115-224`. -/
def powIntRat (base : Int) (exp : RatC) : Res NumPow :=
  if ¬ exp.d > 0 then .error .assertion
  else if base = 1 then .ok (.num ⟨1, 1⟩)
  else if base = 0 then
    if exp.n = 0 then .ok .undef
    else if exp.n < 0 then .ok .zoo
    else .ok (.num ⟨0, 1⟩)
  else do
    let a ← cabs base
    let factors ← computePrimeFactors a
    let st ← intRatLoop exp (⟨1, 1⟩, []) factors
    let (c, m, ops) ← intRatSign base exp st
    let es ← entryOperands m
    let operands := ops ++ es ++ (if c.n = c.d then [] else [.coeff c])
    -- `multiplication::from_operands` rejects an empty list, `expressions/multiplication.h`
    if operands = [] then throw .invalidArgument
    return .prod operands

/-- `imaginary_unit_power_result`, `expressions/power.cc:240-249`. -/
inductive IPow where
  | one | negOne | i | negI
deriving DecidableEq, Repr

/-- `imaginary_unit_power`, `expressions/power.cc:252-273`. (`exp / 2` cannot fail.) -/
def imaginaryUnitPower (exp : Int) : IPow :=
  let half := exp.tdiv 2
  if cIsEven exp then (if cIsEven half then .one else .negOne)
  else if exp > 0 then (if cIsEven half then .i else .negI)
  else (if cIsEven half then .negI else .i)

/-- The result of `i ** rational`: `± i ** exponent`, `expressions/power.cc:301-334`. -/
structure IRatPow where
  negative : Bool
  exponent : RatC
deriving DecidableEq, Repr

/-- `power_imaginary_visitor::operator()(rational_constant)`, `expressions/power.cc:301-334`. -/
def imagRat (exp : RatC) : Res IRatPow := do
  let (ip, frac) ← factorizeRationalExponent exp
  if frac.n < 0 then throw .assertion
  match imaginaryUnitPower ip with
  | .one => return ⟨false, frac⟩
  | .negOne => return ⟨true, frac⟩
  | .i =>
    if ip = 1 then return ⟨false, exp⟩
    else do
      let one ← ratMk 1 1
      let e ← ratAdd frac one
      return ⟨false, e⟩
  | .negI => do
    let one ← ratMk 1 1
    let e ← ratAdd frac one
    return ⟨true, e⟩

end Wf
