import Verif.Base

/-!
# Model of `utility/checked_int.h`

A `checked_int` is an `Int` together with the range hypothesis `InI64` on inputs.
The primitive `std::int64_t` operators are modelled by `raw…`: they are undefined behaviour
when the mathematical result does not fit, exactly as in C++.
-/

namespace Wf

/-- `std::numeric_limits<std::int64_t>::max()` -/
def maxI : Int := 9223372036854775807
/-- `std::numeric_limits<std::int64_t>::min()` -/
def minI : Int := -9223372036854775808

/-- The value is representable as `std::int64_t`. -/
def InI64 (a : Int) : Prop := minI ≤ a ∧ a ≤ maxI

instance (a : Int) : Decidable (InI64 a) := by unfold InI64; infer_instance

/-- Value of a primitive signed operation: undefined behaviour if it does not fit. -/
def rawFit (v : Int) : Res Int := if InI64 v then .ok v else .error .ub

/-- Primitive `a + b` on `std::int64_t`. -/
def rawAdd (a b : Int) : Res Int := rawFit (a + b)
/-- Primitive `a - b` on `std::int64_t`. -/
def rawSub (a b : Int) : Res Int := rawFit (a - b)
/-- Primitive `a * b` on `std::int64_t`. -/
def rawMul (a b : Int) : Res Int := rawFit (a * b)
/-- Primitive `-a` on `std::int64_t`. -/
def rawNeg (a : Int) : Res Int := rawFit (-a)
/-- Primitive `a / b` on `std::int64_t`: truncates towards zero; undefined for `b = 0` and when
the quotient does not fit. -/
def rawDiv (a b : Int) : Res Int := if b = 0 then .error .ub else rawFit (a.tdiv b)
/-- Primitive `a % b` on `std::int64_t`: sign of the dividend; undefined for `b = 0` and when
the *quotient* does not fit (C++ [expr.mul]). -/
def rawMod (a b : Int) : Res Int :=
  if b = 0 then .error .ub
  else if InI64 (a.tdiv b) then .ok (a.tmod b) else .error .ub

/-- `checked_int::operator-()`, `utility/checked_int.h:68-74`. -/
def cneg (a : Int) : Res Int :=
  if a = minI then .error .arithmetic else rawNeg a

/-- The overflow guard of `operator*`, `utility/checked_int.h:118-120`, with the evaluation order
(and short circuits) of the C++ expression: `(b > 0 && (a > max/b || a < min/b)) || (b == -1 && a == min)
|| (b < -1 && (a < max/b || a > min/b))`. -/
def mulGuard (a b : Int) : Res Bool :=
  if b > 0 then do
    let m ← rawDiv maxI b
    if a > m then return true
    let n ← rawDiv minI b
    return decide (a < n)
  else if b = -1 then return decide (a = minI)
  else if b < -1 then do
    let m ← rawDiv maxI b
    if a < m then return true
    let n ← rawDiv minI b
    return decide (a > n)
  else return false

/-- `operator*(checked_int, checked_int)`, `utility/checked_int.h:115-124`. -/
def cmul (a b : Int) : Res Int := do
  if ← mulGuard a b then throw .arithmetic
  rawMul a b

/-- `operator/(checked_int, checked_int)`, `utility/checked_int.h:127-135`. -/
def cdiv (a b : Int) : Res Int :=
  if b = 0 then .error .arithmetic
  else if b = -1 ∧ a = minI then .error .arithmetic
  else rawDiv a b

/-- `operator%(checked_int, checked_int)`, `utility/checked_int.h:139-146`. -/
def cmod (a b : Int) : Res Int :=
  if b = 0 then .error .arithmetic
  else if b = -1 ∧ a = minI then .error .arithmetic
  else rawMod a b

/-- The overflow guard of `operator+`, `utility/checked_int.h:154`. -/
def addGuard (a b : Int) : Res Bool :=
  if b > 0 then do
    let m ← rawSub maxI b
    return decide (a > m)
  else if b < 0 then do
    let m ← rawSub minI b
    return decide (a < m)
  else return false

/-- `operator+(checked_int, checked_int)`, `utility/checked_int.h:151-158`. -/
def cadd (a b : Int) : Res Int := do
  if ← addGuard a b then throw .arithmetic
  rawAdd a b

/-- The overflow guard of `operator-`, `utility/checked_int.h:166`. -/
def subGuard (a b : Int) : Res Bool :=
  if b > 0 then do
    let m ← rawAdd minI b
    return decide (a < m)
  else if b < 0 then do
    let m ← rawAdd maxI b
    return decide (a > m)
  else return false

/-- `operator-(checked_int, checked_int)`, `utility/checked_int.h:163-170`. -/
def csub (a b : Int) : Res Int := do
  if ← subGuard a b then throw .arithmetic
  rawSub a b

/-- `abs(checked_int)`, `utility/checked_int.h:190-196`. -/
def cabs (a : Int) : Res Int := if a < 0 then cneg a else .ok a

/-- `std::gcd(a, b)` on `std::int64_t` (C++17 [numeric.ops.gcd]): undefined behaviour when `|a|` or
`|b|` is not representable. -/
def stdGcd (a b : Int) : Res Int :=
  if a = minI ∨ b = minI then .error .ub else .ok (Int.gcd a b)

/-- `gcd(checked_int, checked_int)`, `utility/checked_int.h:200-202`. -/
def cgcd (a b : Int) : Res Int := do
  let x ← cabs a
  let y ← cabs b
  stdGcd x y

/-- `checked_int::is_even`, `utility/checked_int.h:92` (`!(value & 1)`; for two's complement the low
bit is `value mod 2`). -/
def cIsEven (a : Int) : Bool := a % 2 == 0

/-- `explicit operator std::uint64_t`, `utility/checked_int.h:56-61`. -/
def cToU64 (a : Int) : Res Nat := if a < 0 then .error .domain else .ok a.toNat

/-- `checked_int::from_unsigned_long_long`, `utility/checked_int.h:83-90`. -/
def cFromULL (a : Nat) : Res Int := if maxI < a then .error .domain else .ok a

end Wf
