import Verif.Num.CheckedIntModel

/-!
# Model of `rational_constant` and its operators (`expressions/numeric_expressions.h`)
-/

namespace Wf

/-- `class rational_constant`, `expressions/numeric_expressions.h:63-140`: numerator and denominator. -/
structure RatC where
  n : Int
  d : Int
deriving DecidableEq, Repr

/-- Body of `rational_constant::create_pair`, `expressions/numeric_expressions.h:119-132`, without the
`noexcept`. -/
def createPairBody (n d : Int) : Res RatC := do
  let g ← stdGcd n d
  let n ← cdiv n g
  let d ← cdiv d g
  if d < 0 then do
    let n ← cneg n
    let d ← cneg d
    return ⟨n, d⟩
  else return ⟨n, d⟩

/-- `rational_constant(n, d)`, `expressions/numeric_expressions.h:71-72,119-132`. `create_pair` is
`noexcept`. -/
def ratMk (n d : Int) : Res RatC := noexcept (createPairBody n d)

/-- `rational_constant(integer_constant)`, `expressions/numeric_expressions.h:75-76`. -/
def ratOfInt (n : Int) : RatC := ⟨n, 1⟩

/-- `is_integer`, `expressions/numeric_expressions.h:98` (`noexcept`). -/
def ratIsInteger (r : RatC) : Res Bool := noexcept do
  let m ← cmod r.n r.d
  return decide (m = 0)

/-- `try_convert_to_integer`, `expressions/numeric_expressions.h:102-107` (`noexcept`). -/
def ratTryInt (r : RatC) : Res (Option Int) := noexcept do
  if ← ratIsInteger r then do
    let q ← cdiv r.n r.d
    return some q
  else return none

/-- `normalized`, `expressions/numeric_expressions.h:111-113` (`noexcept`). -/
def ratNormalized (r : RatC) : Res (Int × RatC) := noexcept do
  let q ← cdiv r.n r.d
  let m ← cmod r.n r.d
  let f ← ratMk m r.d
  return (q, f)

/-- `is_proper`, `expressions/numeric_expressions.h:116` (`noexcept`). -/
def ratIsProper (r : RatC) : Res Bool := noexcept do
  let a ← cabs r.n
  return decide (a < r.d)

/-- `is_zero`, `is_one`, `is_positive`, `is_negative`, `expressions/numeric_expressions.h:86-95`. -/
def ratIsZero (r : RatC) : Bool := decide (r.n = 0)
@[inherit_doc ratIsZero] def ratIsOne (r : RatC) : Bool := decide (r.n = r.d)
@[inherit_doc ratIsZero] def ratIsPositive (r : RatC) : Bool := decide (0 < r.n)
@[inherit_doc ratIsZero] def ratIsNegative (r : RatC) : Bool := decide (r.n < 0)

/-- `operator*`, `expressions/numeric_expressions.h:214-216`. -/
def ratMul (a b : RatC) : Res RatC := do
  let n ← cmul a.n b.n
  let d ← cmul a.d b.d
  ratMk n d

/-- `operator*(rational, checked_int)`, `expressions/numeric_expressions.h:217-219`. -/
def ratMulInt (a : RatC) (b : Int) : Res RatC := do
  let n ← cmul a.n b
  ratMk n a.d

/-- `operator/`, `expressions/numeric_expressions.h:220-222`. -/
def ratDiv (a b : RatC) : Res RatC := do
  let n ← cmul a.n b.d
  let d ← cmul a.d b.n
  ratMk n d

/-- `operator+`, `expressions/numeric_expressions.h:224-228`. -/
def ratAdd (a b : RatC) : Res RatC := do
  let x ← cmul a.n b.d
  let y ← cmul b.n a.d
  let n ← cadd x y
  let d ← cmul a.d b.d
  ratMk n d

/-- `operator-`, `expressions/numeric_expressions.h:230-233`. -/
def ratSub (a b : RatC) : Res RatC := do
  let x ← cmul a.n b.d
  let y ← cmul b.n a.d
  let n ← csub x y
  let d ← cmul a.d b.d
  ratMk n d

/-- `operator%`, `expressions/numeric_expressions.h:235-239`. -/
def ratMod (a b : RatC) : Res RatC := do
  let q ← ratDiv a b
  let m ← cmod q.n q.d
  ratMk m q.d

/-- `operator<`, `expressions/numeric_expressions.h:241-243`. -/
def ratLt (a b : RatC) : Res Bool := do
  let x ← cmul a.n b.d
  let y ← cmul b.n a.d
  return decide (x < y)

/-- `operator>`, `expressions/numeric_expressions.h:245-247`. -/
def ratGt (a b : RatC) : Res Bool := do
  let x ← cmul a.n b.d
  let y ← cmul b.n a.d
  return decide (x > y)

/-- `operator==` and `is_identical_struct`, `expressions/numeric_expressions.h:249-252,272-277`. -/
def ratEq (a b : RatC) : Bool := decide (a.n = b.n) && decide (a.d = b.d)

/-- `order_by_comparison`, `utility/ordering.h` (`a < b` → less, `b < a` → greater, else equal), on
integers. The result is the `std`-like three valued order. -/
def intOrder (a b : Int) : Ordering := if a < b then .lt else if b < a then .gt else .eq

/-- `order_struct<rational_constant>`, `expressions/numeric_expressions.h:279-290` (`noexcept`). -/
def ratOrder (a b : RatC) : Res Ordering := noexcept do
  if a.d = b.d then return intOrder a.n b.n
  else do
    let l ← cmul a.n b.d
    let r ← cmul b.n a.d
    return intOrder l r

/-- `mod_pi_rational`, `expressions/numeric_expressions.h:294-305`. -/
def modPi (r : RatC) : Res RatC := do
  let (i, f) ← ratNormalized r
  let ip ← cmod i 2
  if ip = 1 then
    if ratIsZero f then ratMk 1 1 else do
      let one ← ratMk 1 1
      ratSub f one
  else if ip = -1 then do
    let one ← ratMk 1 1
    ratAdd one f
  else return f

end Wf
