import Verif.Num.CheckedIntModel
import Mathlib.Data.Rat.Floor

/-!
# Model of doubles and of `compare_int_float`

A finite IEEE-754 binary64 value is the rational `m * 2^e` it denotes. Rounding of float arithmetic
is a parameter `rnd`, of which only the two facts every IEEE rounding mode satisfies are used: it is monotone and
leaves representable values unchanged (`IsRounding`). The sign of zero is not represented here.
-/

namespace Wf

/-- The finite values of binary64. -/
def IsDouble (q : ℚ) : Prop := ∃ m e : ℤ, |m| < 2 ^ 53 ∧ -1074 ≤ e ∧ e ≤ 971 ∧ q = (m : ℚ) * (2 : ℚ) ^ e

/-- A rounding of exact results to doubles. -/
structure IsRounding (rnd : ℚ → ℚ) : Prop where
  mono : ∀ x y, x ≤ y → rnd x ≤ rnd y
  exact : ∀ x, IsDouble x → rnd x = x

/-- A double: not-a-number, an infinity, or a finite value. -/
inductive Dbl where
  | nan
  | inf (negative : Bool)
  | fin (q : ℚ)
deriving DecidableEq

/-- Truncation towards zero (the value of `static_cast<std::int64_t>(f)` when it is defined). -/
def truncQ (q : ℚ) : Int := if 0 ≤ q then ⌊q⌋ else ⌈q⌉

/-- `static_cast<std::int64_t>(f)`: undefined when the truncated value is not representable. -/
def castToI64 (q : ℚ) : Res Int := rawFit (truncQ q)

/-- `compare_int_float<std::int64_t, double>`, `integer_utils.h:94-156`. The order of `i` relative to
`f`. `I_min_as_float` is -2^63, `I_max_as_float_plus_1` is 2^63. -/
def compareIntFloat (rnd : ℚ → ℚ) (i : Int) : Dbl → Res (Option Ordering)
  | .nan => .ok none
  | .inf negative => .ok (some (if negative then .gt else .lt))
  | .fin f =>
    if f ≥ -2 ^ 63 then
      if rnd (f - 2 ^ 63) ≤ -1 then do
        let t ← castToI64 f
        if t < i then return some .gt
        else if t > i then return some .lt
        else
          let fractional := rnd (f - rnd (t : ℚ))
          if fractional < 0 then return some .gt
          else if fractional > 0 then return some .lt
          else return some .eq
      else return some .lt
    else return some .gt

end Wf
