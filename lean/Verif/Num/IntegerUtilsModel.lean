import Verif.Num.CheckedIntModel
import Mathlib.Tactic.Linarith

/-!
# Model of `integer_utils.h`: factorisation and integer power
-/

namespace Wf

/-- The wheel increments `inc[8] = {4, 2, 4, 2, 4, 6, 2, 6}`, `integer_utils.h:28`. The index is
always below 8 because it is reduced modulo 8. -/
def wheelInc : Nat → Nat
  | 0 => 4 | 1 => 2 | 2 => 4 | 3 => 2 | 4 => 4 | 5 => 6 | 6 => 2 | _ => 6

theorem wheelInc_pos (i : Nat) : 0 < wheelInc i := by
  unfold wheelInc; split <;> omega

/-- The loop of `wheel_factorization`, `integer_utils.h:29-36`.  `n` is the (positive) input, `k` the
trial divisor, `i` the index into the increments.  `k * k` is evaluated on `std::int64_t`, so it is
undefined behaviour when it exceeds the largest value.  The addition `k += inc[i]` cannot overflow
when `k * k` did not. -/
def wheelLoop (n k i : Nat) : Res Nat :=
  if (k * k : Int) > maxI then .error .ub
  else if h : k * k ≤ n then
    if n % k = 0 then .ok k
    else wheelLoop n (k + wheelInc i) ((i + 1) % 8)
  else .ok n
termination_by n + 1 - k
decreasing_by
  have := wheelInc_pos i
  have : k ≤ n := by nlinarith [Nat.zero_le k]
  omega

/-- `wheel_factorization`, `integer_utils.h:16-37`, for a positive argument (the only caller passes
positive values, `integer_utils.h:52-57`). -/
def wheelFactorization (n : Nat) : Res Nat :=
  if n % 2 = 0 then .ok 2
  else if n % 3 = 0 then .ok 3
  else if n % 5 = 0 then .ok 5
  else wheelLoop n 7 0

/-- `prime_factor`, `integer_utils.h:40-43`. The exponent is at most 63, so the checked increment of
line 60 cannot overflow and is a plain increment here. -/
structure PrimeFactor where
  base : Int
  exponent : Nat
deriving DecidableEq, Repr

/-- Lines 58-63 of `integer_utils.h`: merge a factor equal to the last one, else append.  The vector
is kept in reverse (last element first). -/
def pushFactor (rev : List PrimeFactor) (f : Nat) : List PrimeFactor :=
  match rev with
  | [] => [⟨f, 1⟩]
  | ⟨b, e⟩ :: rest => if b = (f : Int) then ⟨b, e + 1⟩ :: rest else ⟨f, 1⟩ :: ⟨b, e⟩ :: rest

theorem wheelLoop_ge (n k i f : Nat) (hk : 2 ≤ k) (hn : 2 ≤ n) (h : wheelLoop n k i = .ok f) : 2 ≤ f := by
  fun_induction wheelLoop n k i with
  | case1 => simp at h
  | case2 k i _ _ _ => simp only [Except.ok.injEq] at h; omega
  | case3 k i _ _ _ ih => exact ih (by omega) h
  | case4 => simp only [Except.ok.injEq] at h; omega

theorem wheelFactorization_ge (n f : Nat) (hn : 2 ≤ n) (h : wheelFactorization n = .ok f) : 2 ≤ f := by
  unfold wheelFactorization at h
  split_ifs at h
  · simp only [Except.ok.injEq] at h; omega
  · simp only [Except.ok.injEq] at h; omega
  · simp only [Except.ok.injEq] at h; omega
  · exact wheelLoop_ge n 7 0 f (by omega) hn h

/-- The `while (x != 1)` loop of `compute_prime_factors`, `integer_utils.h:56-65`, on the positive
value `x`.  (`x = 0` cannot occur: the loop starts positive and divides; the model stops there.) -/
def factorLoop (x : Nat) (rev : List PrimeFactor) : Res (List PrimeFactor) :=
  if hx : x ≤ 1 then .ok rev.reverse
  else
    match hf : wheelFactorization x with
    | .error e => .error e
    | .ok f => factorLoop (x / f) (pushFactor rev f)
termination_by x
decreasing_by
  have := wheelFactorization_ge x f (by omega) hf
  exact Nat.div_lt_self (by omega) (by omega)

/-- `compute_prime_factors`, `integer_utils.h:46-67`. -/
def computePrimeFactors (n : Int) : Res (List PrimeFactor) :=
  if n = 0 then .ok []
  else if n < 0 then do
    let x ← cneg n
    factorLoop x.toNat [⟨-1, 1⟩]
  else factorLoop n.toNat []

/-- The loop of `integer_power`, `integer_utils.h:70-83`. -/
def integerPowerLoop (result base : Int) (exp : Nat) : Res Int := do
  let result ← (show Res Int from if exp % 2 = 1 then cmul result base else .ok result)
  if h : exp / 2 = 0 then return result
  else
    let base ← cmul base base
    integerPowerLoop result base (exp / 2)
termination_by exp
decreasing_by omega

/-- `integer_power(checked_int, std::uint64_t)`, `integer_utils.h:70-83`. -/
def integerPower (base : Int) (exp : Nat) : Res Int := integerPowerLoop 1 base exp

/-- `integer_power(checked_int, checked_int)`, `integer_utils.h:86-88`. -/
def integerPowerChecked (base exp : Int) : Res Int := do
  let e ← cToU64 exp
  integerPower base e

end Wf
