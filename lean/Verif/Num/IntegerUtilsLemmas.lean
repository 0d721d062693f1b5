import Verif.Num.IntegerUtilsModel
import Verif.Num.CheckedIntProps
import Mathlib.Data.Nat.Prime.Defs
import Mathlib.NumberTheory.LucasPrimality
import Mathlib.Tactic.NormNum.Prime
import Mathlib.Tactic.IntervalCases

namespace Wf

/-- Residue modulo 30 of the trial divisor at wheel position `i`. -/
def wheelRes : Nat → Nat
  | 0 => 7 | 1 => 11 | 2 => 13 | 3 => 17 | 4 => 19 | 5 => 23 | 6 => 29 | _ => 1

theorem wheel_gap (n k i d : Nat) (hi : i < 8) (hk : k % 30 = wheelRes i)
    (h2 : n % 2 ≠ 0) (h3 : n % 3 ≠ 0) (h5 : n % 5 ≠ 0)
    (hd : k < d) (hd' : d < k + wheelInc i) : ¬ d ∣ n := by
  intro hdv
  have e2 : ¬ 2 ∣ d := fun h => h2 (Nat.mod_eq_zero_of_dvd (h.trans hdv))
  have e3 : ¬ 3 ∣ d := fun h => h3 (Nat.mod_eq_zero_of_dvd (h.trans hdv))
  have e5 : ¬ 5 ∣ d := fun h => h5 (Nat.mod_eq_zero_of_dvd (h.trans hdv))
  obtain ⟨j, rfl⟩ : ∃ j, d = k + j := ⟨d - k, by omega⟩
  have hj : 1 ≤ j := by omega
  have hj' : j ≤ 5 := by
    have : wheelInc i ≤ 6 := by unfold wheelInc; split <;> omega
    omega
  interval_cases i <;> simp only [wheelRes, wheelInc] at hk hd' <;> interval_cases j <;> omega

theorem wheel_next (k i : Nat) (hi : i < 8) (hk : k % 30 = wheelRes i) :
    (k + wheelInc i) % 30 = wheelRes ((i + 1) % 8) := by
  interval_cases i <;> simp only [wheelRes, wheelInc] at hk ⊢ <;> omega

theorem wheel_last (k i : Nat) (hi : i < 8) (hk : k % 30 = wheelRes i) (h : k ≤ 3037000499)
    (h' : 3037000499 < k + wheelInc i) : k = 3037000499 := by
  interval_cases i <;> simp only [wheelRes, wheelInc] at hk h' <;> omega

/-- Inputs on which the loop counter square overflows: exactly the primes from 3037000499². -/
def WheelOverflows (n : Nat) : Prop := n.Prime ∧ 3037000499 ^ 2 ≤ n

theorem no_small_dvd_le_minFac (n k : Nat) (hn : 2 ≤ n) (h : ∀ d, 2 ≤ d → d < k → ¬ d ∣ n) :
    k ≤ n.minFac := by
  by_contra hlt
  exact h n.minFac (Nat.minFac_prime (by omega)).two_le (by omega) (Nat.minFac_dvd n)

open Classical in
theorem wheelLoop_spec (n k i : Nat) (hn : 2 ≤ n) (hmax : (n : Int) ≤ maxI) (hi : i < 8)
    (h2 : n % 2 ≠ 0) (h3 : n % 3 ≠ 0) (h5 : n % 5 ≠ 0)
    (hk : k % 30 = wheelRes i) (hk7 : 7 ≤ k)
    (hsm : ∀ d, 2 ≤ d → d < k → ¬ d ∣ n)
    (hb : k ≤ 3037000499 ∨ 3037000499 ^ 2 ≤ n) :
    wheelLoop n k i = if WheelOverflows n then .error .ub else .ok n.minFac := by
  fun_induction wheelLoop n k i with
  | case1 k i hub =>
    have hkk : 3037000499 < k := by
      by_contra hle
      have : k ≤ 3037000499 := by omega
      have : k * k ≤ 3037000499 * 3037000499 := Nat.mul_le_mul this this
      simp only [maxI] at hub
      omega
    have hp : n.Prime := by
      by_contra hnp
      have h1 := Nat.minFac_sq_le_self (by omega) hnp
      have h2 := no_small_dvd_le_minFac n k hn hsm
      have h3 : 3037000500 * 3037000500 ≤ n.minFac * n.minFac := Nat.mul_le_mul (by omega) (by omega)
      simp only [maxI] at hmax
      rw [sq] at h1
      omega
    rw [if_pos ⟨hp, by rcases hb with hb | hb <;> omega⟩]
  | case2 k i hub hle hdv =>
    have hkn : k ∣ n := Nat.dvd_of_mod_eq_zero hdv
    have hmf : n.minFac = k :=
      le_antisymm (Nat.minFac_le_of_dvd (by omega) hkn) (no_small_dvd_le_minFac n k hn hsm)
    rw [if_neg, hmf]
    rintro ⟨hp, _⟩
    have := (Nat.dvd_prime hp).mp hkn
    rcases this with h | h
    · omega
    · rw [h] at hle; nlinarith
  | case3 k i hub hle hdv ih =>
    apply ih (Nat.mod_lt _ (by omega)) (wheel_next k i hi hk) (by omega)
    · intro d hd hlt
      rcases Nat.lt_trichotomy d k with h | h | h
      · exact hsm d hd h
      · rw [h]; exact fun hh => hdv (Nat.mod_eq_zero_of_dvd hh)
      · exact wheel_gap n k i d hi hk h2 h3 h5 h hlt
    · by_cases hc : k + wheelInc i ≤ 3037000499
      · exact Or.inl hc
      · right
        rcases hb with hb | hb
        · have := wheel_last k i hi hk hb (by omega)
          rw [this] at hle; rw [sq]; exact hle
        · exact hb
  | case4 k i hub hgt =>
    have hp : n.Prime := by
      by_contra hnp
      have h1 := Nat.minFac_sq_le_self (by omega) hnp
      have h2 := no_small_dvd_le_minFac n k hn hsm
      rw [sq] at h1
      have := Nat.mul_le_mul h2 h2
      omega
    rw [if_neg]
    · congr 1; exact (Nat.Prime.minFac_eq hp).symm
    · rintro ⟨_, hge⟩
      have hlt : 3037000499 < k := by
        by_contra hle
        have : k ≤ 3037000499 := by omega
        have := Nat.mul_le_mul this this
        rw [sq] at hge
        omega
      have : 3037000500 * 3037000500 ≤ k * k := Nat.mul_le_mul (by omega) (by omega)
      apply hub
      simp only [maxI]
      omega

open Classical in
theorem wheelFactorization_spec (n : Nat) (hn : 2 ≤ n) (hmax : (n : Int) ≤ maxI) :
    wheelFactorization n = if WheelOverflows n then .error .ub else .ok n.minFac := by
  have small : ∀ p : Nat, p.Prime → p ∣ n → p < 10 → ¬ WheelOverflows n := by
    rintro p hp hd hlt ⟨hpn, hge⟩
    rcases (Nat.dvd_prime hpn).mp hd with h | h
    · exact hp.one_lt.ne' h
    · omega
  unfold wheelFactorization
  by_cases h2 : n % 2 = 0
  · have hd := Nat.dvd_of_mod_eq_zero h2
    rw [if_pos h2, if_neg (small 2 Nat.prime_two hd (by omega))]
    congr 1
    exact ((Nat.minFac_eq_two_iff n).mpr hd).symm
  by_cases h3 : n % 3 = 0
  · have hd := Nat.dvd_of_mod_eq_zero h3
    rw [if_neg h2, if_pos h3, if_neg (small 3 Nat.prime_three hd (by omega))]
    congr 1
    apply le_antisymm
    · apply no_small_dvd_le_minFac n 3 hn
      intro d h1 h4 h5
      have : d = 2 := by omega
      subst this; exact h2 (Nat.mod_eq_zero_of_dvd h5)
    · exact Nat.minFac_le_of_dvd (by omega) hd
  by_cases h5 : n % 5 = 0
  · have hd := Nat.dvd_of_mod_eq_zero h5
    rw [if_neg h2, if_neg h3, if_pos h5, if_neg (small 5 Nat.prime_five hd (by omega))]
    congr 1
    apply le_antisymm
    · apply no_small_dvd_le_minFac n 5 hn
      intro d h1 h4 h6
      have := Nat.mod_eq_zero_of_dvd h6
      interval_cases d <;> omega
    · exact Nat.minFac_le_of_dvd (by omega) hd
  rw [if_neg h2, if_neg h3, if_neg h5]
  apply wheelLoop_spec n 7 0 hn hmax (by omega) h2 h3 h5 rfl (le_refl _) _ (Or.inl (by omega))
  intro d h1 h4 h6
  have h7 := Nat.mod_eq_zero_of_dvd h6
  interval_cases d <;> omega

/-- Product of a factor list. -/
def factorProd : List PrimeFactor → Int
  | [] => 1
  | f :: fs => f.base ^ f.exponent * factorProd fs

theorem factorProd_append (a b : List PrimeFactor) :
    factorProd (a ++ b) = factorProd a * factorProd b := by
  induction a with
  | nil => simp [factorProd]
  | cons x xs ih => simp [factorProd, ih, mul_assoc]

theorem factorProd_reverse (a : List PrimeFactor) : factorProd a.reverse = factorProd a := by
  induction a with
  | nil => rfl
  | cons x xs ih => simp [factorProd, factorProd_append, ih, mul_comm]

theorem factorProd_pushFactor (rev : List PrimeFactor) (f : Nat) :
    factorProd (pushFactor rev f) = factorProd rev * f := by
  unfold pushFactor
  split
  · simp [factorProd]
  · split_ifs with h
    · subst h; simp only [factorProd]; ring
    · simp only [factorProd]; ring

/-- Every factor is a prime with positive exponent, or the sign `-1`. -/
def GoodFactor (f : PrimeFactor) : Prop :=
  0 < f.exponent ∧ ((f.base = -1 ∧ f.exponent = 1) ∨ ∃ p : Nat, p.Prime ∧ f.base = p)

/-- Invariant of the reversed accumulator: bases strictly decreasing (from the head), all good, and all
bases at most every remaining factor of `x`. -/
structure AccInv (rev : List PrimeFactor) (x : Nat) : Prop where
  good : ∀ f ∈ rev, GoodFactor f
  sorted : rev.Pairwise (fun a b => b.base < a.base)
  bound : ∀ f ∈ rev, ∀ p : Nat, p.Prime → p ∣ x → f.base ≤ p

theorem pushFactor_inv (rev : List PrimeFactor) (x : Nat) (hx : 2 ≤ x) (h : AccInv rev x) :
    AccInv (pushFactor rev x.minFac) (x / x.minFac) := by
  have hp : x.minFac.Prime := Nat.minFac_prime (by omega)
  have hdiv : ∀ p : Nat, p.Prime → p ∣ x / x.minFac → p ∣ x ∧ x.minFac ≤ p := by
    intro p hpp hd
    have : p ∣ x := hd.trans (Nat.div_dvd_of_dvd (Nat.minFac_dvd x))
    exact ⟨this, Nat.minFac_le_of_dvd hpp.two_le this⟩
  unfold pushFactor
  split
  · refine ⟨?_, by simp, ?_⟩
    · intro f hf; simp at hf; subst hf
      exact ⟨by simp, Or.inr ⟨_, hp, rfl⟩⟩
    · intro f hf p hpp hd; simp at hf; subst hf
      simpa using (hdiv p hpp hd).2
  · rename_i b e rest
    split_ifs with hb
    · refine ⟨?_, ?_, ?_⟩
      · intro f hf
        simp only [List.mem_cons] at hf
        rcases hf with rfl | hf
        · exact ⟨by simp, Or.inr ⟨_, hp, hb⟩⟩
        · exact h.good f (by simp [hf])
      · have := h.sorted
        simp only [List.pairwise_cons] at this ⊢
        exact this
      · intro f hf p hpp hd
        simp only [List.mem_cons] at hf
        rcases hf with rfl | hf
        · exact h.bound ⟨b, e⟩ (by simp) p hpp (hdiv p hpp hd).1
        · exact h.bound f (by simp [hf]) p hpp (hdiv p hpp hd).1
    · have hlt : ∀ f ∈ (⟨b, e⟩ :: rest : List PrimeFactor), f.base < (x.minFac : Int) := by
        have h0 : b < (x.minFac : Int) :=
          lt_of_le_of_ne (h.bound ⟨b, e⟩ (by simp) _ hp (Nat.minFac_dvd x)) hb
        intro f hf
        simp only [List.mem_cons] at hf
        rcases hf with rfl | hf
        · exact h0
        · exact lt_trans ((List.pairwise_cons.mp h.sorted).1 f hf) h0
      refine ⟨?_, ?_, ?_⟩
      · intro f hf
        rw [List.mem_cons] at hf
        rcases hf with rfl | hf
        · exact ⟨by simp, Or.inr ⟨_, hp, rfl⟩⟩
        · exact h.good f hf
      · exact List.pairwise_cons.mpr ⟨fun f hf => hlt f hf, h.sorted⟩
      · intro f hf p hpp hd
        rw [List.mem_cons] at hf
        rcases hf with rfl | hf
        · simpa using (hdiv p hpp hd).2
        · exact h.bound f hf p hpp (hdiv p hpp hd).1

/-- No prime factor of `x` triggers the overflow. -/
def Factorable (x : Nat) : Prop := ∀ p : Nat, p.Prime → p ∣ x → p < 3037000499 ^ 2

theorem factorLoop_spec (x : Nat) (rev : List PrimeFactor) (hx : 1 ≤ x) (hmax : (x : Int) ≤ maxI)
    (hfac : Factorable x) (h : AccInv rev x) :
    ∃ l, factorLoop x rev = .ok l ∧ factorProd l = factorProd rev * x ∧
      (∀ f ∈ l, GoodFactor f) ∧ l.Pairwise (fun a b => a.base < b.base) := by
  fun_induction factorLoop x rev with
  | case1 x rev hx1 =>
    have : x = 1 := by omega
    subst this
    refine ⟨_, rfl, by simp [factorProd_reverse], ?_, ?_⟩
    · intro f hf; exact h.good f (by simpa using hf)
    · rw [List.pairwise_reverse]; exact h.sorted
  | case2 x rev hx1 e he =>
    rw [wheelFactorization_spec x (by omega) hmax, if_neg] at he
    · simp at he
    · rintro ⟨hp, hge⟩; exact absurd (hfac x hp (dvd_refl x)) (by omega)
  | case3 x rev hx1 f hf ih =>
    rw [wheelFactorization_spec x (by omega) hmax, if_neg] at hf
    · simp only [Except.ok.injEq] at hf
      subst hf
      have hdvd := Nat.minFac_dvd x
      have hpos : 0 < x / x.minFac := Nat.div_pos (Nat.minFac_le (by omega)) (Nat.minFac_pos x)
      obtain ⟨l, h1, h2, h3, h4⟩ := ih hpos
        (by have := Nat.div_le_self x x.minFac; omega)
        (fun p hp hd => hfac p hp (hd.trans (Nat.div_dvd_of_dvd hdvd)))
        (pushFactor_inv rev x (by omega) h)
      refine ⟨l, h1, ?_, h3, h4⟩
      rw [h2, factorProd_pushFactor, mul_assoc]
      congr 1
      exact_mod_cast Nat.mul_div_cancel' hdvd
    · rintro ⟨hp, hge⟩; exact absurd (hfac x hp (dvd_refl x)) (by omega)

theorem integerPowerLoop_spec (r b : Int) (e : Nat) (hr : InI64 r) (hb : InI64 b)
    (h0 : r = 0 → b = 0) : integerPowerLoop r b e = exactOrRaise (r * b ^ e) := by
  induction e using Nat.strong_induction_on generalizing r b with
  | _ e ih =>
  unfold integerPowerLoop
  -- the split of the exponent
  have he : e = 2 * (e / 2) + e % 2 := by omega
  have hpow : b ^ e = b ^ (e % 2) * (b * b) ^ (e / 2) := by
    conv_lhs => rw [he]
    rw [pow_add, pow_mul, sq, mul_comm]
  have hsq : 0 ≤ (b * b) ^ (e / 2) := pow_nonneg (mul_self_nonneg b) _
  -- multiplying by a positive integer keeps a value out of range
  have hout : ∀ v c : Int, 1 ≤ c → ¬ InI64 v → ¬ InI64 (v * c) := by
    intro v c hc hv hvc
    rw [InI64_iff] at hv hvc
    rcases lt_or_ge v 0 with h | h
    · have : v < -9223372036854775808 := by omega
      nlinarith
    · have : v > 9223372036854775807 := by omega
      nlinarith
  -- the first multiplication
  have step1 : (if e % 2 = 1 then cmul r b else .ok r) = exactOrRaise (r * b ^ (e % 2)) := by
    split_ifs with h
    · rw [C01_mul_exact_or_raises r b hr hb, h, pow_one]
    · have : e % 2 = 0 := by omega
      rw [this, pow_zero, mul_one, exactOrRaise, if_pos hr]
  change (if e % 2 = 1 then cmul r b else .ok r) >>= _ = _
  rw [step1]
  by_cases hfit : InI64 (r * b ^ (e % 2))
  · rw [exactOrRaise, if_pos hfit]
    simp only [Res.bind_ok]
    split_ifs with hz
    · rw [hpow, hz, pow_zero, mul_one, exactOrRaise, if_pos hfit]; rfl
    · rw [C01_mul_exact_or_raises b b hb hb]
      by_cases hbb : InI64 (b * b)
      · rw [exactOrRaise, if_pos hbb]
        simp only [Res.bind_ok]
        rw [ih (e / 2) (by omega) _ _ hfit hbb, hpow, mul_assoc]
        intro hzero
        rcases mul_eq_zero.mp hzero with h | h
        · rw [h0 h]; rfl
        · skip
          rcases Nat.mod_two_eq_zero_or_one e with h' | h'
          · rw [h', pow_zero] at h; omega
          · rw [h', pow_one] at h; rw [h]; rfl
      · rw [exactOrRaise, if_neg hbb, exactOrRaise, if_neg]
        · rfl
        · have hbne : b ≠ 0 := by rintro rfl; exact hbb (by decide)
          have hrne : r ≠ 0 := fun h => hbne (h0 h)
          have hbig : 9223372036854775808 < b * b := by
            have h1 : 9223372036854775808 ≤ b * b := by
              rw [InI64_iff] at hbb
              have := mul_self_nonneg b
              omega
            have hne : b * b ≠ 9223372036854775808 := by
              intro h
              have hn : b.natAbs * b.natAbs = 9223372036854775808 := by
                have := Int.natAbs_mul b b
                rw [h] at this; omega
              have : ¬ b.natAbs ≤ 3037000499 := by
                intro hle
                have := Nat.mul_le_mul hle hle
                omega
              have h3 : 3037000500 ≤ b.natAbs := by omega
              have := Nat.mul_le_mul h3 h3
              omega
            omega
          obtain ⟨m, hm⟩ : ∃ m, e / 2 = m + 1 := ⟨e / 2 - 1, by omega⟩
          have hform : r * b ^ e = (r * b ^ (e % 2) * (b * b) ^ m) * (b * b) := by
            rw [hpow, hm, pow_succ]; ring
          have hne : r * b ^ (e % 2) * (b * b) ^ m ≠ 0 := by
            have : b * b ≠ 0 := mul_ne_zero hbne hbne
            exact mul_ne_zero (mul_ne_zero hrne (pow_ne_zero _ hbne)) (pow_ne_zero _ this)
          rw [hform, InI64_iff]
          set w := r * b ^ (e % 2) * (b * b) ^ m
          rcases lt_or_gt_of_ne hne with h | h
          · have : w ≤ -1 := by omega
            intro hh
            nlinarith
          · have : 1 ≤ w := by omega
            intro hh
            nlinarith
  · have hbne : b ≠ 0 := by
      rintro rfl
      apply hfit
      rcases Nat.mod_two_eq_zero_or_one e with h' | h'
      · rw [h']; simpa using hr
      · rw [h']; simp [InI64, minI, maxI]
    rw [exactOrRaise, if_neg hfit, exactOrRaise, if_neg]
    · rfl
    · rw [hpow, ← mul_assoc]
      apply hout _ _ _ hfit
      have : 0 < (b * b) ^ (e / 2) := pow_pos (mul_self_pos.mpr hbne) _
      omega

end Wf
