import Verif.Num.CheckedIntLemmas

/-!
# C01: checked integer arithmetic is exact or raises

Each theorem gives the complete behaviour of an operator on every pair of 64-bit integers:
the mathematical result if it fits, the arithmetic error otherwise.  In particular the outcome is
never `ub`, so the guards themselves do not overflow either.
-/

namespace Wf

/-- The specification: exact result if representable, arithmetic error otherwise. -/
def exactOrRaise (v : Int) : Res Int := if InI64 v then .ok v else .error .arithmetic

theorem C01_add_exact_or_raises (a b : Int) (ha : InI64 a) (hb : InI64 b) :
    cadd a b = exactOrRaise (a + b) := by
  unfold cadd exactOrRaise
  rw [addGuard_eq a b ha hb]
  by_cases h : InI64 (a + b) <;> simp [h, rawAdd, rawFit]

theorem C01_sub_exact_or_raises (a b : Int) (ha : InI64 a) (hb : InI64 b) :
    csub a b = exactOrRaise (a - b) := by
  unfold csub exactOrRaise
  rw [subGuard_eq a b ha hb]
  by_cases h : InI64 (a - b) <;> simp [h, rawSub, rawFit]

theorem C01_mul_exact_or_raises (a b : Int) (ha : InI64 a) (hb : InI64 b) :
    cmul a b = exactOrRaise (a * b) := by
  unfold cmul exactOrRaise
  rw [mulGuard_eq a b ha hb]
  by_cases h : InI64 (a * b) <;> simp [h, rawMul, rawFit]

theorem C01_neg_exact_or_raises (a : Int) (ha : InI64 a) : cneg a = exactOrRaise (-a) := by
  unfold cneg exactOrRaise rawNeg rawFit
  rw [InI64_iff] at ha
  simp only [InI64_iff, minI]
  split_ifs <;> first | rfl | omega

theorem C01_abs_exact_or_raises (a : Int) (ha : InI64 a) : cabs a = exactOrRaise |a| := by
  unfold cabs
  split_ifs with h
  · rw [C01_neg_exact_or_raises a ha, abs_of_neg h]
  · rw [abs_of_nonneg (by omega), exactOrRaise, if_pos ha]

/-- Division by zero raises; otherwise the quotient truncated towards zero, or overflow. -/
theorem C01_div_exact_or_raises (a b : Int) (ha : InI64 a) (hb : InI64 b) :
    cdiv a b = if b = 0 then .error .arithmetic else exactOrRaise (a.tdiv b) := by
  unfold cdiv rawDiv exactOrRaise
  by_cases h0 : b = 0
  · simp [h0]
  · by_cases h1 : b = -1 ∧ a = minI
    · obtain ⟨rfl, rfl⟩ := h1
      decide
    · have hfit : InI64 (a.tdiv b) := by
        have h := tdiv_bounds a b
        rw [InI64_iff] at *
        simp only [minI] at h1
        by_cases hm : a = -9223372036854775808
        · subst hm
          have hlt : ((-9223372036854775808 : Int).tdiv b).natAbs < 9223372036854775808 ∨ b = 1 := by
            rw [Int.natAbs_tdiv]
            by_cases hb1 : b = 1
            · exact Or.inr hb1
            · exact Or.inl (Nat.div_lt_self (by decide) (by omega))
          rcases hlt with hlt | rfl
          · omega
          · simp
        · omega
      simp [h0, h1, rawFit, hfit]

/-- Remainder by zero raises; otherwise the remainder with the sign of the dividend (and the one
overflowing quotient raises). -/
theorem C01_mod_exact_or_raises (a b : Int) (ha : InI64 a) (hb : InI64 b) :
    cmod a b = if b = 0 then .error .arithmetic
      else if InI64 (a.tdiv b) then .ok (a.tmod b) else .error .arithmetic := by
  have hd := C01_div_exact_or_raises a b ha hb
  unfold cdiv rawDiv exactOrRaise rawFit at hd
  unfold cmod rawMod
  by_cases h0 : b = 0
  · simp [h0]
  · by_cases h1 : b = -1 ∧ a = minI
    · obtain ⟨rfl, rfl⟩ := h1
      decide
    · simp only [h0, h1, if_false] at hd ⊢
      by_cases hf : InI64 (a.tdiv b)
      · simp [hf]
      · simp [hf] at hd

/-- Quotient and remainder recompose the dividend, the remainder is smaller than the divisor and has
the sign of the dividend. -/
theorem C01_div_mod_recompose (a b q r : Int) (ha : InI64 a) (hb : InI64 b)
    (hq : cdiv a b = .ok q) (hr : cmod a b = .ok r) :
    a = b * q + r ∧ |r| < |b| ∧ (0 ≤ a → 0 ≤ r) ∧ (a ≤ 0 → r ≤ 0) := by
  rw [C01_div_exact_or_raises a b ha hb] at hq
  rw [C01_mod_exact_or_raises a b ha hb] at hr
  unfold exactOrRaise at hq
  split_ifs at hq hr with h0 h1
  simp only [Except.ok.injEq] at hq hr
  subst hq hr
  refine ⟨(Int.mul_tdiv_add_tmod a b).symm, ?_, fun h => Int.tmod_nonneg _ h, fun h => ?_⟩
  · rw [← Int.natCast_natAbs, ← Int.natCast_natAbs, Int.natAbs_tmod]
    exact_mod_cast Nat.mod_lt _ (by omega)
  · have := Int.tmod_nonneg b (a := -a) (by omega)
    rw [Int.neg_tmod] at this
    omega

/-- The greatest common divisor is the mathematical one, or the absolute value overflowed. -/
theorem C01_gcd_exact_or_raises (a b : Int) (ha : InI64 a) (hb : InI64 b) :
    cgcd a b = if a = minI ∨ b = minI then .error .arithmetic else .ok (Int.gcd a b) := by
  have key : ∀ x : Int, InI64 x → x ≠ minI → InI64 |x| ∧ |x| ≠ minI := by
    intro x hx hne
    rw [InI64_iff] at hx
    simp only [minI] at hne ⊢
    have e : |x| ≤ 9223372036854775807 := abs_le.mpr ⟨by omega, by omega⟩
    have := abs_nonneg x
    exact ⟨by rw [InI64_iff]; omega, by omega⟩
  have hmin : ¬ InI64 |minI| := by decide
  unfold cgcd
  rw [C01_abs_exact_or_raises a ha, C01_abs_exact_or_raises b hb]
  unfold exactOrRaise
  by_cases h1 : a = minI
  · subst h1
    rw [if_neg hmin, if_pos (Or.inl rfl)]
    rfl
  · obtain ⟨ka, ka'⟩ := key a ha h1
    rw [if_pos ka]
    by_cases h2 : b = minI
    · subst h2
      rw [if_neg hmin, if_pos (Or.inr rfl)]
      rfl
    · obtain ⟨kb, kb'⟩ := key b hb h2
      rw [if_pos kb, if_neg (by tauto)]
      simp only [Res.bind_ok]
      unfold stdGcd
      rw [if_neg (by tauto)]
      simp [Int.gcd, Int.natAbs_abs]

/-- Parity test is exact. -/
theorem C01_is_even (a : Int) : cIsEven a = true ↔ ∃ k, a = 2 * k := by
  unfold cIsEven
  simp only [beq_iff_eq]
  constructor
  · intro h; exact ⟨a / 2, by omega⟩
  · rintro ⟨k, rfl⟩; omega

/-- Converting to and from unsigned is exact or raises. -/
theorem C01_unsigned_conversions (a : Int) (n : Nat) :
    (cToU64 a = if 0 ≤ a then .ok a.toNat else .error .domain) ∧
    (cFromULL n = if InI64 n then .ok (n : Int) else .error .domain) := by
  unfold cToU64 cFromULL
  constructor
  · split_ifs <;> first | rfl | omega
  · by_cases h : maxI < (n : Int)
    · rw [if_pos h, if_neg (by unfold InI64; omega)]
    · rw [if_neg h, if_pos ⟨by simp only [minI]; omega, by omega⟩]

/-! Non-vacuity: boundary inputs meet the hypotheses and exercise both outcomes. -/
example : InI64 maxI ∧ InI64 minI ∧ cadd maxI 1 = .error .arithmetic ∧ cadd maxI (-1) = .ok 9223372036854775806 := by
  decide
example : cmul 3037000500 3037000500 = .error .arithmetic ∧ cmul minI 1 = .ok minI ∧ cmul minI (-1) = .error .arithmetic := by
  decide
example : cdiv (-7) 2 = .ok (-3) ∧ cmod (-7) 2 = .ok (-1) ∧ cdiv minI (-1) = .error .arithmetic := by decide

end Wf
