import Verif.Num.RationalLemmas
import Mathlib.Data.Rat.Floor

/-!
# C04, C05, C06, C08: rational constants

`canon q` is Lean's reduced numerator/denominator of the rational number `q`, so `= .ok (canon q)` says both
that the value is `q` and that the form is the canonical one.
-/

namespace Wf

/-! ## C04 -/

/-- The constructor on every pair of 64-bit integers. The two error outcomes: `std::gcd` of the most negative integer is
undefined, and 0/0 throws inside a `noexcept` function. A zero denominator with non-zero numerator produces
the degenerate constant `±1/0` (`C04_zero_denominator_is_accepted`). -/
theorem C04_constructor (n d : Int) (hn : InI64 n) (hd : InI64 d) (h0 : d ≠ 0) :
    ratMk n d = if n = minI ∨ d = minI then .error .ub else .ok (canon ((n : ℚ) / d)) :=
  ratMk_total n d hn hd h0

/-- Every constant the constructor returns (for a non-zero denominator) is in lowest terms with positive denominator and
denotes the requested quotient. -/
theorem C04_constructed_is_canonical (n d : Int) (hn : InI64 n) (hd : InI64 d) (h0 : d ≠ 0) (r : RatC)
    (h : ratMk n d = .ok r) : r.Canonical ∧ r.val = (n : ℚ) / d := by
  rw [ratMk_total n d hn hd h0] at h
  split_ifs at h with hm
  simp only [Except.ok.injEq] at h
  subst h
  exact ⟨(ratMk_spec n d hn hd (by tauto) (by tauto) h0).2, canon_val _⟩

/-- Constants made from integers are canonical. -/
theorem C04_from_integer (n : Int) (hn : InI64 n) : (ratOfInt n).Canonical ∧ (ratOfInt n).val = n := by
  refine ⟨⟨hn, by show InI64 1; decide, by show (0 : Int) < 1; decide, ?_⟩, ?_⟩
  · simp [ratOfInt]
  · simp [ratOfInt, RatC.val]

/-- Two rational constants are identical exactly when they are the same number. -/
theorem C04_identical_iff_same_number (a b : RatC) (ha : a.Canonical) (hb : b.Canonical) :
    ratEq a b = true ↔ a.val = b.val := by
  unfold ratEq
  simp only [Bool.and_eq_true, decide_eq_true_eq]
  constructor
  · rintro ⟨h1, h2⟩; simp [RatC.val, h1, h2]
  · intro h; rw [ha.ext hb h]; exact ⟨rfl, rfl⟩

/-- A zero denominator is not rejected: the constructor returns a constant with denominator zero, and 0/0 ends the process. -/
theorem C04_zero_denominator_is_accepted (n : Int) (hn : InI64 n) (hm : n ≠ minI) :
    ratMk n 0 = if n = 0 then .error .terminate else .ok ⟨n.sign, 0⟩ := by
  unfold ratMk createPairBody stdGcd
  rw [if_neg (by rintro (h | h); exact hm h; exact absurd h (by decide))]
  simp only [Res.bind_ok, Int.gcd_zero_right]
  have h64 : InI64 (n.natAbs : Int) := by rw [InI64_iff] at *; simp only [minI] at hm; omega
  rw [C01_div_exact_or_raises n _ hn h64, C01_div_exact_or_raises 0 _ (by decide) h64]
  by_cases h : n = 0
  · subst h; rfl
  · rw [if_neg (by omega), if_neg (by omega), if_neg h]
    have : n.tdiv (n.natAbs : Int) = n.sign := by
      rcases lt_or_gt_of_ne h with h1 | h1
      · obtain ⟨m, rfl⟩ : ∃ m, n = -m := ⟨-n, by omega⟩
        have e : ((-m).natAbs : Int) = m := by omega
        rw [e, Int.neg_tdiv, Int.tdiv_self (by omega)]
        rw [Int.sign_eq_neg_one_of_neg h1]
      · have e : (n.natAbs : Int) = n := by omega
        rw [e, Int.tdiv_self h, Int.sign_eq_one_of_pos h1]
    rw [this]
    have h1 : InI64 n.sign := by
      have : n.sign.natAbs ≤ 1 := by rw [Int.natAbs_sign]; split_ifs <;> omega
      rw [InI64_iff]; omega
    simp [exactOrRaise, h1, noexcept, show InI64 0 by decide]

/-! ## C05 -/

/-- What an arithmetic operator must do: raise if an intermediate product does not fit; otherwise the
canonical form of the exact result. (`numerator = minI` reaches `std::gcd` with the most negative integer, which is
undefined.) -/
def ratOutcome (fits : Prop) [Decidable fits] (numerator : Int) (exact : ℚ) : Res RatC :=
  if fits then (if numerator = minI then .error .ub else .ok (canon exact)) else .error .arithmetic

theorem C05_mul (a b : RatC) (ha : a.Canonical) (hb : b.Canonical) :
    ratMul a b = ratOutcome (InI64 (a.n * b.n) ∧ InI64 (a.d * b.d)) (a.n * b.n) (a.val * b.val) := by
  unfold ratMul ratOutcome
  rw [mulFits_or ha.1 hb.1, mulFits_or ha.2.1 hb.2.1]
  have hpos : 0 < a.d * b.d := mul_pos ha.2.2.1 hb.2.2.1
  by_cases h1 : InI64 (a.n * b.n)
  · by_cases h2 : InI64 (a.d * b.d)
    · rw [if_pos h1, if_pos h2, if_pos ⟨h1, h2⟩]
      simp only [Res.bind_ok]
      rw [ratMk_total _ _ h1 h2 hpos.ne']
      have hd := pos_ne_minI hpos
      have hv : ((a.n * b.n : Int) : ℚ) / ((a.d * b.d : Int) : ℚ) = a.val * b.val := by
        simp only [RatC.val]; push_cast; rw [div_mul_div_comm]
      rw [hv]
      simp [hd]
    · simp [h1, h2]
  · simp [h1]

theorem C05_mul_int (a : RatC) (b : Int) (ha : a.Canonical) (hb : InI64 b) :
    ratMulInt a b = ratOutcome (InI64 (a.n * b)) (a.n * b) (a.val * b) := by
  unfold ratMulInt ratOutcome
  rw [mulFits_or ha.1 hb]
  by_cases h1 : InI64 (a.n * b)
  · rw [if_pos h1, if_pos h1]
    simp only [Res.bind_ok]
    rw [ratMk_total _ _ h1 ha.2.1 ha.2.2.1.ne']
    have hd := pos_ne_minI ha.2.2.1
    have hv : ((a.n * b : Int) : ℚ) / (a.d : ℚ) = a.val * b := by
      simp only [RatC.val]; push_cast; ring
    rw [hv]
    simp [hd]
  · simp [h1]

/-- Quotient. For a zero divisor the result is the degenerate constant with denominator zero or
termination; callers must exclude it. -/
theorem C05_div (a b : RatC) (ha : a.Canonical) (hb : b.Canonical) (h0 : b.val ≠ 0) :
    ratDiv a b = if InI64 (a.n * b.d) ∧ InI64 (a.d * b.n) then
        (if a.n * b.d = minI ∨ a.d * b.n = minI then .error .ub else .ok (canon (a.val / b.val)))
      else .error .arithmetic := by
  unfold ratDiv
  rw [mulFits_or ha.1 hb.2.1, mulFits_or ha.2.1 hb.1]
  have hbn : b.n ≠ 0 := by intro h; apply h0; simp [RatC.val, h]
  have hne : a.d * b.n ≠ 0 := mul_ne_zero ha.2.2.1.ne' hbn
  by_cases h1 : InI64 (a.n * b.d)
  · by_cases h2 : InI64 (a.d * b.n)
    · rw [if_pos h1, if_pos h2, if_pos ⟨h1, h2⟩]
      simp only [Res.bind_ok]
      rw [ratMk_total _ _ h1 h2 hne]
      have hv : ((a.n * b.d : Int) : ℚ) / ((a.d * b.n : Int) : ℚ) = a.val / b.val := by
        simp only [RatC.val]; push_cast; rw [div_div_div_eq]
      rw [hv]
    · simp [h1, h2]
  · simp [h1]

theorem C05_add (a b : RatC) (ha : a.Canonical) (hb : b.Canonical) :
    ratAdd a b = ratOutcome (InI64 (a.n * b.d) ∧ InI64 (b.n * a.d) ∧ InI64 (a.n * b.d + b.n * a.d) ∧ InI64 (a.d * b.d))
      (a.n * b.d + b.n * a.d) (a.val + b.val) := by
  unfold ratAdd ratOutcome
  rw [mulFits_or ha.1 hb.2.1, mulFits_or hb.1 ha.2.1, mulFits_or ha.2.1 hb.2.1]
  have hpos : 0 < a.d * b.d := mul_pos ha.2.2.1 hb.2.2.1
  by_cases h1 : InI64 (a.n * b.d)
  · by_cases h2 : InI64 (b.n * a.d)
    · rw [if_pos h1, if_pos h2]
      simp only [Res.bind_ok]
      rw [C01_add_exact_or_raises _ _ h1 h2, exactOrRaise]
      by_cases h3 : InI64 (a.n * b.d + b.n * a.d)
      · by_cases h4 : InI64 (a.d * b.d)
        · rw [if_pos h3, if_pos h4, if_pos ⟨h1, h2, h3, h4⟩]
          simp only [Res.bind_ok]
          rw [ratMk_total _ _ h3 h4 hpos.ne']
          have hd := pos_ne_minI hpos
          have e1 := ha.d_ne
          have e2 := hb.d_ne
          have hv : ((a.n * b.d + b.n * a.d : Int) : ℚ) / ((a.d * b.d : Int) : ℚ) = a.val + b.val := by
            simp only [RatC.val]; push_cast; field_simp
          rw [hv]
          simp [hd]
        · simp [h3, h4]
      · simp [h3]
    · simp [h1, h2]
  · simp [h1]

theorem C05_sub (a b : RatC) (ha : a.Canonical) (hb : b.Canonical) :
    ratSub a b = ratOutcome (InI64 (a.n * b.d) ∧ InI64 (b.n * a.d) ∧ InI64 (a.n * b.d - b.n * a.d) ∧ InI64 (a.d * b.d))
      (a.n * b.d - b.n * a.d) (a.val - b.val) := by
  unfold ratSub ratOutcome
  rw [mulFits_or ha.1 hb.2.1, mulFits_or hb.1 ha.2.1, mulFits_or ha.2.1 hb.2.1]
  have hpos : 0 < a.d * b.d := mul_pos ha.2.2.1 hb.2.2.1
  by_cases h1 : InI64 (a.n * b.d)
  · by_cases h2 : InI64 (b.n * a.d)
    · rw [if_pos h1, if_pos h2]
      simp only [Res.bind_ok]
      rw [C01_sub_exact_or_raises _ _ h1 h2, exactOrRaise]
      by_cases h3 : InI64 (a.n * b.d - b.n * a.d)
      · by_cases h4 : InI64 (a.d * b.d)
        · rw [if_pos h3, if_pos h4, if_pos ⟨h1, h2, h3, h4⟩]
          simp only [Res.bind_ok]
          rw [ratMk_total _ _ h3 h4 hpos.ne']
          have hd := pos_ne_minI hpos
          have e1 := ha.d_ne
          have e2 := hb.d_ne
          have hv : ((a.n * b.d - b.n * a.d : Int) : ℚ) / ((a.d * b.d : Int) : ℚ) = a.val - b.val := by
            simp only [RatC.val]; push_cast; field_simp
          rw [hv]
          simp [hd]
        · simp [h3, h4]
      · simp [h3]
    · simp [h1, h2]
  · simp [h1]

/-- Splitting into integer part and remainder never fails, recomposes the input; the remainder is canonical, has magnitude
below one and the sign of the input. -/
theorem C05_normalized (r : RatC) (h : r.Canonical) :
    ∃ i f, ratNormalized r = .ok (i, f) ∧ f.Canonical ∧ r.val = i + f.val ∧ |f.val| < 1 ∧
      (0 ≤ r.val → 0 ≤ f.val) ∧ (r.val ≤ 0 → f.val ≤ 0) := by
  obtain ⟨h1, h2⟩ := ratNormalized_spec r h
  refine ⟨_, _, h1, h2, ?_, ?_, ?_, ?_⟩
  all_goals rw [canon_val]
  · have e := Int.mul_tdiv_add_tmod r.n r.d
    have : (r.n : ℚ) = r.d * (r.n.tdiv r.d : Int) + (r.n.tmod r.d : Int) := by exact_mod_cast e.symm
    have hd := h.d_ne
    simp only [RatC.val]
    rw [this]
    field_simp
  · have hm : (r.n.tmod r.d).natAbs < r.d.natAbs := by
      rw [Int.natAbs_tmod]; exact Nat.mod_lt _ (by have := h.2.2.1; omega)
    have hdp : (0 : ℚ) < r.d := by exact_mod_cast h.2.2.1
    rw [abs_div, abs_of_pos hdp, div_lt_one hdp]
    have h3 : |r.n.tmod r.d| < r.d := by
      have := h.2.2.1
      rw [abs_lt]; omega
    exact_mod_cast h3
  · have hdp : (0 : ℚ) < r.d := by exact_mod_cast h.2.2.1
    intro hr
    apply div_nonneg _ hdp.le
    have : 0 ≤ r.n := by
      have := (div_nonneg_iff_of_pos_right hdp).mp hr
      exact_mod_cast this
    exact_mod_cast Int.tmod_nonneg _ this
  · have hdp : (0 : ℚ) < r.d := by exact_mod_cast h.2.2.1
    intro hr
    apply div_nonpos_of_nonpos_of_nonneg _ hdp.le
    have : r.n ≤ 0 := by
      have := (div_nonpos_iff_of_pos_right hdp).mp hr
      exact_mod_cast this
    have := Int.tmod_nonneg r.d (a := -r.n) (by omega)
    rw [Int.neg_tmod] at this
    exact_mod_cast (by omega : r.n.tmod r.d ≤ 0)

/-- The integrality test is exact and the conversion returns the integer. -/
theorem C05_try_integer (r : RatC) (h : r.Canonical) :
    ratTryInt r = .ok (if r.d = 1 then some r.n else none) := by
  have hf := tdiv_fits_pos h.1 h.2.2.1
  unfold ratTryInt ratIsInteger
  rw [C01_div_exact_or_raises _ _ h.1 h.2.1, C01_mod_exact_or_raises _ _ h.1 h.2.1,
    if_neg h.2.2.1.ne', if_neg h.2.2.1.ne', if_pos hf, exactOrRaise, if_pos hf]
  simp only [Res.bind_ok, Res.pure_eq, noexcept]
  have key : r.n.tmod r.d = 0 ↔ r.d = 1 := by
    constructor
    · intro hm
      have hd : r.d ∣ r.n := Int.dvd_of_tmod_eq_zero hm
      have := Int.gcd_eq_right_iff_dvd (by have := h.2.2.1; omega) |>.mpr hd
      rw [h.2.2.2] at this
      exact_mod_cast this.symm
    · intro h1; rw [h1]; simp
  by_cases h1 : r.d = 1
  · rw [if_pos h1]
    have hm := key.mpr h1
    simp [hm, h1]
  · rw [if_neg h1]
    have hm : ¬ r.n.tmod r.d = 0 := fun x => h1 (key.mp x)
    simp [hm]

/-- The remainder operator returns the fractional part of the quotient (truncated towards zero), when the quotient is
computed. It is not `a - b * trunc(a / b)`: see `C05_mod_is_not_scaled`. -/
theorem C05_mod (a b q : RatC) (ha : a.Canonical) (hb : b.Canonical) (h0 : b.val ≠ 0) (hq : ratDiv a b = .ok q) :
    ∃ (f : RatC) (i : ℤ), ratMod a b = .ok f ∧ f.Canonical ∧ a.val / b.val = i + f.val ∧ |f.val| < 1 := by
  have hqc : q.Canonical ∧ q.val = a.val / b.val := by
    have hbn : b.n ≠ 0 := by intro h; apply h0; simp [RatC.val, h]
    have hne : a.d * b.n ≠ 0 := mul_ne_zero ha.2.2.1.ne' hbn
    have hq' := hq
    rw [C05_div a b ha hb h0] at hq'
    split_ifs at hq' with h1 h2
    unfold ratDiv at hq
    rw [mulFits_or ha.1 hb.2.1, mulFits_or ha.2.1 hb.1, if_pos h1.1, if_pos h1.2] at hq
    simp only [Res.bind_ok] at hq
    refine ⟨(C04_constructed_is_canonical _ _ h1.1 h1.2 hne q hq).1, ?_⟩
    simp only [Except.ok.injEq] at hq'
    rw [← hq', canon_val]
  obtain ⟨i, f, hn, hf, hv, hlt, _, _⟩ := C05_normalized q hqc.1
  refine ⟨f, i, ?_, hf, by rw [← hqc.2, hv], hlt⟩
  have hs := ratNormalized_spec q hqc.1
  have hm := tmod_fits (a := q.n) hqc.1.2.1 hqc.1.2.2.1
  rw [hs.1] at hn
  simp only [Except.ok.injEq, Prod.mk.injEq] at hn
  unfold ratMod
  rw [hq]
  simp only [Res.bind_ok]
  rw [C01_mod_exact_or_raises _ _ hqc.1.1 hqc.1.2.1, if_neg hqc.1.2.2.1.ne', if_pos (tdiv_fits_pos hqc.1.1 hqc.1.2.2.1)]
  simp only [Res.bind_ok]
  rw [(ratMk_spec _ _ hm.1 hqc.1.2.1 hm.2 (pos_ne_minI hqc.1.2.2.1) hqc.1.2.2.1.ne').1, hn.2]

/-- 7/2 modulo 2 is 3/2, but the operator returns 3/4. -/
theorem C05_mod_is_not_scaled : ratMod ⟨7, 2⟩ ⟨2, 1⟩ = .ok ⟨3, 4⟩ := by decide

/-! ## C06 -/

/-- Numbers compare as their values, or the cross products do not fit and the comparison raises. -/
theorem C06_less_than (a b : RatC) (ha : a.Canonical) (hb : b.Canonical) :
    ratLt a b = if InI64 (a.n * b.d) ∧ InI64 (b.n * a.d) then .ok (decide (a.val < b.val)) else .error .arithmetic := by
  unfold ratLt
  rw [mulFits_or ha.1 hb.2.1, mulFits_or hb.1 ha.2.1]
  have key : a.n * b.d < b.n * a.d ↔ a.val < b.val := by
    have e1 : (0 : ℚ) < a.d := by exact_mod_cast ha.2.2.1
    have e2 : (0 : ℚ) < b.d := by exact_mod_cast hb.2.2.1
    simp only [RatC.val]
    rw [div_lt_div_iff₀ e1 e2]
    exact_mod_cast Iff.rfl
  by_cases h1 : InI64 (a.n * b.d) <;> by_cases h2 : InI64 (b.n * a.d) <;> simp [h1, h2, key]

theorem C06_greater_than (a b : RatC) (ha : a.Canonical) (hb : b.Canonical) :
    ratGt a b = if InI64 (a.n * b.d) ∧ InI64 (b.n * a.d) then .ok (decide (b.val < a.val)) else .error .arithmetic := by
  unfold ratGt
  rw [mulFits_or ha.1 hb.2.1, mulFits_or hb.1 ha.2.1]
  have key : a.n * b.d > b.n * a.d ↔ b.val < a.val := by
    have e1 : (0 : ℚ) < a.d := by exact_mod_cast ha.2.2.1
    have e2 : (0 : ℚ) < b.d := by exact_mod_cast hb.2.2.1
    simp only [RatC.val]
    rw [div_lt_div_iff₀ e2 e1]
    exact_mod_cast Iff.rfl
  by_cases h1 : InI64 (a.n * b.d) <;> by_cases h2 : InI64 (b.n * a.d) <;> simp [h1, h2, key]

/-- The canonical order of rational constants: the order of the values, when it is computed. Because it is `noexcept`,
an overflow ends the process (`C06_order_can_terminate`). -/
theorem C06_order_partial (a b : RatC) (ha : a.Canonical) (hb : b.Canonical) :
    ratOrder a b = if a.d = b.d ∨ (InI64 (a.n * b.d) ∧ InI64 (b.n * a.d)) then .ok (compare a.val b.val)
      else .error .terminate := by
  have e1 : (0 : ℚ) < a.d := by exact_mod_cast ha.2.2.1
  have e2 : (0 : ℚ) < b.d := by exact_mod_cast hb.2.2.1
  have key : ∀ x y : Int, (x < y ↔ a.val < b.val) → (y < x ↔ b.val < a.val) → intOrder x y = compare a.val b.val := by
    intro x y h1 h2
    unfold intOrder
    rcases lt_trichotomy a.val b.val with h | h | h
    · rw [if_pos (h1.mpr h)]; exact (compare_lt_iff_lt.mpr h).symm
    · rw [if_neg (by rw [h1, h]; exact lt_irrefl _), if_neg (by rw [h2, h]; exact lt_irrefl _)]
      exact (compare_eq_iff_eq.mpr h).symm
    · rw [if_neg (by rw [h1]; exact lt_asymm h), if_pos (h2.mpr h)]; exact (compare_gt_iff_gt.mpr h).symm
  unfold ratOrder
  by_cases hd : a.d = b.d
  · rw [if_pos (Or.inl hd), if_pos hd]
    simp only [noexcept, Res.pure_eq]
    rw [key]
    · simp only [RatC.val]; rw [hd]; rw [hd] at e1; rw [div_lt_div_iff_of_pos_right e1]; exact_mod_cast Iff.rfl
    · simp only [RatC.val]; rw [hd]; rw [hd] at e1; rw [div_lt_div_iff_of_pos_right e1]; exact_mod_cast Iff.rfl
  · rw [if_neg hd, mulFits_or ha.1 hb.2.1, mulFits_or hb.1 ha.2.1]
    by_cases h1 : InI64 (a.n * b.d) <;> by_cases h2 : InI64 (b.n * a.d)
    · rw [if_pos h1, if_pos h2, if_pos (Or.inr ⟨h1, h2⟩)]
      simp only [Res.bind_ok, Res.pure_eq, noexcept]
      rw [key]
      · simp only [RatC.val]; rw [div_lt_div_iff₀ e1 e2]; exact_mod_cast Iff.rfl
      · simp only [RatC.val]; rw [div_lt_div_iff₀ e2 e1]; exact_mod_cast Iff.rfl
    all_goals simp [h1, h2, hd, noexcept]

/-- Disagreement with C06: ordering two canonical rational constants can end the process. -/
theorem C06_order_can_terminate :
    ∃ a b : RatC, a.Canonical ∧ b.Canonical ∧ ratOrder a b = .error .terminate :=
  ⟨⟨9223372036854775807, 2⟩, ⟨9223372036854775807, 5⟩, by refine ⟨?_, ?_, ?_, ?_⟩ <;> decide,
    by refine ⟨?_, ?_, ?_, ?_⟩ <;> decide, by decide⟩

/-- Integers compare exactly and never raise. -/
theorem C06_integer_order (a b : Int) : intOrder a b = compare a b := by
  unfold intOrder
  rcases lt_trichotomy a b with h | h | h
  · rw [if_pos h]; exact (compare_lt_iff_lt.mpr h).symm
  · subst h; simp
  · rw [if_neg (by omega), if_pos h]; exact (compare_gt_iff_gt.mpr h).symm

/-- Comparisons that return give a strict total order on the numbers. -/
theorem C06_strict_total_order (a b c : RatC) (ha : a.Canonical) (hb : b.Canonical) (hc : c.Canonical) :
    (ratLt a a ≠ .ok true) ∧
    (ratLt a b = .ok true → ratLt b c = .ok true → ratLt a c ≠ .ok false) ∧
    (ratLt a b = .ok false → ratLt b a = .ok false → a = b) := by
  have tr : ∀ x y : RatC, x.Canonical → y.Canonical → ∀ t, ratLt x y = .ok t → t = decide (x.val < y.val) := by
    intro x y hx hy t h
    rw [C06_less_than x y hx hy] at h
    split_ifs at h
    simp only [Except.ok.injEq] at h
    exact h.symm
  refine ⟨fun h => ?_, fun h1 h2 h3 => ?_, fun h1 h2 => ?_⟩
  · have := tr a a ha ha _ h; simp at this
  · have e1 := tr a b ha hb _ h1
    have e2 := tr b c hb hc _ h2
    have e3 := tr a c ha hc _ h3
    simp at e1 e2 e3
    exact absurd (e1.trans e2) (not_lt.mpr e3)
  · have e1 := tr a b ha hb _ h1
    have e2 := tr b a hb ha _ h2
    simp at e1 e2
    exact ha.ext hb (le_antisymm e2 e1)

/-! ## C08 -/

/-- The reduced multiple lies in (-1, 1], differs from the input by an even integer, and the reduction never fails. -/
theorem C08_mod_pi (r : RatC) (h : r.Canonical) :
    ∃ r', modPi r = .ok r' ∧ r'.Canonical ∧ -1 < r'.val ∧ r'.val ≤ 1 ∧ ∃ k : ℤ, r.val = r'.val + 2 * k := by
  obtain ⟨i, f, hn, hf, hv, hlt, hpos, hneg⟩ := C05_normalized r h
  have hi : InI64 i := by
    have := ratNormalized_spec r h
    rw [hn] at this
    have := this.1
    simp only [Except.ok.injEq, Prod.mk.injEq] at this
    rw [this.1]
    exact tdiv_fits_pos h.1 h.2.2.1
  have hfn : |f.n| < f.d := by
    have hdp : (0 : ℚ) < f.d := by exact_mod_cast hf.2.2.1
    rw [RatC.val, abs_div, abs_of_pos hdp, div_lt_one hdp] at hlt
    exact_mod_cast hlt
  have hfn' := abs_lt.mp hfn
  have hfd := hf.2.2.1
  have hfr := (InI64_iff _).mp hf.2.1
  obtain ⟨hl1, hl2⟩ := abs_lt.mp hlt
  -- the sign of the remainder is that of the integer part
  have hsgn1 : 0 < i → 0 ≤ f.val := by
    intro hip
    rcases le_total 0 r.val with h0 | h0
    · exact hpos h0
    · exfalso
      have : (1 : ℚ) ≤ i := by exact_mod_cast hip
      linarith
  have hsgn2 : i < 0 → f.val ≤ 0 := by
    intro hip
    rcases le_total 0 r.val with h0 | h0
    · exfalso
      have : (i : ℚ) ≤ -1 := by exact_mod_cast (by omega : i ≤ -1)
      linarith
    · exact hneg h0
  have hone : (⟨1, 1⟩ : RatC).val = 1 := by simp [RatC.val]
  have hmk : ratMk 1 1 = .ok ⟨1, 1⟩ := by decide
  have htm : i.tmod 2 = 0 ∨ i.tmod 2 = 1 ∨ i.tmod 2 = -1 := by
    have h1 := Int.mul_tdiv_add_tmod i 2
    have : (i.tmod 2).natAbs < 2 := by rw [Int.natAbs_tmod]; exact Nat.mod_lt _ (by decide)
    omega
  have hdec := Int.mul_tdiv_add_tmod i 2
  unfold modPi
  rw [hn]
  simp only [Res.bind_ok]
  rw [C01_mod_exact_or_raises i 2 hi (by decide), if_neg (by decide), if_pos (tdiv_fits_pos hi (by decide))]
  simp only [Res.bind_ok]
  rcases htm with ht | ht | ht
  · rw [ht, if_neg (by decide), if_neg (by decide)]
    refine ⟨f, rfl, hf, hl1, hl2.le, i.tdiv 2, ?_⟩
    rw [hv]
    have : (i : ℚ) = 2 * (i.tdiv 2 : Int) := by exact_mod_cast (by omega : i = 2 * i.tdiv 2)
    rw [this]; ring
  · rw [ht, if_pos rfl]
    have hipos : 0 < i := by
      rcases lt_or_ge 0 i with h1 | h1
      · exact h1
      · have := Int.tmod_nonneg 2 (a := -i) (by omega)
        rw [Int.neg_tmod] at this
        omega
    have hi2 : (i : ℚ) = 2 * (i.tdiv 2 : Int) + 1 := by exact_mod_cast (by omega : i = 2 * i.tdiv 2 + 1)
    by_cases hz : f.n = 0
    · simp only [ratIsZero, hz, decide_true, if_true]
      refine ⟨⟨1, 1⟩, hmk, canonical_one, by rw [hone]; norm_num, by rw [hone], i.tdiv 2, ?_⟩
      have : f.val = 0 := by simp [RatC.val, hz]
      rw [hv, this, hone, hi2]; ring
    · simp only [ratIsZero, hz, decide_false, Bool.false_eq_true, if_false, hmk, Res.bind_ok]
      have hsub := C05_sub f ⟨1, 1⟩ hf canonical_one
      simp only [mul_one, one_mul] at hsub
      unfold ratOutcome at hsub
      have f1 : InI64 f.n := hf.1
      have f2 : InI64 (f.n - f.d) := by
        have : 0 ≤ f.n := by
          have h0 := hsgn1 hipos
          have hdp : (0 : ℚ) < f.d := by exact_mod_cast hfd
          have := (div_nonneg_iff_of_pos_right hdp).mp h0
          exact_mod_cast this
        rw [InI64_iff]; omega
      have f3 : f.n - f.d ≠ minI := by
        have : 0 ≤ f.n := by
          have h0 := hsgn1 hipos
          have hdp : (0 : ℚ) < f.d := by exact_mod_cast hfd
          have := (div_nonneg_iff_of_pos_right hdp).mp h0
          exact_mod_cast this
        simp only [minI]; omega
      rw [if_pos ⟨f1, hf.2.1, f2, hf.2.1⟩, if_neg f3, hone] at hsub
      have hval : f.val - 1 = ((f.n - f.d : Int) : ℚ) / (f.d : ℚ) := by
        have := hf.d_ne
        simp only [RatC.val]; push_cast; field_simp
      refine ⟨_, hsub, ?_, ?_, ?_, i.tdiv 2 + 1, ?_⟩
      · rw [hval]
        exact (ratMk_spec _ _ f2 hf.2.1 f3 (pos_ne_minI hfd) hfd.ne').2
      · rw [canon_val]
        have h0 := hsgn1 hipos
        have hne : f.val ≠ 0 := by
          intro h; apply hz
          have := (div_eq_zero_iff.mp h).resolve_right hf.d_ne
          exact_mod_cast this
        have := lt_of_le_of_ne h0 (Ne.symm hne)
        linarith
      · rw [canon_val]; linarith
      · rw [canon_val, hv, hi2]; push_cast; ring
  · rw [ht, if_neg (by decide), if_pos rfl]
    have hineg : i < 0 := by
      rcases lt_or_ge i 0 with h1 | h1
      · exact h1
      · have := Int.tmod_nonneg 2 (a := i) h1
        omega
    have hi2 : (i : ℚ) = 2 * (i.tdiv 2 : Int) - 1 := by exact_mod_cast (by omega : i = 2 * i.tdiv 2 - 1)
    have hfle : f.n ≤ 0 := by
      have h0 := hsgn2 hineg
      have hdp : (0 : ℚ) < f.d := by exact_mod_cast hfd
      have := (div_nonpos_iff_of_pos_right hdp).mp h0
      exact_mod_cast this
    rw [hmk]
    simp only [Res.bind_ok]
    have hadd := C05_add ⟨1, 1⟩ f canonical_one hf
    simp only [mul_one, one_mul] at hadd
    unfold ratOutcome at hadd
    have f2 : InI64 (f.d + f.n) := by rw [InI64_iff]; omega
    have f3 : f.d + f.n ≠ minI := by simp only [minI]; omega
    rw [if_pos ⟨hf.2.1, hf.1, f2, hf.2.1⟩, if_neg f3, hone] at hadd
    have hval : 1 + f.val = ((f.d + f.n : Int) : ℚ) / (f.d : ℚ) := by
      have := hf.d_ne
      simp only [RatC.val]; push_cast; field_simp
    refine ⟨_, hadd, ?_, ?_, ?_, i.tdiv 2 - 1, ?_⟩
    · rw [hval]
      exact (ratMk_spec _ _ f2 hf.2.1 f3 (pos_ne_minI hfd) hfd.ne').2
    · rw [canon_val]; linarith
    · rw [canon_val]; have := hsgn2 hineg; linarith
    · rw [canon_val, hv, hi2]; push_cast; ring

/-! Non-vacuity -/
example : ratMk (-6) (-4) = .ok ⟨3, 2⟩ ∧ ratMk 6 (-4) = .ok ⟨-3, 2⟩ := by decide
example : RatC.Canonical ⟨-17, 6⟩ ∧ ratNormalized ⟨-17, 6⟩ = .ok (-2, ⟨-5, 6⟩) := by
  refine ⟨⟨?_, ?_, ?_, ?_⟩, ?_⟩ <;> decide
example : ratAdd ⟨1, 6⟩ ⟨1, 3⟩ = .ok ⟨1, 2⟩ ∧ ratDiv ⟨1, 6⟩ ⟨-1, 3⟩ = .ok ⟨-1, 2⟩ := by decide
example : modPi ⟨7, 2⟩ = .ok ⟨-1, 2⟩ ∧ modPi ⟨-7, 2⟩ = .ok ⟨1, 2⟩ ∧ modPi ⟨-3, 1⟩ = .ok ⟨1, 1⟩ := by decide
example : ratLt ⟨-1, 2⟩ ⟨1, 3⟩ = .ok true ∧ ratOrder ⟨1, 2⟩ ⟨1, 3⟩ = .ok .gt := by decide

end Wf
