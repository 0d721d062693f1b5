import Verif.Num.FloatLemmas

/-! # C07: comparing an integer with a double is exact -/

namespace Wf

/-- For every 64-bit integer and every finite double, under every rounding mode, the comparison is that of the exact values; in
particular no undefined float-to-integer conversion is reached. -/
theorem C07_compare_finite (rnd : ℚ → ℚ) (hr : IsRounding rnd) (i : Int) (hi : InI64 i) (f : ℚ) (hf : IsDouble f) :
    compareIntFloat rnd i (.fin f) = .ok (some (compare (i : ℚ) f)) := by
  have hlt : ∀ {a b : ℚ}, a < b → compare a b = .lt := fun h => compare_lt_iff_lt.mpr h
  have hgt : ∀ {a b : ℚ}, b < a → compare a b = .gt := fun h => compare_gt_iff_gt.mpr h
  have hi1 : (-2 ^ 63 : ℚ) ≤ i := by
    have := (InI64_iff i).mp hi
    exact_mod_cast (by norm_num; omega : (-2 ^ 63 : ℤ) ≤ i)
  have hi2 : (i : ℚ) ≤ 2 ^ 63 - 1 := by
    have := (InI64_iff i).mp hi
    exact_mod_cast (by norm_num; omega : i ≤ (2 ^ 63 - 1 : ℤ))
  unfold compareIntFloat
  simp only
  split_ifs with h1 h2
  · -- in range
    have hlt63 : f < 2 ^ 63 := by
      by_contra hc
      have h0 : (0 : ℚ) ≤ f - 2 ^ 63 := by linarith
      have hz : rnd 0 = 0 := hr.exact 0 (by exact_mod_cast isDouble_int (n := 0) (by norm_num))
      have := hr.mono _ _ h0
      rw [hz] at this
      linarith
    have hfit := trunc_range h1 hlt63
    have hrep := rep_trunc hf
    unfold castToI64
    rw [rawFit_ok hfit]
    simp only [Res.bind_ok, Res.pure_eq, hr.exact _ hrep.1, hr.exact _ hrep.2]
    split_ifs with h3 h4 h5 h6
    · rw [hgt (trunc_lt.1 h3)]
    · rw [hlt (trunc_lt.2 h4)]
    · have he : i = truncQ f := by omega
      rw [hgt]; rw [he]; linarith
    · have he : i = truncQ f := by omega
      rw [hlt]; rw [he]; linarith
    · have he : i = truncQ f := by omega
      rw [compare_eq_iff_eq.mpr]; rw [he]; linarith
  · -- too large
    rw [hlt]
    · rfl
    · by_contra hc
      have h0 : f - 2 ^ 63 ≤ -1 := by linarith
      have hz : rnd (-1) = -1 := hr.exact (-1) (by exact_mod_cast isDouble_int (n := -1) (by norm_num))
      have := hr.mono _ _ h0
      rw [hz] at this
      exact h2 this
  · rw [hgt]
    · rfl
    · have : f < -2 ^ 63 := not_le.mp h1
      linarith

/-- NaN has no order; infinities lie beyond every integer. -/
theorem C07_compare_special (rnd : ℚ → ℚ) (i : Int) :
    compareIntFloat rnd i .nan = .ok none ∧
    compareIntFloat rnd i (.inf true) = .ok (some .gt) ∧
    compareIntFloat rnd i (.inf false) = .ok (some .lt) := ⟨rfl, rfl, rfl⟩

/-! Non-vacuity: a rounding exists, and 2^53 + 1 differs from the double 2^53 to which it would be rounded. -/
example : IsRounding id := ⟨fun _ _ h => h, fun _ _ => rfl⟩
example : IsDouble (2 ^ 53) ∧ InI64 (2 ^ 53 + 1) :=
  ⟨⟨1, 53, by norm_num, by norm_num, by norm_num, by norm_num⟩, by decide⟩
example : compareIntFloat id (2 ^ 53 + 1) (.fin (2 ^ 53)) = .ok (some .gt) := by
  rw [C07_compare_finite id ⟨fun _ _ h => h, fun _ _ => rfl⟩ _ (by decide) _
    ⟨1, 53, by norm_num, by norm_num, by norm_num, by norm_num⟩]
  rw [compare_gt_iff_gt.mpr (by norm_num)]

end Wf
