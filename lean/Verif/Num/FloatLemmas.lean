import Verif.Num.FloatModel
import Verif.Num.CheckedIntLemmas
import Mathlib.Tactic.FieldSimp
import Mathlib.Tactic.Positivity
import Mathlib.Algebra.Order.Field.Rat
import Mathlib.Algebra.Order.Archimedean.Basic

/-! Helper lemmas on doubles. -/

namespace Wf

theorem isDouble_int {n : Int} (h : |n| < 2 ^ 53) : IsDouble n := ⟨n, 0, h, by norm_num, by norm_num, by simp⟩

theorem isDouble_neg {q : ℚ} (h : IsDouble q) : IsDouble (-q) := by
  obtain ⟨m, e, h1, h2, h3, rfl⟩ := h
  exact ⟨-m, e, by rwa [abs_neg], h2, h3, by push_cast; ring⟩

theorem isDouble_pow63 : IsDouble (2 ^ 63) := ⟨1, 63, by norm_num, by norm_num, by norm_num, by norm_num⟩

theorem rep_nonneg {q : ℚ} (h : IsDouble q) (h0 : 0 ≤ q) : IsDouble (⌊q⌋ : ℚ) ∧ IsDouble (q - ⌊q⌋) := by
  obtain ⟨m, e, h1, h2, h3, rfl⟩ := h
  have hm : 0 ≤ m := by
    have hp : (0 : ℚ) < (2 : ℚ) ^ e := zpow_pos (by norm_num) e
    have := nonneg_of_mul_nonneg_left h0 hp
    exact_mod_cast this
  rcases le_or_gt 0 e with he | he
  · obtain ⟨k, rfl⟩ := Int.eq_ofNat_of_zero_le he
    have hq : (m : ℚ) * (2 : ℚ) ^ (k : ℤ) = ((m * 2 ^ k : Int) : ℚ) := by push_cast; rw [zpow_natCast]
    rw [hq, Int.floor_intCast]
    refine ⟨⟨m, k, h1, h2, h3, hq.symm⟩, ?_⟩
    rw [sub_self]
    exact_mod_cast isDouble_int (n := 0) (by norm_num)
  · obtain ⟨k, hk⟩ := Int.eq_ofNat_of_zero_le (a := -e) (by omega)
    have hek : e = -(k : ℤ) := by omega
    subst hek
    have hq : (m : ℚ) * (2 : ℚ) ^ (-(k : ℤ)) = (m : ℚ) / ((2 ^ k : ℕ) : ℚ) := by
      rw [zpow_neg, zpow_natCast]; push_cast; rw [div_eq_mul_inv]
    have hfl : ⌊(m : ℚ) / ((2 ^ k : ℕ) : ℚ)⌋ = m / ((2 ^ k : ℕ) : ℤ) := Rat.floor_intCast_div_natCast m (2 ^ k)
    have hpos : (0 : ℤ) < ((2 ^ k : ℕ) : ℤ) := by positivity
    rw [abs_of_nonneg hm] at h1
    constructor
    · rw [hq, hfl]
      apply isDouble_int
      rw [abs_of_nonneg (Int.ediv_nonneg hm hpos.le)]
      exact lt_of_le_of_lt (Int.ediv_le_self _ hm) h1
    · refine ⟨m % ((2 ^ k : ℕ) : ℤ), -(k : ℤ), ?_, h2, h3, ?_⟩
      · rw [abs_of_nonneg (Int.emod_nonneg _ hpos.ne')]
        have : m % ((2 ^ k : ℕ) : ℤ) ≤ m := by
          have h5 := Int.mul_ediv_add_emod m ((2 ^ k : ℕ) : ℤ)
          have h6 : 0 ≤ ((2 ^ k : ℕ) : ℤ) * (m / ((2 ^ k : ℕ) : ℤ)) :=
            mul_nonneg hpos.le (Int.ediv_nonneg hm hpos.le)
          omega
        omega
      · rw [hq, hfl]
        have h5 : (m : ℚ) = ((2 ^ k : ℕ) : ℤ) * ((m / ((2 ^ k : ℕ) : ℤ) : ℤ) : ℚ) + ((m % ((2 ^ k : ℕ) : ℤ) : ℤ) : ℚ) := by
          exact_mod_cast (Int.mul_ediv_add_emod m ((2 ^ k : ℕ) : ℤ)).symm
        have hne : ((2 : ℚ) ^ k) ≠ 0 := by positivity
        rw [zpow_neg, zpow_natCast]
        conv_lhs => rw [h5]
        push_cast
        field_simp
        ring

theorem truncQ_neg {q : ℚ} (h : ¬ 0 ≤ q) : truncQ q = -⌊-q⌋ := by
  unfold truncQ; rw [if_neg h, Int.ceil_neg.symm.trans (by rw [neg_neg])] 

theorem rep_trunc {q : ℚ} (h : IsDouble q) : IsDouble (truncQ q : ℚ) ∧ IsDouble (q - truncQ q) := by
  by_cases h0 : 0 ≤ q
  · have := rep_nonneg h h0
    unfold truncQ; rw [if_pos h0]; exact this
  · have := rep_nonneg (isDouble_neg h) (by linarith)
    rw [truncQ_neg h0]
    constructor
    · push_cast; exact isDouble_neg this.1
    · have h2 := isDouble_neg this.2
      push_cast
      convert h2 using 1
      ring

/-- Truncation stays within one of the value, on the side of zero. -/
theorem trunc_lt {q : ℚ} {i : ℤ} : (truncQ q < i → q < i) ∧ (i < truncQ q → (i : ℚ) < q) := by
  unfold truncQ
  split_ifs with h
  · exact ⟨fun h1 => Int.floor_lt.mp h1, fun h1 => lt_of_lt_of_le (by exact_mod_cast h1) (Int.floor_le q)⟩
  · exact ⟨fun h1 => lt_of_le_of_lt (Int.le_ceil q) (by exact_mod_cast h1), fun h1 => Int.lt_ceil.mp h1⟩

theorem trunc_range {q : ℚ} (h1 : -2 ^ 63 ≤ q) (h2 : q < 2 ^ 63) : InI64 (truncQ q) := by
  rw [InI64_iff]
  unfold truncQ
  split_ifs with h
  · have h3 : 0 ≤ ⌊q⌋ := Int.floor_nonneg.mpr h
    have h4 : ⌊q⌋ < (2 ^ 63 : ℤ) := Int.floor_lt.mpr (by push_cast; exact h2)
    norm_num at h4
    omega
  · have h3 : ⌈q⌉ ≤ 0 := Int.ceil_le.mpr (by push_cast; linarith)
    have h4 : (-2 ^ 63 : ℤ) ≤ ⌈q⌉ := by
      have : (-2 ^ 63 : ℚ) ≤ ⌈q⌉ := le_trans h1 (Int.le_ceil q)
      exact_mod_cast this
    norm_num at h4
    omega

end Wf
