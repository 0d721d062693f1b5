import Verif.Num.RationalModel
import Verif.Num.CheckedIntProps
import Mathlib.Data.Rat.Lemmas
import Mathlib.Tactic.FieldSimp
import Mathlib.Algebra.Order.Field.Rat

/-! Specification of rational constants and helper lemmas. -/

namespace Wf

/-- The number a rational constant denotes. -/
def RatC.val (r : RatC) : ℚ := (r.n : ℚ) / (r.d : ℚ)

/-- The invariant: 64-bit components, positive denominator, lowest terms. -/
def RatC.Canonical (r : RatC) : Prop := InI64 r.n ∧ InI64 r.d ∧ 0 < r.d ∧ Int.gcd r.n r.d = 1

/-- The reduced numerator and denominator of a rational number (Lean's own normal form). -/
def canon (q : ℚ) : RatC := ⟨q.num, q.den⟩

theorem canon_val (q : ℚ) : (canon q).val = q := by
  unfold canon RatC.val
  simpa using Rat.num_div_den q

theorem canon_eq {n d : Int} (hd : 0 < d) (hg : Int.gcd n d = 1) : canon ((n : ℚ) / d) = ⟨n, d⟩ := by
  have h : Nat.Coprime n.natAbs d.natAbs := hg
  unfold canon
  rw [Rat.num_div_eq_of_coprime hd h, Rat.den_div_eq_of_coprime hd h]

theorem RatC.Canonical.eq_canon {r : RatC} (h : r.Canonical) : r = canon r.val := by
  unfold RatC.val
  rw [canon_eq h.2.2.1 h.2.2.2]

theorem RatC.Canonical.ext {a b : RatC} (ha : a.Canonical) (hb : b.Canonical) (h : a.val = b.val) : a = b := by
  rw [ha.eq_canon, hb.eq_canon, h]

theorem RatC.Canonical.d_ne {a : RatC} (ha : a.Canonical) : (a.d : ℚ) ≠ 0 := by
  have := ha.2.2.1
  exact_mod_cast this.ne'

theorem div_nonneg_iff_of_pos_right {a d : ℚ} (hd : 0 < d) : 0 ≤ a / d ↔ 0 ≤ a := by
  rw [le_div_iff₀ hd, zero_mul]

theorem div_nonpos_iff_of_pos_right {a d : ℚ} (hd : 0 < d) : a / d ≤ 0 ↔ a ≤ 0 := by
  rw [div_le_iff₀ hd, zero_mul]

theorem canonical_one : RatC.Canonical ⟨1, 1⟩ := by refine ⟨?_, ?_, ?_, ?_⟩ <;> decide

theorem fits_tdiv {a b : Int} (ha : InI64 a) (hm : a ≠ minI) : InI64 (a.tdiv b) ∧ a.tdiv b ≠ minI := by
  have h := tdiv_bounds a b
  rw [InI64_iff] at *
  simp only [minI] at *
  omega

theorem createPair_spec (n d : Int) (hn : InI64 n) (hd : InI64 d) (hn' : n ≠ minI) (hd' : d ≠ minI) (h0 : d ≠ 0) :
    createPairBody n d = .ok (canon ((n : ℚ) / d)) ∧ (canon ((n : ℚ) / d)).Canonical := by
  have hgpos : 0 < Int.gcd n d := Int.gcd_pos_of_ne_zero_right n h0
  have hg64 : InI64 (Int.gcd n d) := by
    have : Int.gcd n d ≤ d.natAbs := Nat.le_of_dvd (by omega) (Int.gcd_dvd_natAbs_right n d)
    rw [InI64_iff] at *
    simp only [minI] at hd'
    omega
  obtain ⟨a, ha⟩ := Int.gcd_dvd_left (a := n) (b := d)
  obtain ⟨b, hb⟩ := Int.gcd_dvd_right (a := n) (b := d)
  set g := Int.gcd n d with hgdef
  have hgi : (g : Int) ≠ 0 := by omega
  have hna : n.tdiv g = a := by rw [ha]; exact Int.mul_tdiv_cancel_left _ hgi
  have hdb : d.tdiv g = b := by rw [hb]; exact Int.mul_tdiv_cancel_left _ hgi
  have hcop : Int.gcd a b = 1 := by
    have h1 : Int.gcd n d = g * Int.gcd a b := by
      conv_lhs => rw [ha, hb]
      rw [Int.gcd_mul_left]; simp
    rw [← hgdef] at h1
    exact Nat.eq_of_mul_eq_mul_left hgpos (by omega)
  have hb0 : b ≠ 0 := by rintro rfl; simp at hb; exact h0 hb
  have fa := fits_tdiv (b := g) hn hn'
  have fb := fits_tdiv (b := g) hd hd'
  rw [hna] at fa
  rw [hdb] at fb
  have hq : (n : ℚ) / d = (a : ℚ) / b := by
    rw [ha, hb]; push_cast
    have : (g : ℚ) ≠ 0 := by exact_mod_cast hgpos.ne'
    have : (b : ℚ) ≠ 0 := by exact_mod_cast hb0
    field_simp
  unfold createPairBody stdGcd
  rw [if_neg (by tauto)]
  simp only [Res.bind_ok]
  rw [← hgdef, C01_div_exact_or_raises n g hn hg64, C01_div_exact_or_raises d g hd hg64, if_neg hgi, if_neg hgi, hna, hdb]
  simp only [exactOrRaise, if_pos fa.1, if_pos fb.1, Res.bind_ok]
  split_ifs with hneg
  · rw [C01_neg_exact_or_raises _ fa.1, C01_neg_exact_or_raises _ fb.1]
    have ga : InI64 (-a) := by rw [InI64_iff] at *; simp only [minI] at *; omega
    have gb : InI64 (-b) := by rw [InI64_iff] at *; simp only [minI] at *; omega
    simp only [exactOrRaise, if_pos ga, if_pos gb, Res.bind_ok, Res.pure_eq]
    have hq2 : (n : ℚ) / d = ((-a : Int) : ℚ) / ((-b : Int) : ℚ) := by
      rw [hq]; push_cast; rw [neg_div_neg_eq]
    have hc2 : Int.gcd (-a) (-b) = 1 := by simpa using hcop
    rw [hq2, canon_eq (by omega) hc2]
    exact ⟨rfl, ga, gb, by show 0 < -b; omega, hc2⟩
  · have hpos : 0 < b := by omega
    simp only [Res.pure_eq]
    rw [hq, canon_eq hpos hcop]
    exact ⟨rfl, fa.1, fb.1, hpos, hcop⟩

theorem ratMk_spec (n d : Int) (hn : InI64 n) (hd : InI64 d) (hn' : n ≠ minI) (hd' : d ≠ minI) (h0 : d ≠ 0) :
    ratMk n d = .ok (canon ((n : ℚ) / d)) ∧ (canon ((n : ℚ) / d)).Canonical := by
  have h := createPair_spec n d hn hd hn' hd' h0
  unfold ratMk
  rw [h.1]
  exact ⟨rfl, h.2⟩

theorem ratMk_ub {n d : Int} (h : n = minI ∨ d = minI) : ratMk n d = .error .ub := by
  unfold ratMk createPairBody stdGcd
  rw [if_pos h]
  rfl

theorem pos_ne_minI {d : Int} (h : 0 < d) : d ≠ minI := by simp only [minI]; omega

/-- All the arithmetic operators end in the constructor applied to a numerator and a non-zero
denominator that fits. -/
theorem ratMk_total (n d : Int) (hn : InI64 n) (hd : InI64 d) (h0 : d ≠ 0) :
    ratMk n d = if n = minI ∨ d = minI then .error .ub else .ok (canon ((n : ℚ) / d)) := by
  split_ifs with h
  · exact ratMk_ub h
  · exact (ratMk_spec n d hn hd (by tauto) (by tauto) h0).1

theorem tmod_fits {a b : Int} (hb : InI64 b) (h0 : 0 < b) : InI64 (a.tmod b) ∧ a.tmod b ≠ minI := by
  have h : (a.tmod b).natAbs < b.natAbs := by
    rw [Int.natAbs_tmod]; exact Nat.mod_lt _ (by omega)
  rw [InI64_iff] at *
  simp only [minI] at *
  omega

theorem tdiv_fits_pos {a b : Int} (ha : InI64 a) (h0 : 0 < b) : InI64 (a.tdiv b) := by
  by_cases hm : a = minI
  · rcases eq_or_ne b 1 with rfl | h1
    · rw [Int.tdiv_one]; exact ha
    · subst hm
      have : (minI.tdiv b).natAbs < 9223372036854775808 := by
        rw [Int.natAbs_tdiv]
        exact Nat.div_lt_self (by decide) (by omega)
      rw [InI64_iff]; omega
  · exact (fits_tdiv ha hm).1

theorem ratNormalized_spec (r : RatC) (h : r.Canonical) :
    ratNormalized r = .ok (r.n.tdiv r.d, canon ((r.n.tmod r.d : Int) / r.d)) ∧
    (canon (((r.n.tmod r.d : Int) : ℚ) / r.d)).Canonical := by
  have hf := tdiv_fits_pos h.1 h.2.2.1
  have hm := tmod_fits (a := r.n) h.2.1 h.2.2.1
  have hs := ratMk_spec (r.n.tmod r.d) r.d hm.1 h.2.1 hm.2 (pos_ne_minI h.2.2.1) h.2.2.1.ne'
  unfold ratNormalized
  rw [C01_div_exact_or_raises _ _ h.1 h.2.1, C01_mod_exact_or_raises _ _ h.1 h.2.1,
    if_neg h.2.2.1.ne', if_neg h.2.2.1.ne', if_pos hf, exactOrRaise, if_pos hf]
  simp only [Res.bind_ok, hs.1]
  exact ⟨rfl, hs.2⟩

theorem mulFits_or {a b : Int} (ha : InI64 a) (hb : InI64 b) :
    cmul a b = if InI64 (a * b) then .ok (a * b) else .error .arithmetic :=
  C01_mul_exact_or_raises a b ha hb

end Wf
