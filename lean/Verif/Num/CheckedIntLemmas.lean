import Verif.Num.CheckedIntModel
import Mathlib.Tactic.Linarith
import Mathlib.Tactic.Ring
import Mathlib.Tactic.Tauto

/-! Helper lemmas for the checked integer model. -/

namespace Wf

@[simp] theorem Res.bind_ok {α β : Type} (a : α) (f : α → Res β) :
    ((Except.ok a : Res α) >>= f) = f a := rfl
@[simp] theorem Res.bind_error {α β : Type} (e : Err) (f : α → Res β) :
    ((Except.error e : Res α) >>= f) = .error e := rfl
@[simp] theorem Res.pure_eq {α : Type} (a : α) : (pure a : Res α) = .ok a := rfl
@[simp] theorem Res.throw_eq {α : Type} (e : Err) : (throw e : Res α) = .error e := rfl

theorem rawFit_ok {v : Int} (h : InI64 v) : rawFit v = .ok v := by simp [rawFit, h]
theorem rawFit_ub {v : Int} (h : ¬ InI64 v) : rawFit v = .error .ub := by simp [rawFit, h]

theorem InI64_iff (a : Int) :
    InI64 a ↔ -9223372036854775808 ≤ a ∧ a ≤ 9223372036854775807 := Iff.rfl

theorem addGuard_eq (a b : Int) (ha : InI64 a) (hb : InI64 b) :
    addGuard a b = .ok (decide (¬ InI64 (a + b))) := by
  unfold addGuard rawSub
  rw [InI64_iff] at *
  split_ifs with h1 h2
  · rw [rawFit_ok (by rw [InI64_iff]; simp only [maxI]; omega)]
    simp only [Res.bind_ok, Res.pure_eq, maxI]
    congr 1; apply decide_eq_decide.mpr; rw [InI64_iff]; omega
  · rw [rawFit_ok (by rw [InI64_iff]; simp only [minI]; omega)]
    simp only [Res.bind_ok, Res.pure_eq, minI]
    congr 1; apply decide_eq_decide.mpr; rw [InI64_iff]; omega
  · simp only [Res.pure_eq]; congr 1; symm
    simp only [decide_eq_false_iff_not, not_not]; rw [InI64_iff]; omega

theorem subGuard_eq (a b : Int) (ha : InI64 a) (hb : InI64 b) :
    subGuard a b = .ok (decide (¬ InI64 (a - b))) := by
  unfold subGuard rawAdd
  rw [InI64_iff] at *
  split_ifs with h1 h2
  · rw [rawFit_ok (by rw [InI64_iff]; simp only [minI]; omega)]
    simp only [Res.bind_ok, Res.pure_eq, minI]
    congr 1; apply decide_eq_decide.mpr; rw [InI64_iff]; omega
  · rw [rawFit_ok (by rw [InI64_iff]; simp only [maxI]; omega)]
    simp only [Res.bind_ok, Res.pure_eq, maxI]
    congr 1; apply decide_eq_decide.mpr; rw [InI64_iff]; omega
  · simp only [Res.pure_eq]; congr 1; symm
    simp only [decide_eq_false_iff_not, not_not]; rw [InI64_iff]; omega

/-- Truncated division is bounded by the dividend. -/
theorem tdiv_bounds (a b : Int) : -(a.natAbs : Int) ≤ a.tdiv b ∧ a.tdiv b ≤ (a.natAbs : Int) := by
  have h : (a.tdiv b).natAbs ≤ a.natAbs := by
    rw [Int.natAbs_tdiv]; exact Nat.div_le_self _ _
  omega

theorem lt_maxdiv_pos {a b : Int} (hb : 0 < b) : a > maxI.tdiv b ↔ a * b > maxI := by
  have h : maxI.tdiv b = maxI / b := Int.tdiv_eq_ediv_of_nonneg (by simp [maxI])
  rw [h, gt_iff_lt, Int.ediv_lt_iff_lt_mul hb]

theorem lt_mindiv_pos {a b : Int} (hb : 0 < b) : a < minI.tdiv b ↔ a * b < minI := by
  have h : minI.tdiv b = -((-minI) / b) := by
    have : minI = -(-minI) := by ring
    conv_lhs => rw [this, Int.neg_tdiv]
    rw [Int.tdiv_eq_ediv_of_nonneg (by simp [minI])]
  rw [h]
  have := Int.ediv_lt_iff_lt_mul (a := -minI) (b := -a) hb
  constructor
  · intro h2
    have := this.mp (by omega)
    linarith [neg_mul a b]
  · intro h2
    have := this.mpr (by rw [neg_mul]; linarith)
    omega

theorem mulGuard_eq (a b : Int) (ha : InI64 a) (hb : InI64 b) :
    mulGuard a b = .ok (decide (¬ InI64 (a * b))) := by
  have hdiv : ∀ c, InI64 c → b ≠ 0 → b ≠ -1 → rawDiv c b = .ok (c.tdiv b) := by
    intro c hc h0 h1
    unfold rawDiv
    rw [if_neg h0, rawFit_ok]
    rw [InI64_iff] at *
    have h := tdiv_bounds c b
    rcases eq_or_ne c minI with rfl | hne
    · have h3 : (minI.tdiv b).natAbs < minI.natAbs ∨ b.natAbs = 1 := by
        rw [Int.natAbs_tdiv]
        by_cases hb1 : b.natAbs = 1
        · exact Or.inr hb1
        · exact Or.inl (Nat.div_lt_self (by simp [minI]) (by omega))
      rcases h3 with h3 | h3
      · have e : minI.natAbs = 9223372036854775808 := rfl
        omega
      · have : b = 1 := by omega
        subst this
        simp [minI]
    · simp only [minI] at hne
      omega
  have hmax : InI64 maxI := by simp [InI64, minI, maxI]
  have hmin : InI64 minI := by simp [InI64, minI, maxI]
  unfold mulGuard
  split_ifs with h1 h2 h3
  · rw [hdiv _ hmax (by omega) (by omega), hdiv _ hmin (by omega) (by omega)]
    simp only [Res.bind_ok, Res.pure_eq]
    have e1 := lt_maxdiv_pos (a := a) h1
    have e2 := lt_mindiv_pos (a := a) h1
    split_ifs with h4
    · congr 1; symm; rw [decide_eq_true_iff]; rw [e1] at h4
      simp only [InI64]; omega
    · congr 1; apply decide_eq_decide.mpr; rw [e2]; rw [e1] at h4
      simp only [InI64]; omega
  · simp only [Res.pure_eq]; congr 1; apply decide_eq_decide.mpr
    subst h2; rw [InI64_iff] at *; simp only [minI]; omega
  · rw [hdiv _ hmax (by omega) (by omega), hdiv _ hmin (by omega) (by omega)]
    simp only [Res.bind_ok, Res.pure_eq]
    have hb' : 0 < -b := by omega
    have e1 := lt_maxdiv_pos (a := -a) hb'
    have e2 := lt_mindiv_pos (a := -a) hb'
    rw [Int.tdiv_neg] at e1 e2
    rw [neg_mul_neg] at e1 e2
    split_ifs with h4
    · congr 1; symm; rw [decide_eq_true_iff]
      have := e1.mp (by omega)
      simp only [InI64]; omega
    · congr 1; apply decide_eq_decide.mpr
      have h4' : ¬ (a * b > maxI) := fun h => h4 (by have := e1.mpr h; omega)
      constructor
      · intro h; have := e2.mp (by omega); simp only [InI64]; omega
      · intro h; simp only [InI64] at h; have := e2.mpr (by omega); omega
  · have : b = 0 := by omega
    subst this
    simp [InI64, minI, maxI]

end Wf
