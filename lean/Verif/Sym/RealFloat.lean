import Verif.Sym.EvalSpec

/-!
# Real numbers as exact floats

The instance of `FloatSem` used to show that the theorems about exact floats are not vacuous: a float is a real number. It is also how
expressions without float constants are evaluated in the examples, where the choice of `F` does not matter.
-/

namespace Wf.Sym
open Complex

noncomputable instance : FloatSem ℝ where
  eq a b := decide (a = b)
  lt a b := decide (a < b)
  bits _ := 0
  add a b := a + b
  mul a b := a * b
  pow a b := a ^ b
  ofInt n := n
  ofRat r := (r.val : ℝ)
  isNan _ := false
  isInf _ := false
  absLtOne a := decide (|a| < 1)
  complexFn f a b := (((fnVal f [⟨a, b⟩]).getD 0).re, ((fnVal f [⟨a, b⟩]).getD 0).im)
  eq_iff a b := by simp
  lt_irrefl a := by simp
  lt_trans a b c := by simp only [decide_eq_true_eq]; exact lt_trans
  lt_total a b h := by simp only [decide_eq_true_eq]; exact lt_or_gt_of_ne h
  val := some
  val_ofInt n _ := rfl
  val_ofRat r _ := rfl
  val_add a b x y ha hb := by cases ha; cases hb; rfl
  val_mul a b x y ha hb := by cases ha; cases hb; rfl
  val_pow a b x y ha hb _ := by cases ha; cases hb; rfl
  finite a x _ := ⟨rfl, rfl⟩
  lt_iff a b x y ha hb := by cases ha; cases hb; simp
  absLtOne_iff a x ha := by cases ha; simp
  val_complexFn f a b x y w ha hb hw := by
    cases ha; cases hb
    simp [hw]

end Wf.Sym
