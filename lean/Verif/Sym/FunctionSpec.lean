import Verif.Sym.EvalSpec
import Verif.Sym.RealFloat
import Verif.Sym.FunctionModel

/-!
# Specification: exact floats for the functions
-/

namespace Wf.Sym
open Complex

/-- Exact floating point for the functions and comparisons: no rounding. Casting a float that does not fit in 64 bits is undefined behaviour. -/
class FnSem (F : Type) [DecidableEq F] extends FloatSem F, FnOps F where
  cmpInt_val : ∀ (n : Int) a x, InI64 n → val a = some x → cmpInt n a = some (if (n : ℝ) < x then .lt else if x < n then .gt else .eq)
  val_atan2 : ∀ a b y x, val a = some y → val b = some x → val (atan2 a b) = some (arg ⟨x, y⟩)
  floor_val : ∀ a x, val a = some x → floorI64 a = if InI64 ⌊x⌋ then .ok ⌊x⌋ else .error .ub
  floor_fits : ∀ a n, floorI64 a = .ok n → InI64 n

noncomputable instance : FnSem ℝ where
  cmpInt n a := some (if (n : ℝ) < a then .lt else if a < n then .gt else .eq)
  atan2 y x := arg ⟨x, y⟩
  floorI64 x := if InI64 ⌊x⌋ then .ok ⌊x⌋ else .error .ub
  cmpInt_val n a x _ h := by cases h; rfl
  val_atan2 a b y x h h' := by cases h; cases h'; rfl
  floor_val a x h := by cases h; rfl
  floor_fits a n h := by split_ifs at h with h1; cases h; exact h1

end Wf.Sym
