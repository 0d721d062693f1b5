import Verif.Sym.StackDistLemmas
import Verif.Sym.StackFnProps

/-! # C78 for `distribute` and `collect` -/

namespace Wf.Sym

variable {F : Type} [DecidableEq F] [FnSem F]

open Stack

/-- **C78** for `distribute`. -/
theorem C78_distribute (lic : Lic F) (k k' m m' n n' : Nat) (e : Expr F)
    (h : Ends (distribute (ctors lic k) m n e)) (h' : Ends (distribute (ctors lic k') m' n' e)) :
    distribute (ctors lic k) m n e = distribute (ctors lic k') m' n' e :=
  (below_distribute (below_ctors lic (Nat.le_max_left k k')) (Nat.le_max_left m m') (Nat.le_max_left n n') e).agree
    (below_distribute (below_ctors lic (Nat.le_max_right k k')) (Nat.le_max_right m m') (Nat.le_max_right n n') e) h h'

/-- **C78** for `collect`, by any number of terms. -/
theorem C78_collect (lic : Lic F) (k k' m m' n n' : Nat) (e : Expr F) (ts : List (Expr F))
    (h : Ends (collectMany (ctors lic k) m n e ts)) (h' : Ends (collectMany (ctors lic k') m' n' e ts)) :
    collectMany (ctors lic k) m n e ts = collectMany (ctors lic k') m' n' e ts :=
  (below_collectMany (below_ctors lic (Nat.le_max_left k k')) (Nat.le_max_left m m') (Nat.le_max_left n n') e ts).agree
    (below_collectMany (below_ctors lic (Nat.le_max_right k k')) (Nat.le_max_right m m') (Nat.le_max_right n n') e ts) h h'

/-! ## Non-vacuity -/

/-- `x (y + 2)` is `x y + 2 x` with every stack with which `distribute` ends, and runs out of stack with depth one. -/
example : distribute (ctors codeLic 8) 3 1 (.mul [vx, .add [.int 2, vy]]) = .error .terminate ∧
    ∀ k m n, Ends (distribute (ctors codeLic k) m n (.mul [vx, .add [.int 2, vy]])) →
      distribute (ctors codeLic k) m n (.mul [vx, .add [.int 2, vy]]) = .ok (.add [.mul [vx, vy], .mul [.int 2, vx]]) := by
  refine ⟨by decide +kernel, fun k m n h => ?_⟩
  have h8 : distribute (ctors codeLic 8) 3 8 (.mul [vx, .add [.int 2, vy]]) = .ok (.add [.mul [vx, vy], .mul [.int 2, vx]]) := by decide +kernel
  exact (C78_distribute codeLic k 8 m 3 n 8 _ h (ends_ok h8)).trans h8

/-- Collecting `x` in `x y + x z`. -/
example (k m n : Nat) (h : Ends (collectMany (ctors codeLic k) m n (.add [.mul [vx, vy], .mul [vx, vz]]) [vx])) :
    collectMany (ctors codeLic k) m n (.add [.mul [vx, vy], .mul [vx, vz]]) [vx] = .ok (.mul [.add [vy, vz], vx]) := by
  have h8 : collectMany (ctors codeLic 8) 3 8 (.add [.mul [vx, vy], .mul [vx, vz]]) [vx] = .ok (.mul [.add [vy, vz], vx]) := by decide +kernel
  exact (C78_collect codeLic k 8 m 3 n 8 _ _ h (ends_ok h8)).trans h8

end Wf.Sym
