import Verif.Sym.StackQuatLemmas
import Verif.Sym.StackFnProps
import Verif.Sym.QuatDerivProps

/-!
# C78 for quaternions

The operations and conversions of quaternions of expressions, and the two derivatives that are computed once and kept in static variables, do not
depend on the stack that is left.
-/

namespace Wf.Sym

variable {F : Type} [DecidableEq F] [FnSem F]

open Stack

/-- The two runs agree if neither runs out of stack. -/
def SameIfEnds {α : Type} (x y : Res α) : Prop := x ≠ .error .terminate → y ≠ .error .terminate → x = y

/-- What lies below the same run for all larger stacks agrees for any two. -/
theorem sameIfEnds_of_below {α : Type} (run : Nat → Nat → Nat → Res α)
    (h : ∀ k k' m m' n n', k ≤ k' → m ≤ m' → n ≤ n' → Below (run k m n) (run k' m' n')) (k k' m m' n n' : Nat) : SameIfEnds (run k m n) (run k' m' n') :=
  fun hx hy => (h k _ m _ n _ (Nat.le_max_left k k') (Nat.le_max_left m m') (Nat.le_max_left n n')).agree
    (h k' _ m' _ n' _ (Nat.le_max_right k k') (Nat.le_max_right m m') (Nat.le_max_right n n')) hx hy

/-- **C78** for the algebra of quaternions. -/
theorem C78_quaternion_algebra (lic : Lic F) (k k' : Nat) (p q : QuatE F) (a b c : Expr F) :
    SameIfEnds (p.mul (ctors lic k) q) (p.mul (ctors lic k') q) ∧ SameIfEnds (p.conj (ctors lic k)) (p.conj (ctors lic k')) ∧
    SameIfEnds (p.neg (ctors lic k)) (p.neg (ctors lic k')) ∧ SameIfEnds (p.squaredNorm (ctors lic k)) (p.squaredNorm (ctors lic k')) ∧
    SameIfEnds (p.norm (ctors lic k)) (p.norm (ctors lic k')) ∧ SameIfEnds (p.normalized (ctors lic k)) (p.normalized (ctors lic k')) ∧
    SameIfEnds (p.inverse (ctors lic k)) (p.inverse (ctors lic k')) ∧ SameIfEnds (p.rotate (ctors lic k) a b c) (p.rotate (ctors lic k') a b c) ∧
    SameIfEnds (p.toRotationMatrix (ctors lic k)) (p.toRotationMatrix (ctors lic k')) :=
  ⟨sameIfEnds_of_below (fun k _ _ => p.mul (ctors lic k) q) (fun _ _ _ _ _ _ h _ _ => below_qmul (below_ctors lic h) p q) k k' 0 0 0 0,
    sameIfEnds_of_below (fun k _ _ => p.conj (ctors lic k)) (fun _ _ _ _ _ _ h _ _ => below_qconj (below_ctors lic h) p) k k' 0 0 0 0,
    sameIfEnds_of_below (fun k _ _ => p.neg (ctors lic k)) (fun _ _ _ _ _ _ h _ _ => below_qneg (below_ctors lic h) p) k k' 0 0 0 0,
    sameIfEnds_of_below (fun k _ _ => p.squaredNorm (ctors lic k)) (fun _ _ _ _ _ _ h _ _ => below_qsquaredNorm (below_ctors lic h) p) k k' 0 0 0 0,
    sameIfEnds_of_below (fun k _ _ => p.norm (ctors lic k)) (fun _ _ _ _ _ _ h _ _ => below_qnorm (below_ctors lic h) p) k k' 0 0 0 0,
    sameIfEnds_of_below (fun k _ _ => p.normalized (ctors lic k)) (fun _ _ _ _ _ _ h _ _ => below_qnormalized (below_ctors lic h) p) k k' 0 0 0 0,
    sameIfEnds_of_below (fun k _ _ => p.inverse (ctors lic k)) (fun _ _ _ _ _ _ h _ _ => below_qinverse (below_ctors lic h) p) k k' 0 0 0 0,
    sameIfEnds_of_below (fun k _ _ => p.rotate (ctors lic k) a b c) (fun _ _ _ _ _ _ h _ _ => below_qrotate (below_ctors lic h) p a b c) k k' 0 0 0 0,
    sameIfEnds_of_below (fun k _ _ => p.toRotationMatrix (ctors lic k)) (fun _ _ _ _ _ _ h _ _ => below_qmatrix (below_ctors lic h) p) k k' 0 0 0 0⟩

/-- **C78** for the conversions of quaternions. -/
theorem C78_quaternion_conversions (lic : Lic F) (k k' m m' : Nat) (q : QuatE F) (a x y z : Expr F) (eps : Option (Expr F))
    (r : Fin 9 → Expr F) :
    SameIfEnds (fromAngleAxisE (ctors lic k) m a x y z) (fromAngleAxisE (ctors lic k') m' a x y z) ∧
    SameIfEnds (fromRotationVectorE (ctors lic k) m x y z eps) (fromRotationVectorE (ctors lic k') m' x y z eps) ∧
    SameIfEnds (toAngleAxisE (ctors lic k) m q eps) (toAngleAxisE (ctors lic k') m' q eps) ∧
    SameIfEnds (toRotationVectorE (ctors lic k) m q eps) (toRotationVectorE (ctors lic k') m' q eps) ∧
    SameIfEnds (toRotationVectorAcosE (ctors lic k) m q eps) (toRotationVectorAcosE (ctors lic k') m' q eps) ∧
    SameIfEnds (fromRotationMatrixE (ctors lic k) (r 0) (r 1) (r 2) (r 3) (r 4) (r 5) (r 6) (r 7) (r 8))
      (fromRotationMatrixE (ctors lic k') (r 0) (r 1) (r 2) (r 3) (r 4) (r 5) (r 6) (r 7) (r 8)) :=
  ⟨sameIfEnds_of_below (fun k m _ => fromAngleAxisE (ctors lic k) m a x y z)
      (fun _ _ _ _ _ _ h hm _ => below_fromAngleAxis (below_ctors lic h) hm _ _ _ _) k k' m m' 0 0,
    sameIfEnds_of_below (fun k m _ => fromRotationVectorE (ctors lic k) m x y z eps)
      (fun _ _ _ _ _ _ h hm _ => below_fromRotationVector (below_ctors lic h) hm _ _ _ _) k k' m m' 0 0,
    sameIfEnds_of_below (fun k m _ => toAngleAxisE (ctors lic k) m q eps)
      (fun _ _ _ _ _ _ h hm _ => below_toAngleAxis (below_ctors lic h) hm _ _) k k' m m' 0 0,
    sameIfEnds_of_below (fun k m _ => toRotationVectorE (ctors lic k) m q eps)
      (fun _ _ _ _ _ _ h hm _ => below_toRotationVector (below_ctors lic h) hm _ _) k k' m m' 0 0,
    sameIfEnds_of_below (fun k m _ => toRotationVectorAcosE (ctors lic k) m q eps)
      (fun _ _ _ _ _ _ h hm _ => below_toRotationVectorAcos (below_ctors lic h) hm _ _) k k' m m' 0 0,
    sameIfEnds_of_below (fun k _ _ => fromRotationMatrixE (ctors lic k) (r 0) (r 1) (r 2) (r 3) (r 4) (r 5) (r 6) (r 7) (r 8))
      (fun _ _ _ _ _ _ h _ _ => below_fromMatrix (below_ctors lic h) _ _ _ _ _ _ _ _ _) k k' m m' 0 0⟩

/-- **C78** for the derivatives of quaternions: the Jacobian, and the two tangent space derivatives. -/
theorem C78_quaternion_derivatives (lic : Lic F) (k k' m m' n n' : Nat) (q : QuatE F) (fs vs : List (Expr F)) :
    SameIfEnds (jacobian (quatCfg (ctors lic k) m) fs vs) (jacobian (quatCfg (ctors lic k') m') fs vs) ∧
    SameIfEnds (rightRetractDerivative (ctors lic k) lic m n q) (rightRetractDerivative (ctors lic k') lic m' n' q) ∧
    SameIfEnds (rightLocalDerivative (ctors lic k) lic m n q) (rightLocalDerivative (ctors lic k') lic m' n' q) :=
  ⟨sameIfEnds_of_below (fun k m _ => jacobian (quatCfg (ctors lic k) m) fs vs)
      (fun _ _ _ _ _ _ h hm _ => below_jacobian (below_quatCfg (below_ctors lic h) hm) fs vs) k k' m m' n n',
    sameIfEnds_of_below (fun k m n => rightRetractDerivative (ctors lic k) lic m n q)
      (fun _ _ _ _ _ _ h hm hn => below_rightRetract (below_ctors lic h) hm lic hn q) k k' m m' n n',
    sameIfEnds_of_below (fun k m n => rightLocalDerivative (ctors lic k) lic m n q)
      (fun _ _ _ _ _ _ h hm hn => below_rightLocal (below_ctors lic h) hm lic hn q) k k' m m' n n'⟩

/-- **C78** for the static variables of the tangent space derivatives. The first call computes them with the stack that it has, and all later calls use
them. Whatever stack the first call has: if it does not run out of it, the static variables have the same elements. -/
theorem C78_static_jacobians (k m n : Nat) :
    (retractJacobian (F := ℝ) (ctors codeLic k) codeLic m n ≠ .error .terminate →
      retractJacobian (F := ℝ) (ctors codeLic k) codeLic m n = retractJacobian (ctors codeLic 8) codeLic 3 40 ∧
      ∃ es : List (Expr ℝ), es.length = 12 ∧ retractJacobian (ctors codeLic k) codeLic m n = .ok es) ∧
    (localJacobian (F := ℝ) (ctors codeLic k) codeLic m n ≠ .error .terminate →
      localJacobian (F := ℝ) (ctors codeLic k) codeLic m n = localJacobian (ctors codeLic 8) codeLic 3 40 ∧
      ∃ es : List (Expr ℝ), es.length = 12 ∧ localJacobian (ctors codeLic k) codeLic m n = .ok es) := by
  constructor
  · intro h
    have h2 := sameIfEnds_of_below (fun k m n => retractJacobian (F := ℝ) (ctors codeLic k) codeLic m n)
      (fun _ _ _ _ _ _ h hm hn => below_retractJacobian (below_ctors codeLic h) hm codeLic hn) k 8 m 3 n 40 h (by rw [retract_static]; intro h; cases h)
    exact ⟨h2, _, rfl, h2.trans retract_static⟩
  · intro h
    have h2 := sameIfEnds_of_below (fun k m n => localJacobian (F := ℝ) (ctors codeLic k) codeLic m n)
      (fun _ _ _ _ _ _ h hm hn => below_localJacobian (below_ctors codeLic h) hm codeLic hn) k 8 m 3 n 40 h (by rw [local_static]; intro h; cases h)
    exact ⟨h2, _, rfl, h2.trans local_static⟩

/-! ## Non-vacuity -/

/-- The hypotheses of `C78_static_jacobians` are met. -/
example : retractJacobian (F := ℝ) (ctors codeLic 8) codeLic 3 40 ≠ .error .terminate ∧
    localJacobian (F := ℝ) (ctors codeLic 8) codeLic 3 40 ≠ .error .terminate :=
  ⟨(by rw [retract_static]; intro h; cases h), (by rw [local_static]; intro h; cases h)⟩

/-- The hypotheses of `C78_quaternion_algebra`: the square of `x + y i` ends with the stacks 8 and 20, and not with stack 1. -/
example : QuatE.mul (ctors codeLic 8) ⟨vx, vy, .int 0, .int 0⟩ ⟨vx, vy, .int 0, .int 0⟩ ≠ (.error .terminate : Res (QuatE ℝ)) ∧
    QuatE.mul (ctors codeLic 20) ⟨vx, vy, .int 0, .int 0⟩ ⟨vx, vy, .int 0, .int 0⟩ ≠ (.error .terminate : Res (QuatE ℝ)) ∧
    QuatE.mul (ctors codeLic 1) ⟨vx, vy, .int 0, .int 0⟩ ⟨vx, vy, .int 0, .int 0⟩ = (.error .terminate : Res (QuatE ℝ)) := by
  refine ⟨?_, ?_, ?_⟩ <;> decide +kernel

/-- The hypotheses of `C78_quaternion_conversions`: a rotation about the first axis. -/
example : fromAngleAxisE (ctors codeLic 8) 3 vx (.int 1) (.int 0) (.int 0) ≠ (.error .terminate : Res (QuatE ℝ)) ∧
    fromAngleAxisE (ctors codeLic 20) 9 vx (.int 1) (.int 0) (.int 0) ≠ (.error .terminate : Res (QuatE ℝ)) := by
  refine ⟨?_, ?_⟩ <;> decide +kernel

/-- The hypotheses of `C78_quaternion_derivatives`: the derivative of `x²` and `x y` by both. -/
example : jacobian (quatCfg (ctors codeLic 8) 3) [.pow vx (.int 2), .mul [vx, vy]] [vx, vy] ≠ (.error .terminate : Res (Nat × Nat × List (Expr ℝ))) := by
  decide +kernel

end Wf.Sym
