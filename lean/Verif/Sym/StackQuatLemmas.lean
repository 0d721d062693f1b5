import Verif.Sym.StackSubsLemmas
import Verif.Sym.QuatModel

/-! # Quaternions of expressions with more stack -/

namespace Wf.Sym.Stack

variable {F : Type} [FnOps F] [DecidableEq F]

theorem below_bind {α β : Type} {x y : Res α} {f g : α → Res β} (h : Below x y) (hf : ∀ a, Below (f a) (g a)) : Below (x >>= f) (y >>= g) := by
  rcases h with h | h
  · exact .inl (by rw [h]; rfl)
  · rw [h]
    cases y with
    | error e => exact .refl _
    | ok a => exact hf a

variable {K K' : Ctors F} (hK : BelowK K K') {m m' : Nat} (hm : m ≤ m') (lic : Lic F) {n n' : Nat} (hn : n ≤ n')

/-- Step by step. -/
local macro "steps " h:term : tactic => `(tactic| (repeat' first
  | refine below_bind ?_ fun _ => ?_
  | exact BelowK.mul $h _
  | exact BelowK.add $h _
  | exact BelowK.pow $h _ _
  | exact below_negE $h _
  | exact below_subE $h _ _
  | exact below_divE $h _ _
  | exact below_atan2Fn $h _ _
  | exact below_oneHalf $h
  | with_reducible exact Below.refl _))

section
include hK

theorem below_sqrtE (a : Expr F) : Below (sqrtE K a) (sqrtE K' a) := by
  unfold sqrtE
  steps hK

theorem below_qconj (q : QuatE F) : Below (q.conj K) (q.conj K') := by
  unfold QuatE.conj
  steps hK

theorem below_qneg (q : QuatE F) : Below (q.neg K) (q.neg K') := by
  unfold QuatE.neg
  steps hK

theorem below_qmul (a b : QuatE F) : Below (a.mul K b) (a.mul K' b) := by
  unfold QuatE.mul mulE addE
  steps hK

theorem below_qsquaredNorm (q : QuatE F) : Below (q.squaredNorm K) (q.squaredNorm K') := by
  unfold QuatE.squaredNorm mulE addE
  steps hK

theorem below_qnorm (q : QuatE F) : Below (q.norm K) (q.norm K') := by
  unfold QuatE.norm
  exact below_bind (below_qsquaredNorm hK q) fun _ => below_sqrtE hK _

theorem below_qnormalized (q : QuatE F) : Below (q.normalized K) (q.normalized K') := by
  unfold QuatE.normalized
  refine below_bind (below_qnorm hK q) fun _ => ?_
  steps hK

theorem below_qinverse (q : QuatE F) : Below (q.inverse K) (q.inverse K') := by
  unfold QuatE.inverse
  refine below_bind (below_qsquaredNorm hK q) fun _ => ?_
  steps hK

theorem below_qmatrix (q : QuatE F) : Below (q.toRotationMatrix K) (q.toRotationMatrix K') := by
  unfold QuatE.toRotationMatrix mulE addE
  steps hK

theorem below_qrotate (q : QuatE F) (a b c : Expr F) : Below (q.rotate K a b c) (q.rotate K' a b c) := by
  unfold QuatE.rotate
  refine below_bind (below_qmul hK _ _) fun _ => below_bind (below_qconj hK q) fun _ => below_bind (below_qmul hK _ _) fun _ => .refl _

theorem below_lengthE (x y z : Expr F) : Below (lengthE K x y z) (lengthE K' x y z) := by
  unfold lengthE mulE addE
  refine below_bind (hK.mul _) fun _ => below_bind (hK.mul _) fun _ => below_bind (hK.add _) fun _ => below_bind (hK.mul _) fun _ =>
    below_bind (hK.add _) fun _ => below_sqrtE hK _

theorem below_fromMatrix (r00 r01 r02 r10 r11 r12 r20 r21 r22 : Expr F) :
    Below (fromRotationMatrixE K r00 r01 r02 r10 r11 r12 r20 r21 r22) (fromRotationMatrixE K' r00 r01 r02 r10 r11 r12 r20 r21 r22) := by
  unfold fromRotationMatrixE mulE addE
  repeat' first
    | exact below_sqrtE hK _
    | refine below_bind ?_ fun _ => ?_
    | exact hK.mul _
    | exact hK.add _
    | exact below_subE hK _ _
    | exact below_divE hK _ _
    | with_reducible exact Below.refl _

include hm

theorem below_fromAngleAxis (a vx vy vz : Expr F) : Below (fromAngleAxisE K m a vx vy vz) (fromAngleAxisE K' m' a vx vy vz) := by
  unfold fromAngleAxisE mulE
  repeat' first
    | refine below_bind ?_ fun _ => ?_
    | exact below_fns hK hm _ _
    | exact hK.mul _
    | exact below_divE hK _ _
    | with_reducible exact Below.refl _

theorem below_fromRotationVector (vx vy vz : Expr F) (eps : Option (Expr F)) :
    Below (fromRotationVectorE K m vx vy vz eps) (fromRotationVectorE K' m' vx vy vz eps) := by
  unfold fromRotationVectorE mulE
  cases eps <;>
  repeat' first
    | exact below_lengthE hK _ _ _
    | exact below_qnormalized hK _
    | refine below_bind ?_ fun _ => ?_
    | exact below_fns hK hm _ _
    | exact hK.mul _
    | exact below_divE hK _ _
    | with_reducible exact Below.refl _

theorem below_toAngleAxis (q : QuatE F) (eps : Option (Expr F)) : Below (toAngleAxisE K m q eps) (toAngleAxisE K' m' q eps) := by
  unfold toAngleAxisE mulE
  refine below_bind (below_lengthE hK _ _ _) fun l => ?_
  split
  · exact .refl _
  cases eps <;>
  repeat' first
    | refine below_bind ?_ fun _ => ?_
    | exact below_fns hK hm _ _
    | exact below_atan2Fn hK _ _
    | exact hK.mul _
    | exact below_negE hK _
    | exact below_divE hK _ _
    | with_reducible exact Below.refl _

theorem below_toRotationVector (q : QuatE F) (eps : Option (Expr F)) : Below (toRotationVectorE K m q eps) (toRotationVectorE K' m' q eps) := by
  unfold toRotationVectorE mulE
  cases eps <;>
  repeat' first
    | exact below_lengthE hK _ _ _
    | refine below_bind ?_ fun _ => ?_
    | exact below_fns hK hm _ _
    | exact below_atan2Fn hK _ _
    | exact hK.mul _
    | exact below_divE hK _ _
    | with_reducible exact Below.refl _

theorem below_toRotationVectorAcos (q : QuatE F) (eps : Option (Expr F)) :
    Below (toRotationVectorAcosE K m q eps) (toRotationVectorAcosE K' m' q eps) := by
  unfold toRotationVectorAcosE mulE
  cases eps <;>
  repeat' first
    | exact below_sqrtE hK _
    | refine below_bind ?_ fun _ => ?_
    | exact below_fns hK hm _ _
    | exact hK.mul _
    | exact below_subE hK _ _
    | exact below_divE hK _ _
    | with_reducible exact Below.refl _

end

/-! ## Derivatives -/

section

theorem below_jacobianRows {D D' : DiffCfg F} (hD : BelowD D D') (cols col : Nat) : ∀ (fs : List (Expr F)) (row : Nat) (buf : List (Expr F)),
    Below (jacobianRows D cols col row fs buf) (jacobianRows D' cols col row fs buf)
  | [], _, _ => .refl _
  | f :: fs, row, buf => by
    unfold jacobianRows
    exact below_andThen (below_diffE hD f) fun _ => below_jacobianRows hD cols col fs _ _

theorem below_jacobianCols {cfg cfg' : Expr F → DiffCfg F} (hD : ∀ v, BelowD (cfg v) (cfg' v)) (cols : Nat) (fs : List (Expr F)) :
    ∀ (vs : List (Expr F)) (col : Nat) (buf : List (Expr F)), Below (jacobianCols cfg cols fs col vs buf) (jacobianCols cfg' cols fs col vs buf)
  | [], _, _ => .refl _
  | v :: vs, col, buf => by
    unfold jacobianCols
    split
    · exact below_andThen (below_jacobianRows (hD v) _ _ _ _ _) fun _ => below_jacobianCols hD cols fs vs _ _
    · exact .refl _

theorem below_jacobian {cfg cfg' : Expr F → DiffCfg F} (hD : ∀ v, BelowD (cfg v) (cfg' v)) (fs vs : List (Expr F)) :
    Below (jacobian cfg fs vs) (jacobian cfg' fs vs) := by
  unfold jacobian
  split
  · exact .refl _
  split
  · exact .refl _
  · rcases below_jacobianCols hD vs.length fs vs 0 (List.replicate (fs.length * vs.length) (.int 0)) with h | h
    · exact .inl (by rw [h]; rfl)
    · exact .inr (by rw [h])

end

include hK hm

theorem below_quatCfg (v : Expr F) : BelowD (quatCfg K m v) (quatCfg K' m' v) := ⟨hK, hm, rfl, rfl, fun _ _ => .refl _⟩

include hn

theorem below_substAll (es : List (Expr F)) (pairs : List (Expr F × Expr F)) : Below (substAll K lic m n es pairs) (substAll K' lic m' n' es pairs) :=
  below_mapRes (fun _ => below_substAny hK lic hm hn _ _ _) es

theorem below_retractJacobian : Below (retractJacobian K lic m n) (retractJacobian K' lic m' n') := by
  unfold retractJacobian
  exact below_bind (below_fromRotationVector hK hm _ _ _ _) fun _ => below_bind (below_qmul hK _ _) fun _ =>
    below_bind (below_jacobian (below_quatCfg hK hm) _ _) fun _ => below_substAll hK hm lic hn _ _

theorem below_localJacobian : Below (localJacobian K lic m n) (localJacobian K' lic m' n') := by
  unfold localJacobian addE
  exact below_bind (below_qconj hK _) fun _ => below_bind (hK.add _) fun _ => below_bind (hK.add _) fun _ => below_bind (hK.add _) fun _ =>
    below_bind (hK.add _) fun _ => below_bind (below_qmul hK _ _) fun _ => below_bind (below_toRotationVector hK hm _ _) fun _ =>
    below_bind (below_jacobian (below_quatCfg hK hm) _ _) fun _ => below_bind (below_substAll hK hm lic hn _ _) fun _ =>
    below_bind (below_qsquaredNorm hK _) fun _ => below_substAll hK hm lic hn _ _

theorem below_substOwn (J : List (Expr F)) (q : QuatE F) : Below (substOwn K lic m n J q) (substOwn K' lic m' n' J q) :=
  below_substAll hK hm lic hn _ _

theorem below_rightRetract (q : QuatE F) : Below (rightRetractDerivative K lic m n q) (rightRetractDerivative K' lic m' n' q) :=
  below_bind (.refl _) fun _ => below_substOwn hK hm lic hn _ q

theorem below_rightLocal (q : QuatE F) : Below (rightLocalDerivative K lic m n q) (rightLocalDerivative K' lic m' n' q) :=
  below_bind (.refl _) fun _ => below_substOwn hK hm lic hn _ q

end Wf.Sym.Stack
