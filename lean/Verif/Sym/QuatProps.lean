import Verif.Sym.QuatReal
import Verif.Sym.SubstituteProps
import Verif.Sym.FunctionProps
import Verif.Sym.ExampleTools
import Verif.Sym.IntFloat

/-!
# C62: quaternions of expressions

The functions of `quaternion` on expressions have the values of the formulas of C29–C32, and the two tangent space derivatives are the Jacobians of the
retraction and of the local coordinates.
-/

namespace Wf.Sym

open Geo

variable {F : Type} [DecidableEq F] [FnSem F]

theorem has_zero {f : String → ℂ} : Has (named f) (.int 0 : Expr F) ((0 : ℝ) : ℂ) := ⟨good_int.2 ⟨by decide, by decide⟩, by rw [eval_int]; simp⟩

section
variable {ρ : Env F} {nK m : Nat}

/-- **C62**. The product of two quaternions has the value of the Hamilton product. -/
theorem C62_product (a b r : QuatE F) (u v : Quat ℂ) (ha : a.Has ρ u) (hb : b.Has ρ v) (h : LawfulRunOn (· = ρ) nK (fun _ K => a.mul K b) r) :
    r.Has ρ (u.mul v) := by
  obtain ⟨lic, hl, hr⟩ := h.lawful
  exact (runs_qmul (ctors_sound lic ρ nK) (hl ρ rfl) (.of ha) (.of hb) r hr).has

set_option maxRecDepth 100000 in
example (f : String → ℂ) : ∃ r : QuatE ℝ, r.Has (named f) (Quat.mul ⟨f "w", f "x", f "y", f "z"⟩ ⟨f "a", f "b", f "c", f "d"⟩) :=
  (Same.runs (n := 8) (run := fun _ K => qv.mul K qu) (by decide +kernel) _).imp fun r h => C62_product _ _ r _ _ (has_qv f) (has_qu f) h

/-- **C62**. Conjugation and negation. -/
theorem C62_conjugate_negate (a r s : QuatE F) (u : Quat ℂ) (ha : a.Has ρ u) (h : LawfulRunOn (· = ρ) nK (fun _ K => a.conj K) r)
    (h' : LawfulRunOn (· = ρ) nK (fun _ K => a.neg K) s) : r.Has ρ u.conj ∧ s.Has ρ u.neg := by
  obtain ⟨lic, hl, hr⟩ := h.lawful
  obtain ⟨lic', hl', hr'⟩ := h'.lawful
  exact ⟨(runs_qconj (ctors_sound lic ρ nK) (hl ρ rfl) (.of ha) r hr).has, (runs_qneg (ctors_sound lic' ρ nK) (hl' ρ rfl) (.of ha) s hr').has⟩

set_option maxRecDepth 100000 in
example (f : String → ℂ) : ∃ r s : QuatE ℝ, r.Has (named f) (Quat.conj ⟨f "w", f "x", f "y", f "z"⟩) ∧ s.Has (named f) (Quat.neg ⟨f "w", f "x", f "y", f "z"⟩) := by
  obtain ⟨r, hr⟩ := Same.runs (F := ℝ) (n := 8) (run := fun _ K => qv.conj K) (by decide +kernel) (· = named f)
  obtain ⟨s, hs⟩ := Same.runs (F := ℝ) (n := 8) (run := fun _ K => qv.neg K) (by decide +kernel) (· = named f)
  exact ⟨r, s, C62_conjugate_negate _ r s _ (has_qv f) hr hs⟩

/-- **C62**. The squared norm. -/
theorem C62_squared_norm (a : QuatE F) (r : Expr F) (u : Quat ℂ) (ha : a.Has ρ u) (h : LawfulRunOn (· = ρ) nK (fun _ K => a.squaredNorm K) r) :
    Has ρ r u.squaredNorm := by
  obtain ⟨lic, hl, hr⟩ := h.lawful
  exact (runs_qsquared (ctors_sound lic ρ nK) (hl ρ rfl) (.of ha) r hr).has

set_option maxRecDepth 100000 in
example (f : String → ℂ) : ∃ r : Expr ℝ, Has (named f) r (Quat.squaredNorm ⟨f "w", f "x", f "y", f "z"⟩) :=
  (Same.runs (n := 8) (run := fun _ K => qv.squaredNorm K) (by decide +kernel) _).imp fun r h => C62_squared_norm _ r _ (has_qv f) h

/-- **C62**. The inverse, where the squared norm is not zero. -/
theorem C62_inverse (a r : QuatE F) (u : Quat ℂ) (ha : a.Has ρ u) (h0 : u.squaredNorm ≠ 0) (h : LawfulRunOn (· = ρ) nK (fun _ K => a.inverse K) r) :
    r.Has ρ u.inverse := by
  obtain ⟨lic, hl, hr⟩ := h.lawful
  exact (runs_qinverse (ctors_sound lic ρ nK) (hl ρ rfl) (.of ha) (fun _ => h0) r hr).has

set_option maxRecDepth 100000 in
example : ∃ r : QuatE ℝ, r.Has (named fun _ => 2) (Quat.inverse ⟨2, 2, 2, 2⟩) := by
  obtain ⟨r, hr⟩ := Same.runs (F := ℝ) (n := 8) (run := fun _ K => qv.inverse K) (by decide +kernel) (· = named fun _ => 2)
  exact ⟨r, C62_inverse _ r _ (has_qv _) (by norm_num [Quat.squaredNorm]) hr⟩

/-- **C62**. The rotation matrix, stored row by row. -/
theorem C62_rotation_matrix (a : QuatE F) (r : List (Expr F)) (u : Quat ℂ) (ha : a.Has ρ u)
    (h : LawfulRunOn (· = ρ) nK (fun _ K => a.toRotationMatrix K) r) :
    r.length = 9 ∧ ∀ i j : Fin 3, ∃ e, r[3 * i.val + j.val]? = some e ∧ Has ρ e (u.toRotationMatrix i j) := by
  obtain ⟨lic, hl, hr⟩ := h.lawful
  obtain ⟨h1, h2⟩ := runs_qmatrix (ctors_sound lic ρ nK) (hl ρ rfl) (.of ha) r hr
  refine ⟨h1, fun i j => ?_⟩
  obtain ⟨e, he, hv⟩ := h2 i j
  exact ⟨e, he, hv.has⟩

set_option maxRecDepth 100000 in
example (f : String → ℂ) : ∃ r : List (Expr ℝ), r.length = 9 :=
  (Same.runs (n := 8) (run := fun _ K => qv.toRotationMatrix K) (by decide +kernel) _).imp fun r h => (C62_rotation_matrix _ r _ (has_qv f) h).1

/-- **C62**. The rotated vector. -/
theorem C62_rotate (a : QuatE F) (e0 e1 e2 : Expr F) (r : List (Expr F)) (u : Quat ℂ) (v : Fin 3 → ℂ) (ha : a.Has ρ u) (h0 : Has ρ e0 (v 0))
    (h1 : Has ρ e1 (v 1)) (h2 : Has ρ e2 (v 2)) (h : LawfulRunOn (· = ρ) nK (fun _ K => a.rotate K e0 e1 e2) r) :
    r.length = 3 ∧ ∀ i : Fin 3, ∃ e, r[i.val]? = some e ∧ Has ρ e (u.rotate v i) := by
  obtain ⟨lic, hl, hr⟩ := h.lawful
  obtain ⟨h3, h4⟩ := runs_qrotate (ctors_sound lic ρ nK) (hl ρ rfl) (.of ha) (.of h0) (.of h1) (.of h2) r hr
  refine ⟨h3, fun i => ?_⟩
  obtain ⟨e, he, hv⟩ := h4 i
  exact ⟨e, he, hv.has⟩

set_option maxRecDepth 100000 in
example (f : String → ℂ) : ∃ r : List (Expr ZReal), r.length = 3 :=
  (Same.runs (n := 8) (run := fun _ K => qv.rotate K (vr "a") (vr "b") (vr "c")) (by decide +kernel) _).imp fun r h =>
    (C62_rotate _ _ _ _ r _ ![f "a", f "b", f "c"] (has_qv f) (has_vr f "a") (has_vr f "b") (has_vr f "c") h).1

/-- **C62**. Norm and normalization of a real quaternion. -/
theorem C62_normalized (a r : QuatE F) (s : Expr F) (u : Quat ℝ) (ha : a.Has ρ u.toC) (h : LawfulRunOn (· = ρ) nK (fun _ K => a.norm K) s)
    (h' : LawfulRunOn (· = ρ) nK (fun _ K => a.normalized K) r) : Has ρ s u.norm ∧ (u.norm ≠ 0 → r.Has ρ u.normalized.toC) := by
  obtain ⟨lic, hl, hr⟩ := h.lawful
  obtain ⟨lic', hl', hr'⟩ := h'.lawful
  exact ⟨ValIf.has (real_norm (ctors_sound lic ρ nK) (hl ρ rfl) (.of ha) s hr), fun h0 =>
    (real_normalized (ctors_sound lic' ρ nK) (hl' ρ rfl) (.of ha) (fun _ => h0) r hr').has⟩

set_option maxRecDepth 100000 in
example : ∃ (s : Expr ℝ) (r : QuatE ℝ), LawfulRunOn (· = named fun _ => 1) 8 (fun _ K => qv.norm K) s ∧
    LawfulRunOn (· = named fun _ => 1) 8 (fun _ K => qv.normalized K) r ∧ (⟨1, 1, 1, 1⟩ : Quat ℝ).norm ≠ 0 := by
  obtain ⟨s, hs⟩ := Same.runs (F := ℝ) (n := 8) (run := fun _ K => qv.norm K) (by decide +kernel) (· = named fun _ => 1)
  obtain ⟨r, hr⟩ := Same.runs (F := ℝ) (n := 8) (run := fun _ K => qv.normalized K) (by decide +kernel) (· = named fun _ => 1)
  exact ⟨s, r, hs, hr, by simp [Quat.norm, Quat.squaredNorm]; norm_num⟩

/-- **C62**. The quaternion of an angle and an axis. -/
theorem C62_from_angle_axis (e0 e1 e2 e3 : Expr F) (r : QuatE F) (θ x y z : ℝ) (h0 : Has ρ e0 θ) (h1 : Has ρ e1 x) (h2 : Has ρ e2 y) (h3 : Has ρ e3 z)
    (h : LawfulRunOn (· = ρ) nK (fun _ K => fromAngleAxisE K m e0 e1 e2 e3) r) : r.Has ρ (fromAngleAxis θ x y z).toC := by
  obtain ⟨lic, hl, hr⟩ := h.lawful
  exact (real_fromAngleAxis (ctors_sound lic ρ nK) (hl ρ rfl) (ValIf.of h0) (ValIf.of h1) (ValIf.of h2) (ValIf.of h3) r hr).has

set_option maxRecDepth 100000 in
example (f : String → ℝ) : ∃ r : QuatE ℝ, r.Has (named fun s => f s) (fromAngleAxis (f "a") (f "b") (f "c") (f "d")).toC :=
  (Same.runs (n := 8) (run := fun _ K => fromAngleAxisE K 3 (vr "a") (vr "b") (vr "c") (vr "d")) (by decide +kernel) _).imp fun r h =>
    C62_from_angle_axis _ _ _ _ r _ _ _ _ (has_vr _ "a") (has_vr _ "b") (has_vr _ "c") (has_vr _ "d") h

/-- **C62**. The quaternion of a rotation vector. Without `epsilon` the vector must not be zero. -/
theorem C62_from_rotation_vector (e1 e2 e3 ee : Expr F) (r s : QuatE F) (x y z eps : ℝ) (h1 : Has ρ e1 x) (h2 : Has ρ e2 y) (h3 : Has ρ e3 z)
    (he : Has ρ ee eps) (h0 : 0 ≤ eps) (h : LawfulRunOn (· = ρ) nK (fun _ K => fromRotationVectorE K m e1 e2 e3 (some ee)) r)
    (h' : LawfulRunOn (· = ρ) nK (fun _ K => fromRotationVectorE K m e1 e2 e3 none) s) :
    r.Has ρ (fromRotationVector x y z (some eps)).toC ∧ (√(x * x + y * y + z * z) ≠ 0 → s.Has ρ (fromRotationVector x y z none).toC) := by
  obtain ⟨lic, hl, hr⟩ := h.lawful
  obtain ⟨lic', hl', hr'⟩ := h'.lawful
  exact ⟨(real_fromRotationVector (ctors_sound lic ρ nK) (hl ρ rfl) (e := some eps) (ValIf.of h1) (ValIf.of h2) (ValIf.of h3) (ValIf.of he) (fun _ => h0) r hr).has,
    fun hn => (real_fromRotationVector (ctors_sound lic' ρ nK) (hl' ρ rfl) (e := none) (ValIf.of h1) (ValIf.of h2) (ValIf.of h3) trivial (fun _ => hn) s hr').has⟩

set_option maxRecDepth 100000 in
example (f : String → ℝ) : ∃ r : QuatE ℝ, r.Has (named fun s => f s) (fromRotationVector (f "a") (f "b") (f "c") (some 0)).toC := by
  obtain ⟨r, hr⟩ := Same.runs (F := ℝ) (n := 8) (run := fun _ K => fromRotationVectorE K 3 (vr "a") (vr "b") (vr "c") (some (.int 0))) (by decide +kernel)
    (· = named fun s => f s)
  obtain ⟨s, hs⟩ := Same.runs (F := ℝ) (n := 8) (run := fun _ K => fromRotationVectorE K 3 (vr "a") (vr "b") (vr "c") none) (by decide +kernel)
    (· = named fun s => f s)
  exact ⟨r, (C62_from_rotation_vector _ _ _ _ r s _ _ _ _ (has_vr _ "a") (has_vr _ "b") (has_vr _ "c") has_zero le_rfl hr hs).1⟩

/-- **C62**. Angle and axis of a quaternion. Without `epsilon` the vector part must not be zero. -/
theorem C62_to_angle_axis (q : QuatE F) (ee : Expr F) (r s : Expr F × List (Expr F)) (v : Quat ℝ) (eps : ℝ) (hq : q.Has ρ v.toC) (he : Has ρ ee eps)
    (h0 : 0 ≤ eps) (h : LawfulRunOn (· = ρ) nK (fun _ K => toAngleAxisE K m q (some ee)) r) (h' : LawfulRunOn (· = ρ) nK (fun _ K => toAngleAxisE K m q none) s) :
    (Has ρ r.1 (toAngleAxis v (some eps)).1 ∧ Has3 ρ r.2 (toAngleAxis v (some eps)).2) ∧
    (√(v.x * v.x + v.y * v.y + v.z * v.z) ≠ 0 → Has ρ s.1 (toAngleAxis v none).1 ∧ Has3 ρ s.2 (toAngleAxis v none).2) := by
  obtain ⟨lic, hl, hr⟩ := h.lawful
  obtain ⟨lic', hl', hr'⟩ := h'.lawful
  refine ⟨?_, fun hn => ?_⟩
  · obtain ⟨k1, a, b, c, k2, k3, k4, k5⟩ :=
      real_toAngleAxis (ctors_sound lic ρ nK) (hl ρ rfl) (P := True) (e := some eps) (.of hq) (ValIf.of he) (fun _ => h0) r hr
    exact ⟨ValIf.has k1, a, b, c, k2, ValIf.has k3, ValIf.has k4, ValIf.has k5⟩
  · obtain ⟨k1, a, b, c, k2, k3, k4, k5⟩ :=
      real_toAngleAxis (ctors_sound lic' ρ nK) (hl' ρ rfl) (P := True) (e := none) (.of hq) trivial (fun _ => hn) s hr'
    exact ⟨ValIf.has k1, a, b, c, k2, ValIf.has k3, ValIf.has k4, ValIf.has k5⟩

set_option maxRecDepth 100000 in
example (f : String → ℝ) : ∃ r : Expr ℝ × List (Expr ℝ), Has (named fun s => f s) r.1 (toAngleAxis ⟨f "w", f "x", f "y", f "z"⟩ (some 0)).1 := by
  obtain ⟨r, hr⟩ := Same.runs (F := ℝ) (n := 8) (run := fun _ K => toAngleAxisE K 3 qv (some (.int 0))) (by decide +kernel) (· = named fun s => f s)
  obtain ⟨s, hs⟩ := Same.runs (F := ℝ) (n := 8) (run := fun _ K => toAngleAxisE K 3 qv none) (by decide +kernel) (· = named fun s => f s)
  exact ⟨r, (C62_to_angle_axis _ _ r s ⟨f "w", f "x", f "y", f "z"⟩ 0 (has_qv _) has_zero le_rfl hr hs).1.1⟩

/-- **C62**. The rotation vector of a quaternion, computed with `atan2`. Without `epsilon` the vector part must not be zero. -/
theorem C62_to_rotation_vector (q : QuatE F) (ee : Expr F) (r s : List (Expr F)) (v : Quat ℝ) (eps : ℝ) (hq : q.Has ρ v.toC) (he : Has ρ ee eps) (h0 : 0 ≤ eps)
    (h : LawfulRunOn (· = ρ) nK (fun _ K => toRotationVectorE K m q (some ee)) r) (h' : LawfulRunOn (· = ρ) nK (fun _ K => toRotationVectorE K m q none) s) :
    Has3 ρ r (toRotationVector v (some eps)) ∧ (√(v.x * v.x + v.y * v.y + v.z * v.z) ≠ 0 → Has3 ρ s (toRotationVector v none)) := by
  obtain ⟨lic, hl, hr⟩ := h.lawful
  obtain ⟨lic', hl', hr'⟩ := h'.lawful
  refine ⟨?_, fun hn => ?_⟩
  · obtain ⟨a, b, c, k2, k3, k4, k5⟩ :=
      real_toRotationVector (ctors_sound lic ρ nK) (hl ρ rfl) (P := True) (e := some eps) (.of hq) (ValIf.of he) (fun _ => h0) r hr
    exact ⟨a, b, c, k2, ValIf.has k3, ValIf.has k4, ValIf.has k5⟩
  · obtain ⟨a, b, c, k2, k3, k4, k5⟩ :=
      real_toRotationVector (ctors_sound lic' ρ nK) (hl' ρ rfl) (P := True) (e := none) (.of hq) trivial (fun _ => hn) s hr'
    exact ⟨a, b, c, k2, ValIf.has k3, ValIf.has k4, ValIf.has k5⟩

set_option maxRecDepth 100000 in
example (f : String → ℝ) : ∃ r : List (Expr ℝ), Has3 (named fun s => f s) r (toRotationVector ⟨f "w", f "x", f "y", f "z"⟩ (some 0)) := by
  obtain ⟨r, hr⟩ := Same.runs (F := ℝ) (n := 8) (run := fun _ K => toRotationVectorE K 3 qv (some (.int 0))) (by decide +kernel) (· = named fun s => f s)
  obtain ⟨s, hs⟩ := Same.runs (F := ℝ) (n := 8) (run := fun _ K => toRotationVectorE K 3 qv none) (by decide +kernel) (· = named fun s => f s)
  exact ⟨r, (C62_to_rotation_vector _ _ r s ⟨f "w", f "x", f "y", f "z"⟩ 0 (has_qv _) has_zero le_rfl hr hs).1⟩

/-- **C62**. The rotation vector of a quaternion, computed with `acos`. Without `epsilon` the real part must be between minus one and one. -/
theorem C62_to_rotation_vector_acos (q : QuatE F) (ee : Expr F) (r s : List (Expr F)) (v : Quat ℝ) (eps : ℝ) (hq : q.Has ρ v.toC) (he : Has ρ ee eps)
    (h0 : 0 ≤ eps) (h : LawfulRunOn (· = ρ) nK (fun _ K => toRotationVectorAcosE K m q (some ee)) r)
    (h' : LawfulRunOn (· = ρ) nK (fun _ K => toRotationVectorAcosE K m q none) s) :
    Has3 ρ r (toRotationVectorAcos v (some eps)) ∧ (|v.w| < 1 → Has3 ρ s (toRotationVectorAcos v none)) := by
  obtain ⟨lic, hl, hr⟩ := h.lawful
  obtain ⟨lic', hl', hr'⟩ := h'.lawful
  refine ⟨?_, fun hn => ?_⟩
  · obtain ⟨a, b, c, k2, k3, k4, k5⟩ :=
      real_toRotationVectorAcos (ctors_sound lic ρ nK) (hl ρ rfl) (P := True) (e := some eps) (.of hq) (ValIf.of he) (fun _ => h0) r hr
    exact ⟨a, b, c, k2, ValIf.has k3, ValIf.has k4, ValIf.has k5⟩
  · obtain ⟨a, b, c, k2, k3, k4, k5⟩ :=
      real_toRotationVectorAcos (ctors_sound lic' ρ nK) (hl' ρ rfl) (P := True) (e := none) (.of hq) trivial (fun _ => hn) s hr'
    exact ⟨a, b, c, k2, ValIf.has k3, ValIf.has k4, ValIf.has k5⟩

set_option maxRecDepth 100000 in
example (f : String → ℝ) : ∃ r : List (Expr ℝ), Has3 (named fun s => f s) r (toRotationVectorAcos ⟨f "w", f "x", f "y", f "z"⟩ (some 0)) := by
  obtain ⟨r, hr⟩ := Same.runs (F := ℝ) (n := 8) (run := fun _ K => toRotationVectorAcosE K 3 qv (some (.int 0))) (by decide +kernel) (· = named fun s => f s)
  obtain ⟨s, hs⟩ := Same.runs (F := ℝ) (n := 8) (run := fun _ K => toRotationVectorAcosE K 3 qv none) (by decide +kernel) (· = named fun s => f s)
  exact ⟨r, (C62_to_rotation_vector_acos _ _ r s ⟨f "w", f "x", f "y", f "z"⟩ 0 (has_qv _) has_zero le_rfl hr hs).1⟩

/-- **C62**. The quaternion of a matrix (of any real matrix; C31 says what it is for a rotation matrix). -/
theorem C62_from_rotation_matrix (R : Fin 3 → Fin 3 → Expr F) (r : QuatE F) (M : Matrix (Fin 3) (Fin 3) ℝ) (hR : ∀ i j, Has ρ (R i j) (M i j))
    (h : LawfulRunOn (· = ρ) nK (fun _ K => fromRotationMatrixE K (R 0 0) (R 0 1) (R 0 2) (R 1 0) (R 1 1) (R 1 2) (R 2 0) (R 2 1) (R 2 2)) r) :
    r.Has ρ (fromRotationMatrix M).toC := by
  obtain ⟨lic, hl, hr⟩ := h.lawful
  have := fun i j => ValIf.of (P := True) (hR i j)
  exact (real_fromRotationMatrix (ctors_sound lic ρ nK) (hl ρ rfl) (this 0 0) (this 0 1) (this 0 2) (this 1 0) (this 1 1) (this 1 2) (this 2 0) (this 2 1) (this 2 2)
    r hr).has

set_option maxRecDepth 100000 in
example (f : String → ℝ) : ∃ r : QuatE ℝ, r.Has (named fun s => f s) (fromRotationMatrix !![f "a", f "b", f "c"; f "d", f "e", f "f"; f "g", f "h", f "i"]).toC := by
  obtain ⟨r, hr⟩ := Same.runs (F := ℝ) (n := 8)
    (run := fun _ K => fromRotationMatrixE K (vr "a") (vr "b") (vr "c") (vr "d") (vr "e") (vr "f") (vr "g") (vr "h") (vr "i")) (by decide +kernel)
    (· = named fun s => f s)
  refine ⟨r, C62_from_rotation_matrix !![vr "a", vr "b", vr "c"; vr "d", vr "e", vr "f"; vr "g", vr "h", vr "i"] r _ (fun i j => ?_) hr⟩
  fin_cases i <;> fin_cases j <;> exact has_vr _ _

end

end Wf.Sym
