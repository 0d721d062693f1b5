import Mathlib.LinearAlgebra.Matrix.Notation
import Mathlib.LinearAlgebra.Matrix.Determinant.Basic
import Mathlib.Analysis.SpecialFunctions.Complex.Arg

/-!
# Model of `geometry/quaternion.{h,cc}`

The C++ functions build symbolic expressions. The model is the value of these expressions: the same formulas over a field,
or over the reals where square roots and trigonometric functions occur. `where(c, a, b)` is `if c then a else b` (C24).
Simplifications applied while the expressions are built are the subject of C12, C13, C23, C24.
-/

namespace Wf.Geo

open Matrix

/-- `class quaternion`, `geometry/quaternion.h:16-20,199-200`: elements in order w, x, y, z. -/
@[ext] structure Quat (R : Type*) where
  w : R
  x : R
  y : R
  z : R

variable {R : Type*}

/-- Default constructor, `geometry/quaternion.h:23`. -/
def Quat.one [Zero R] [One R] : Quat R := ⟨1, 0, 0, 0⟩

/-- `operator*`, `geometry/quaternion.cc:325-330`. -/
def Quat.mul [CommRing R] (a b : Quat R) : Quat R :=
  ⟨a.w * b.w - a.x * b.x - a.y * b.y - a.z * b.z,
   a.w * b.x + a.x * b.w + a.y * b.z - a.z * b.y,
   a.w * b.y + a.y * b.w + a.z * b.x - a.x * b.z,
   a.w * b.z + a.z * b.w + a.x * b.y - a.y * b.x⟩

/-- `conjugate`, `geometry/quaternion.h:85`. -/
def Quat.conj [CommRing R] (q : Quat R) : Quat R := ⟨q.w, -q.x, -q.y, -q.z⟩

/-- `operator-`, `geometry/quaternion.cc:41`. -/
def Quat.neg [CommRing R] (q : Quat R) : Quat R := ⟨-q.w, -q.x, -q.y, -q.z⟩

/-- `squared_norm`, `geometry/quaternion.cc:30-32`. -/
def Quat.squaredNorm [CommRing R] (q : Quat R) : R := q.w * q.w + q.x * q.x + q.y * q.y + q.z * q.z

/-- `inverse`, `geometry/quaternion.cc:36-39`. -/
def Quat.inverse [Field R] (q : Quat R) : Quat R :=
  let n2 := q.squaredNorm
  ⟨q.w / n2, q.x / -n2, q.y / -n2, q.z / -n2⟩

/-- `to_rotation_matrix`, `geometry/quaternion.cc:43-63`. -/
def Quat.toRotationMatrix [CommRing R] (q : Quat R) : Matrix (Fin 3) (Fin 3) R :=
  let x2 := q.x * 2
  let y2 := q.y * 2
  let z2 := q.z * 2
  let wx2 := x2 * q.w
  let wy2 := y2 * q.w
  let wz2 := z2 * q.w
  let xx2 := x2 * q.x
  let xy2 := y2 * q.x
  let xz2 := z2 * q.x
  let yy2 := y2 * q.y
  let yz2 := z2 * q.y
  let zz2 := z2 * q.z
  !![1 - yy2 - zz2, xy2 - wz2, xz2 + wy2;
     xy2 + wz2, 1 - xx2 - zz2, yz2 - wx2;
     xz2 - wy2, yz2 + wx2, 1 - xx2 - yy2]

/-- `rotate`, `geometry/quaternion.cc:65-74`. -/
def Quat.rotate [CommRing R] (q : Quat R) (v : Fin 3 → R) : Fin 3 → R :=
  let r := (q.mul ⟨0, v 0, v 1, v 2⟩).mul q.conj
  ![r.x, r.y, r.z]

/-- `norm`, `geometry/quaternion.cc:34`. -/
noncomputable def Quat.norm (q : Quat ℝ) : ℝ := √q.squaredNorm

/-- `normalized`, `geometry/quaternion.h:78-81`. -/
noncomputable def Quat.normalized (q : Quat ℝ) : Quat ℝ :=
  ⟨q.w / q.norm, q.x / q.norm, q.y / q.norm, q.z / q.norm⟩

/-- `from_angle_axis`, `geometry/quaternion.cc:76-81`. -/
noncomputable def fromAngleAxis (angle vx vy vz : ℝ) : Quat ℝ :=
  let half := angle / 2
  let s := Real.sin half
  ⟨Real.cos half, vx * s, vy * s, vz * s⟩

/-- `from_rotation_vector`, `geometry/quaternion.cc:90-115`; `epsilon = none` is an absent argument. -/
noncomputable def fromRotationVector (vx vy vz : ℝ) (epsilon : Option ℝ) : Quat ℝ :=
  let angle := √(vx * vx + vy * vy + vz * vz)
  let half := angle / 2
  let sinc := Real.sin half / angle
  match epsilon with
  | some eps =>
    let small := Quat.normalized ⟨1, vx / 2, vy / 2, vz / 2⟩
    ⟨if angle > eps then Real.cos half else small.w,
     if angle > eps then vx * sinc else small.x,
     if angle > eps then vy * sinc else small.y,
     if angle > eps then vz * sinc else small.z⟩
  | none => ⟨Real.cos half, vx * sinc, vy * sinc, vz * sinc⟩

/-- `atan2(y, x)`. -/
noncomputable def atan2 (y x : ℝ) : ℝ := Complex.arg ⟨x, y⟩

/-- `to_angle_axis`, `geometry/quaternion.cc:126-151`. The early return of lines 134-137 (norm analytically zero) returns the same value
as a zero norm with an epsilon; without epsilon a zero norm divides by zero (in Lean: yields the zero vector), which the theorems
exclude. -/
noncomputable def toAngleAxis (q : Quat ℝ) (epsilon : Option ℝ) : ℝ × (ℝ × ℝ × ℝ) :=
  let n := √(q.x * q.x + q.y * q.y + q.z * q.z)
  let angle := atan2 n |q.w| * 2
  let flipped := if q.w < 0 then -n else n
  let v := (q.x / flipped, q.y / flipped, q.z / flipped)
  match epsilon with
  | some eps => (if n > eps then angle else 0, if n > eps then v else (1, 0, 0))
  | none => (angle, v)

/-- `to_rotation_vector` with `use_atan2`, `geometry/quaternion.cc:153-170`. -/
noncomputable def toRotationVector (q : Quat ℝ) (epsilon : Option ℝ) : ℝ × ℝ × ℝ :=
  let signW : ℝ := if q.w < 0 then -1 else 1
  let n := √(q.x * q.x + q.y * q.y + q.z * q.z)
  let half := atan2 n |q.w|
  let aon := half * 2 / n
  match epsilon with
  | some eps =>
    let scale := if n > eps then aon * signW else 2 * signW
    (scale * q.x, scale * q.y, scale * q.z)
  | none => (q.x * aon * signW, q.y * aon * signW, q.z * aon * signW)

/-- `min(a, b) = where(b < a, b, a)`, `functions.cc`. -/
noncomputable def minWhere (a b : ℝ) : ℝ := if b < a then b else a

/-- `to_rotation_vector` without `use_atan2`, `geometry/quaternion.cc:171-188`. -/
noncomputable def toRotationVectorAcos (q : Quat ℝ) (epsilon : Option ℝ) : ℝ × ℝ × ℝ :=
  let signW : ℝ := if q.w < 0 then -1 else 1
  let wPos := minWhere (q.w * signW) 1
  let xPos := q.x * signW
  let yPos := q.y * signW
  let zPos := q.z * signW
  let vecNorm := √(1 - wPos * wPos)
  let scale := 2 * Real.arccos wPos / vecNorm
  match epsilon with
  | some eps =>
    let safe := if vecNorm > eps then scale else 2
    (safe * xPos, safe * yPos, safe * zPos)
  | none => (scale * xPos, scale * yPos, scale * zPos)

/-- Element-wise `where` on quaternions, `geometry/quaternion.cc:191-200`. -/
def Quat.where' (c : Prop) [Decidable c] (a b : Quat R) : Quat R :=
  ⟨if c then a.w else b.w, if c then a.x else b.x, if c then a.y else b.y, if c then a.z else b.z⟩

/-- `from_rotation_matrix`, `geometry/quaternion.cc:202-255` (Sheppard's method). -/
noncomputable def fromRotationMatrix (M : Matrix (Fin 3) (Fin 3) ℝ) : Quat ℝ :=
  let two : ℝ := 2
  let t0 := √(1 + M 0 0 + M 1 1 + M 2 2)
  let q0 : Quat ℝ := ⟨t0 / two, (M 2 1 - M 1 2) / (t0 * two), (M 0 2 - M 2 0) / (t0 * two), (M 1 0 - M 0 1) / (t0 * two)⟩
  let t1 := √(1 + M 0 0 - M 1 1 - M 2 2)
  let q1 : Quat ℝ := ⟨(M 2 1 - M 1 2) / (t1 * two), t1 / two, (M 0 1 + M 1 0) / (t1 * two), (M 2 0 + M 0 2) / (t1 * two)⟩
  let t2 := √(1 - M 0 0 + M 1 1 - M 2 2)
  let q2 : Quat ℝ := ⟨(M 0 2 - M 2 0) / (t2 * two), (M 0 1 + M 1 0) / (t2 * two), t2 / two, (M 1 2 + M 2 1) / (t2 * two)⟩
  let t3 := √(1 - M 0 0 - M 1 1 + M 2 2)
  let q3 : Quat ℝ := ⟨(M 1 0 - M 0 1) / (t3 * two), (M 2 0 + M 0 2) / (t3 * two), (M 2 1 + M 1 2) / (t3 * two), t3 / two⟩
  Quat.where' (M 0 0 + M 1 1 + M 2 2 > 0) q0
    (Quat.where' (M 1 1 > M 0 0) (Quat.where' (M 2 2 > M 1 1) q3 q2) (Quat.where' (M 2 2 > M 0 0) q3 q1))

/-- `skew_v`, `geometry/quaternion.cc:352-357,387-392`. -/
def skew (v : Fin 3 → ℝ) : Matrix (Fin 3) (Fin 3) ℝ :=
  !![0, -v 2, v 1;
     v 2, 0, -v 0;
     -v 1, v 0, 0]

/-- `angle`, the square root of the sum of squares of the vector. -/
noncomputable def vecAngle (v : Fin 3 → ℝ) : ℝ := √(v 0 * v 0 + v 1 * v 1 + v 2 * v 2)

/-- `left_jacobian_of_so3`, `geometry/quaternion.cc:334-367`. -/
noncomputable def leftJacobian (v : Fin 3 → ℝ) (epsilon : Option ℝ) : Matrix (Fin 3) (Fin 3) ℝ :=
  let angle := vecAngle v
  let c0 := (1 - Real.cos angle) / angle ^ 2
  let c1 := (angle - Real.sin angle) / angle ^ 3
  match epsilon with
  | some eps => 1 + (if angle > eps then c0 else 1 / 2) • skew v + (if angle > eps then c1 else 1 / 6) • (skew v * skew v)
  | none => 1 + c0 • skew v + c1 • (skew v * skew v)

/-- `inverse_left_jacobian_of_so3`, `geometry/quaternion.cc:370-401`. -/
noncomputable def inverseLeftJacobian (v : Fin 3 → ℝ) (epsilon : Option ℝ) : Matrix (Fin 3) (Fin 3) ℝ :=
  let angle := vecAngle v
  let c0 : ℝ := -1 / 2
  let c1 := 1 / angle ^ 2 - (1 + Real.cos angle) / (2 * angle * Real.sin angle)
  match epsilon with
  | some eps => 1 + c0 • skew v + (if angle > eps then c1 else 1 / 12) • (skew v * skew v)
  | none => 1 + c0 • skew v + c1 • (skew v * skew v)

end Wf.Geo
