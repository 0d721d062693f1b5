import Verif.Sym.DerivativeModel
import Verif.Sym.NumberSetModel

/-!
# Model of `geometry/quaternion.{h,cc}` at the level of expressions

`Geo/QuaternionModel.lean` has the formulas over numbers. Here the same functions build expressions, with the constructors that simplify. `m` bounds nested
calls of the functions of `functions.cc`. A matrix is the list of its elements, row by row.
-/

namespace Wf.Sym

variable {F : Type} [FnOps F] [DecidableEq F]

/-- `class quaternion`, `geometry/quaternion.h:16-20,199-200`. -/
structure QuatE (F : Type) where
  w : Expr F
  x : Expr F
  y : Expr F
  z : Expr F
deriving DecidableEq

/-- `operator+`, `expression.cc:102-106`. -/
def addE (K : Ctors F) (a b : Expr F) : Res (Expr F) := K.add [a, b]
/-- `operator*`, `expression.cc:112-114`. -/
def mulE (K : Ctors F) (a b : Expr F) : Res (Expr F) := K.mul [a, b]
/-- `sqrt`, `functions.cc:480-483`. -/
def sqrtE (K : Ctors F) (a : Expr F) : Res (Expr F) := do K.pow a (← oneHalf K)

/-- `conjugate`, `geometry/quaternion.h:85`. -/
def QuatE.conj (K : Ctors F) (q : QuatE F) : Res (QuatE F) := do
  return ⟨q.w, ← negE K q.x, ← negE K q.y, ← negE K q.z⟩

/-- `operator-`, `geometry/quaternion.cc:41`. -/
def QuatE.neg (K : Ctors F) (q : QuatE F) : Res (QuatE F) := do
  return ⟨← negE K q.w, ← negE K q.x, ← negE K q.y, ← negE K q.z⟩

/-- `operator*`, `geometry/quaternion.cc:325-330`. -/
def QuatE.mul (K : Ctors F) (a b : QuatE F) : Res (QuatE F) := do
  let w ← subE K (← subE K (← subE K (← mulE K a.w b.w) (← mulE K a.x b.x)) (← mulE K a.y b.y)) (← mulE K a.z b.z)
  let x ← subE K (← addE K (← addE K (← mulE K a.w b.x) (← mulE K a.x b.w)) (← mulE K a.y b.z)) (← mulE K a.z b.y)
  let y ← subE K (← addE K (← addE K (← mulE K a.w b.y) (← mulE K a.y b.w)) (← mulE K a.z b.x)) (← mulE K a.x b.z)
  let z ← subE K (← addE K (← addE K (← mulE K a.w b.z) (← mulE K a.z b.w)) (← mulE K a.x b.y)) (← mulE K a.y b.x)
  return ⟨w, x, y, z⟩

/-- `squared_norm`, `geometry/quaternion.cc:30-32`. -/
def QuatE.squaredNorm (K : Ctors F) (q : QuatE F) : Res (Expr F) := do
  addE K (← addE K (← addE K (← mulE K q.w q.w) (← mulE K q.x q.x)) (← mulE K q.y q.y)) (← mulE K q.z q.z)

/-- `norm`, `geometry/quaternion.cc:34`. -/
def QuatE.norm (K : Ctors F) (q : QuatE F) : Res (Expr F) := do sqrtE K (← q.squaredNorm K)

/-- `normalized`, `geometry/quaternion.h:78-81`. -/
def QuatE.normalized (K : Ctors F) (q : QuatE F) : Res (QuatE F) := do
  let n ← q.norm K
  return ⟨← divE K q.w n, ← divE K q.x n, ← divE K q.y n, ← divE K q.z n⟩

/-- `inverse`, `geometry/quaternion.cc:36-39`. -/
def QuatE.inverse (K : Ctors F) (q : QuatE F) : Res (QuatE F) := do
  let n2 ← q.squaredNorm K
  let mn ← negE K n2
  return ⟨← divE K q.w n2, ← divE K q.x mn, ← divE K q.y mn, ← divE K q.z mn⟩

/-- `to_rotation_matrix`, `geometry/quaternion.cc:43-63`. -/
def QuatE.toRotationMatrix (K : Ctors F) (q : QuatE F) : Res (List (Expr F)) := do
  let x2 ← mulE K q.x (.int 2)
  let y2 ← mulE K q.y (.int 2)
  let z2 ← mulE K q.z (.int 2)
  let wx2 ← mulE K x2 q.w
  let wy2 ← mulE K y2 q.w
  let wz2 ← mulE K z2 q.w
  let xx2 ← mulE K x2 q.x
  let xy2 ← mulE K y2 q.x
  let xz2 ← mulE K z2 q.x
  let yy2 ← mulE K y2 q.y
  let yz2 ← mulE K z2 q.y
  let zz2 ← mulE K z2 q.z
  return [← subE K (← subE K (.int 1) yy2) zz2, ← subE K xy2 wz2, ← addE K xz2 wy2,
    ← addE K xy2 wz2, ← subE K (← subE K (.int 1) xx2) zz2, ← subE K yz2 wx2,
    ← subE K xz2 wy2, ← addE K yz2 wx2, ← subE K (← subE K (.int 1) xx2) yy2]

/-- `rotate`, `geometry/quaternion.cc:65-74`, for a vector of three elements. The real part is the float `0.0`. -/
def QuatE.rotate (K : Ctors F) (q : QuatE F) (v0 v1 v2 : Expr F) : Res (List (Expr F)) := do
  let r ← QuatE.mul K (← QuatE.mul K q ⟨floatExpr (FloatOps.ofInt 0), v0, v1, v2⟩) (← q.conj K)
  return [r.x, r.y, r.z]

/-- `from_angle_axis`, `geometry/quaternion.cc:76-81`. -/
def fromAngleAxisE (K : Ctors F) (m : Nat) (angle vx vy vz : Expr F) : Res (QuatE F) := do
  let half ← divE K angle (.int 2)
  let s ← fns K m .sin half
  return ⟨← fns K m .cos half, ← mulE K vx s, ← mulE K vy s, ← mulE K vz s⟩

/-- `sqrt(x * x + y * y + z * z)`, `geometry/quaternion.cc:93,131,158`. -/
def lengthE (K : Ctors F) (x y z : Expr F) : Res (Expr F) := do
  sqrtE K (← addE K (← addE K (← mulE K x x) (← mulE K y y)) (← mulE K z z))

/-- `from_rotation_vector`, `geometry/quaternion.cc:90-115`; `a > b` is `b < a` (`expression.cc:125-127`). -/
def fromRotationVectorE (K : Ctors F) (m : Nat) (vx vy vz : Expr F) (epsilon : Option (Expr F)) : Res (QuatE F) := do
  let angle ← lengthE K vx vy vz
  let half ← divE K angle (.int 2)
  let sinc ← divE K (← fns K m .sin half) angle
  match epsilon with
  | some eps =>
    let small ← QuatE.normalized K ⟨.int 1, ← divE K vx (.int 2), ← divE K vy (.int 2), ← divE K vz (.int 2)⟩
    let c ← relCreate .lt eps angle
    return ⟨condCreate c (← fns K m .cos half) small.w, condCreate c (← mulE K vx sinc) small.x, condCreate c (← mulE K vy sinc) small.y,
      condCreate c (← mulE K vz sinc) small.z⟩
  | none => return ⟨← fns K m .cos half, ← mulE K vx sinc, ← mulE K vy sinc, ← mulE K vz sinc⟩

/-- `to_angle_axis`, `geometry/quaternion.cc:126-151`. `where` of matrices selects element by element (`functions.cc:654-674`). -/
def toAngleAxisE (K : Ctors F) (m : Nat) (q : QuatE F) (epsilon : Option (Expr F)) : Res (Expr F × List (Expr F)) := do
  let n ← lengthE K q.x q.y q.z
  if isInt 0 n then return (.int 0, [.int 1, .int 0, .int 0])
  let angle ← mulE K (← atan2Fn K n (← fns K m .abs q.w)) (.int 2)
  let flipped := condCreate (← relCreate .lt q.w (.int 0)) (← negE K n) n
  let vx ← divE K q.x flipped
  let vy ← divE K q.y flipped
  let vz ← divE K q.z flipped
  match epsilon with
  | some eps =>
    let c ← relCreate .lt eps n
    return (condCreate c angle (.int 0), [condCreate c vx (.int 1), condCreate c vy (.int 0), condCreate c vz (.int 0)])
  | none => return (angle, [vx, vy, vz])

/-- `to_rotation_vector` with `use_atan2`, `geometry/quaternion.cc:153-170`. -/
def toRotationVectorE (K : Ctors F) (m : Nat) (q : QuatE F) (epsilon : Option (Expr F)) : Res (List (Expr F)) := do
  let sign := condCreate (← relCreate .lt q.w (.int 0)) (.int (-1)) (.int 1)
  let n ← lengthE K q.x q.y q.z
  let half ← atan2Fn K n (← fns K m .abs q.w)
  let aon ← divE K (← mulE K half (.int 2)) n
  match epsilon with
  | some eps =>
    let scale := condCreate (← relCreate .lt eps n) (← mulE K aon sign) (← mulE K (.int 2) sign)
    return [← mulE K scale q.x, ← mulE K scale q.y, ← mulE K scale q.z]
  | none => return [← mulE K (← mulE K q.x aon) sign, ← mulE K (← mulE K q.y aon) sign, ← mulE K (← mulE K q.z aon) sign]

/-- `to_rotation_vector` without `use_atan2`, `geometry/quaternion.cc:155,171-187`. -/
def toRotationVectorAcosE (K : Ctors F) (m : Nat) (q : QuatE F) (epsilon : Option (Expr F)) : Res (List (Expr F)) := do
  let sign := condCreate (← relCreate .lt q.w (.int 0)) (.int (-1)) (.int 1)
  let wPos ← minFn (← mulE K q.w sign) (.int 1)
  let xPos ← mulE K q.x sign
  let yPos ← mulE K q.y sign
  let zPos ← mulE K q.z sign
  let n ← sqrtE K (← subE K (.int 1) (← mulE K wPos wPos))
  let scale ← divE K (← mulE K (.int 2) (← fns K m .arccos wPos)) n
  match epsilon with
  | some eps =>
    let safe := condCreate (← relCreate .lt eps n) scale (.int 2)
    return [← mulE K safe xPos, ← mulE K safe yPos, ← mulE K safe zPos]
  | none => return [← mulE K scale xPos, ← mulE K scale yPos, ← mulE K scale zPos]

/-- Element-wise `where` on quaternions, `geometry/quaternion.cc:191-200`. -/
def QuatE.where' (c : Expr F) (a b : QuatE F) : QuatE F :=
  ⟨condCreate c a.w b.w, condCreate c a.x b.x, condCreate c a.y b.y, condCreate c a.z b.z⟩

/-- `from_rotation_matrix`, `geometry/quaternion.cc:202-255` (Sheppard's method), for a matrix with three rows and columns. -/
def fromRotationMatrixE (K : Ctors F) (r00 r01 r02 r10 r11 r12 r20 r21 r22 : Expr F) : Res (QuatE F) := do
  let t0 ← sqrtE K (← addE K (← addE K (← addE K (.int 1) r00) r11) r22)
  let s0 ← mulE K t0 (.int 2)
  let q0 : QuatE F := ⟨← divE K t0 (.int 2), ← divE K (← subE K r21 r12) s0, ← divE K (← subE K r02 r20) s0, ← divE K (← subE K r10 r01) s0⟩
  let t1 ← sqrtE K (← subE K (← subE K (← addE K (.int 1) r00) r11) r22)
  let s1 ← mulE K t1 (.int 2)
  let q1 : QuatE F := ⟨← divE K (← subE K r21 r12) s1, ← divE K t1 (.int 2), ← divE K (← addE K r01 r10) s1, ← divE K (← addE K r20 r02) s1⟩
  let t2 ← sqrtE K (← subE K (← addE K (← subE K (.int 1) r00) r11) r22)
  let s2 ← mulE K t2 (.int 2)
  let q2 : QuatE F := ⟨← divE K (← subE K r02 r20) s2, ← divE K (← addE K r01 r10) s2, ← divE K t2 (.int 2), ← divE K (← addE K r12 r21) s2⟩
  let t3 ← sqrtE K (← addE K (← subE K (← subE K (.int 1) r00) r11) r22)
  let s3 ← mulE K t3 (.int 2)
  let q3 : QuatE F := ⟨← divE K (← subE K r10 r01) s3, ← divE K (← addE K r20 r02) s3, ← divE K (← addE K r21 r12) s3, ← divE K t3 (.int 2)⟩
  let trace ← relCreate .lt (.int 0) (← addE K (← addE K r00 r11) r22)
  return .where' trace q0 (.where' (← relCreate .lt r00 r11) (.where' (← relCreate .lt r11 r22) q3 q2) (.where' (← relCreate .lt r00 r22) q3 q1))

/-! ## Derivatives -/

/-- The visitor for a variable; symbolic functions and substitutions, which it does not model, do not occur in these expressions. -/
def quatCfg (K : Ctors F) (m : Nat) (v : Expr F) : DiffCfg F := ⟨K, m, v, .constant, fun _ _ => .error .assertion⟩

/-- A private variable, `make_unique_variable_symbol(number_set::real)`. The variables are numbered in the order in which they are made; here they are the first
ones that are made. -/
def own (i : Nat) : Expr F := .uniq i .real

/-- `q_sub`, `geometry/quaternion.cc:274-276,299-301`. -/
def ownQuat : QuatE F := ⟨own 0, own 1, own 2, own 3⟩

/-- Substitute in the elements of a matrix. -/
def substAll (K : Ctors F) (lic : Lic F) (m n : Nat) (es : List (Expr F)) (pairs : List (Expr F × Expr F)) : Res (List (Expr F)) :=
  mapRes (fun e => substAny K lic m n true e pairs) es

/-- The static `J` of `right_retract_derivative`, `geometry/quaternion.cc:277-287`: four rows and three columns. -/
def retractJacobian (K : Ctors F) (lic : Lic F) (m n : Nat) : Res (List (Expr F)) := do
  let q ← QuatE.mul K ownQuat (← fromRotationVectorE K m (own 4) (own 5) (own 6) (some (.int 0)))
  let J ← jacobian (quatCfg K m) [q.w, q.x, q.y, q.z] [own 4, own 5, own 6]
  substAll K lic m n J.2.2 [(own 4, .int 0), (own 5, .int 0), (own 6, .int 0)]

/-- Replace the private quaternion, `geometry/quaternion.cc:288-295,316-322`. -/
def substOwn (K : Ctors F) (lic : Lic F) (m n : Nat) (J : List (Expr F)) (q : QuatE F) : Res (List (Expr F)) :=
  substAll K lic m n J [(own 0, q.w), (own 1, q.x), (own 2, q.y), (own 3, q.z)]

/-- `right_retract_derivative`, `geometry/quaternion.cc:272-296`. `J` is computed once, before any call; the depths for it are
sufficient, and with any other depths that are, `J` is the same (`C78_static_jacobians`). -/
def rightRetractDerivative (K : Ctors F) (lic : Lic F) (m n : Nat) (q : QuatE F) : Res (List (Expr F)) := do
  substOwn K lic m n (← retractJacobian (ctors codeLic 8) codeLic 3 40) q

/-- The static `J` of `right_local_coordinates_derivative`, `geometry/quaternion.cc:302-315`: three rows and four columns. -/
def localJacobian (K : Ctors F) (lic : Lic F) (m n : Nat) : Res (List (Expr F)) := do
  let q : QuatE F := ownQuat
  let d ← QuatE.mul K (← q.conj K) ⟨← addE K q.w (own 4), ← addE K q.x (own 5), ← addE K q.y (own 6), ← addE K q.z (own 7)⟩
  let J ← jacobian (quatCfg K m) (← toRotationVectorE K m d (some (.int 0))) [own 4, own 5, own 6, own 7]
  let J ← substAll K lic m n J.2.2 [(own 4, .int 0), (own 5, .int 0), (own 6, .int 0), (own 7, .int 0)]
  substAll K lic m n J [(← q.squaredNorm K, .int 1)]

/-- `right_local_coordinates_derivative`, `geometry/quaternion.cc:298-323`. -/
def rightLocalDerivative (K : Ctors F) (lic : Lic F) (m n : Nat) (q : QuatE F) : Res (List (Expr F)) := do
  substOwn K lic m n (← localJacobian (ctors codeLic 8) codeLic 3 40) q

end Wf.Sym
