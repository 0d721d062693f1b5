import Verif.Sym.QuatModel

/-!
# Model of the conversions of `Quaternion` to and from vectors, lists and names

`core/wf/geometry/quaternion.{h,cc}` and `wrapper/pywrenfold/geometry_wrapper.cc:29-101`.
-/

namespace Wf.Sym.Store

variable {F : Type}

/-- A matrix of expressions: its dimensions, and its elements row by row (`expressions/matrix.h`). -/
structure MatE (F : Type) where
  rows : Nat
  cols : Nat
  elems : List (Expr F)

/-- What Python passes to `from_wxyz` and `from_xyzw`: a `MatrixExpr` selects the first overload, another iterable the second,
`geometry_wrapper.cc:80-101`. -/
inductive Storage (F : Type)
  | matrix (m : MatE F)
  | iterable (es : List (Expr F))

/-- `matrix::operator[]`, checked against the size of the vector, `expressions/matrix.h:85-95`. -/
def MatE.at (m : MatE F) (i : Nat) : Res (Expr F) :=
  match m.elems[i]? with
  | some e => .ok e
  | none => .error .dimension

/-- `from_vector_wxyz`, `quaternion.h:26-32`. -/
def fromVectorWxyz (m : MatE F) : Res (QuatE F) :=
  if m.rows ≠ 4 ∨ m.cols ≠ 1 then .error .dimension
  else do return ⟨← m.at 0, ← m.at 1, ← m.at 2, ← m.at 3⟩

/-- `from_vector_xyzw`, `quaternion.h:35-41`. -/
def fromVectorXyzw (m : MatE F) : Res (QuatE F) :=
  if m.rows ≠ 4 ∨ m.cols ≠ 1 then .error .dimension
  else do return ⟨← m.at 3, ← m.at 0, ← m.at 1, ← m.at 2⟩

/-- `components_from_iterable`, `geometry_wrapper.cc:30-37`: all elements are read, then counted. -/
def componentsFromIterable (es : List (Expr F)) : Res (List (Expr F)) :=
  if es.length ≠ 4 then .error .dimension else .ok es

/-- `Quaternion.from_wxyz`, `geometry_wrapper.cc:91-101`. -/
def fromWxyz : Storage F → Res (QuatE F)
  | .matrix m => fromVectorWxyz m
  | .iterable es => do
    match ← componentsFromIterable es with
    | [a, b, c, d] => return ⟨a, b, c, d⟩
    | _ => .error .ub

/-- `Quaternion.from_xyzw`, `geometry_wrapper.cc:80-90`. -/
def fromXyzw : Storage F → Res (QuatE F)
  | .matrix m => fromVectorXyzw m
  | .iterable es => do
    match ← componentsFromIterable es with
    | [a, b, c, d] => return ⟨d, a, b, c⟩
    | _ => .error .ub

/-- `to_vector_wxyz`, `quaternion.cc:21`; `make_vector` makes one column, `matrix_functions.h:12-15`. -/
def toVectorWxyz (q : QuatE F) : MatE F := ⟨4, 1, [q.w, q.x, q.y, q.z]⟩

/-- `to_vector_xyzw`, `quaternion.cc:23`. -/
def toVectorXyzw (q : QuatE F) : MatE F := ⟨4, 1, [q.x, q.y, q.z, q.w]⟩

/-- `to_list`, `geometry_wrapper.cc:39-41`. -/
def toList (q : QuatE F) : List (Expr F) := [q.w, q.x, q.y, q.z]

/-- `Quaternion.with_name`, `geometry_wrapper.cc:52-59`, and `from_name_prefix`, `quaternion.cc:15-19`: `make_symbols` makes variables of the unknown
set, `expression.h:188-192`. -/
def withName (name : String) : QuatE F :=
  ⟨.var (name ++ "_w") .unknown, .var (name ++ "_x") .unknown, .var (name ++ "_y") .unknown, .var (name ++ "_z") .unknown⟩

end Wf.Sym.Store
