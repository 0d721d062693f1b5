import Verif.Base

/-!
# Model of `expressions/matrix.{h,cc}`, `matrix_expression.cc` and the constructors in `matrix_functions.cc`

Entries are of an arbitrary type `E` with the operations the code applies to them (`Ops`). `index_t` is `int` (`enumerations.h:12`), here `Int`:
overflow is modelled where it can happen for arguments of a caller (`intResult`) and for the unsigned products that guard sizes (`sizeProduct`).
The index `i * cols + j` of an element cannot overflow in a matrix of fewer than `2^31` elements unless it is out of range, which is undefined
anyway; sums of the dimensions of stacked matrices are not checked. An exception raised while an entry is computed (for example integer
overflow, C01) aborts the matrix operation and is not modelled.
-/

namespace Wf.Mat

/-- Operations on entries: `constants::zero`, `constants::one`, `operator+ - * /` on expressions, `addition::from_operands`, `is_zero`. -/
structure Ops (E : Type) where
  zero : E
  one : E
  add : E → E → E
  sub : E → E → E
  mul : E → E → E
  div : E → E → E
  sum : List E → E
  isZero : E → Bool

/-- `class matrix`, `expressions/matrix.h:13-81`: shape and elements in row-major order. -/
structure Mat (E : Type) where
  rows : Int
  cols : Int
  data : List E
deriving DecidableEq, Repr

variable {E : Type}

/-- `static_cast<std::size_t>(a) * static_cast<std::size_t>(b)`. -/
def sizeProduct (a b : Int) : Int := (a * b) % 2 ^ 64

/-- The result of `int` arithmetic; overflow is undefined. -/
def intResult (a : Int) : Res Int := if -2 ^ 31 ≤ a ∧ a < 2 ^ 31 then .ok a else .error .ub

/-- Constructor, `expressions/matrix.cc:12-20`. -/
def newMatrix (rows cols : Int) (data : List E) : Res (Mat E) :=
  if (data.length : Int) ≠ sizeProduct rows cols then .error .dimension
  else if rows < 0 ∨ cols < 0 then .error .assertion
  else .ok ⟨rows, cols, data⟩

/-- `data_[k]` on a `std::vector` without bounds check. -/
def vecAt (data : List E) (k : Int) : Res E :=
  if k < 0 then .error .ub
  else match data[k.toNat]? with
    | some x => .ok x
    | none => .error .ub

/-- `get_unchecked`, `expressions/matrix.h:43-50,71-73`. -/
def Mat.getUnchecked (m : Mat E) (i j : Int) : Res E := vecAt m.data (i * m.cols + j)

/-- `operator()(i, j)`, `expressions/matrix.h:97-103`. -/
def Mat.get (m : Mat E) (i j : Int) : Res E :=
  if i ≥ m.rows ∨ i < 0 ∨ j ≥ m.cols ∨ j < 0 then .error .dimension else m.getUnchecked i j

/-- `operator[](i)`, `expressions/matrix.h:85-95`. -/
def Mat.getFlat (m : Mat E) (i : Int) : Res E :=
  if m.rows ≠ 1 ∧ m.cols ≠ 1 then .error .dimension
  else if i < 0 ∨ i ≥ (m.data.length : Int) then .error .dimension
  else vecAt m.data i

/-- The index pairs visited by `iter_matrix`, `expressions/matrix.h:116-123`, in order. -/
def indexPairs (rows cols : Int) : List (Int × Int) :=
  (List.range rows.toNat).flatMap fun (i : Nat) => (List.range cols.toNat).map fun (j : Nat) => ((i : Int), (j : Int))

/-- `iter_matrix` with a callback that appends one element, `expressions/matrix.h:116-123`. -/
def iterMatrix (rows cols : Int) (f : Int → Int → Res E) : Res (List E) :=
  (indexPairs rows cols).mapM fun p => f p.1 p.2

/-- `create_matrix`, `expressions/matrix.h:127-135`. -/
def createMatrix (rows cols : Int) (f : Int → Int → Res E) : Res (Mat E) := do
  let data ← iterMatrix rows cols f
  newMatrix rows cols data

/-- `get_block`, `expressions/matrix.cc:22-36`. -/
def Mat.getBlock (m : Mat E) (row col nrows ncols : Int) : Res (Mat E) :=
  if row < 0 then .error .dimension
  else (intResult (row + nrows)).bind fun bottom =>
    if bottom > m.rows ∨ col < 0 then .error .dimension
    else (intResult (col + ncols)).bind fun right =>
      if right > m.cols then .error .dimension else createMatrix nrows ncols fun i j => m.getUnchecked (i + row) (j + col)

/-- `transposed`, `expressions/matrix.cc:37-45`. -/
def Mat.transposed (m : Mat E) : Res (Mat E) := createMatrix m.cols m.rows fun r c => m.get c r

/-- The terms of one entry of a product: `a(i, k) * b(k, j)` with zero products dropped, `expressions/matrix.cc:64-68`. -/
def productTerms (o : Ops E) (a b : Mat E) (i j : Int) : Res (List E) := do
  let ps ← (List.range a.cols.toNat).mapM fun (k : Nat) => do
    let x ← a.get i k
    let y ← b.get k j
    return o.mul x y
  return ps.filter fun p => !o.isZero p

/-- `operator*(matrix, matrix)`, `expressions/matrix.cc:47-76`. -/
def Mat.mul (o : Ops E) (a b : Mat E) : Res (Mat E) :=
  if a.cols ≠ b.rows then .error .dimension
  else createMatrix a.rows b.cols fun i j => do
    let terms ← productTerms o a b i j
    if terms.isEmpty then return o.zero else return o.sum terms

/-- `operator+(matrix, matrix)`, `expressions/matrix.cc:78-89`. -/
def Mat.add (o : Ops E) (a b : Mat E) : Res (Mat E) :=
  if a.rows ≠ b.rows ∨ a.cols ≠ b.cols then .error .dimension
  else createMatrix a.rows a.cols fun i j => do
    let x ← a.get i j
    let y ← b.get i j
    return o.add x y

/-- `operator-(matrix, matrix)`, `expressions/matrix.cc:91-102`. -/
def Mat.sub (o : Ops E) (a b : Mat E) : Res (Mat E) :=
  if a.rows ≠ b.rows ∨ a.cols ≠ b.cols then .error .dimension
  else createMatrix a.rows a.cols fun i j => do
    let x ← a.get i j
    let y ← b.get i j
    return o.sub x y

/-- `operator*(matrix_expr, scalar_expr)`, `matrix_expression.cc:160-165`. -/
def Mat.scale (o : Ops E) (a : Mat E) (b : E) : Res (Mat E) := newMatrix a.rows a.cols (a.data.map fun x => o.mul x b)

/-- `reshape`, `matrix_expression.cc:53-63`. -/
def Mat.reshape (m : Mat E) (nrows ncols : Int) : Res (Mat E) :=
  if nrows < 0 ∨ ncols < 0 then .error .dimension
  else if sizeProduct nrows ncols ≠ (m.data.length : Int) then .error .dimension
  else newMatrix nrows ncols m.data

/-- `make_zeros`, `matrix_functions.cc:30-37`. -/
def makeZeros (o : Ops E) (rows cols : Int) : Res (Mat E) :=
  if rows ≤ 0 ∨ cols ≤ 0 then .error .dimension
  else (intResult (rows * cols)).bind fun n => newMatrix rows cols (List.replicate n.toNat o.zero)

/-- `make_identity`, `matrix_functions.cc:39-47`. -/
def makeIdentity (o : Ops E) (rows : Int) (colsOpt : Option Int) : Res (Mat E) :=
  let cols := colsOpt.getD rows
  if rows ≤ 0 ∨ cols ≤ 0 then .error .dimension
  else createMatrix rows cols fun i j => .ok (if i = j then o.one else o.zero)

/-- `vectorize_matrix`, `matrix_functions.cc:49-60`: columns first. -/
def vectorize (m : Mat E) : Res (Mat E) := do
  let flatSize ← intResult (m.rows * m.cols)
  let flat ← ((List.range m.cols.toNat).flatMap fun (j : Nat) => (List.range m.rows.toNat).map fun (i : Nat) => ((i : Int), (j : Int))).mapM
    fun p => m.get p.1 p.2
  newMatrix flatSize 1 flat

/-- `diagonal`, `matrix_functions.cc:147-160`. -/
def diagonal (o : Ops E) (values : List E) : Res (Mat E) :=
  if values.isEmpty then .error .dimension
  else createMatrix values.length values.length fun i j => if i = j then vecAt values i else .ok o.zero

/-! ## Stacking -/

/-- Assignment through the row-major span of `stack`: `result[i * num_cols + j] = x`. Writing outside is undefined. -/
def vecSet (data : List E) (k : Int) (x : E) : Res (List E) :=
  if k < 0 ∨ k ≥ (data.length : Int) then .error .ub else .ok (data.set k.toNat x)

/-- The two inner loops of `stack`, `matrix_functions.cc:82-86`. -/
def copyBlock (m : Mat E) (numCols rowOffset colOffset : Int) (result : List E) : Res (List E) :=
  (indexPairs m.rows m.cols).foldlM (fun res p => do
    let x ← m.getUnchecked p.1 p.2
    vecSet res ((p.1 + rowOffset) * numCols + (p.2 + colOffset)) x) result

/-- The outer loop of `stack`, `matrix_functions.cc:62-91`. -/
def stackLoop (numCols : Int) (incRows incCols : Bool) : List (Mat E) → Int → Int → List E → Res (List E)
  | [], _, _, result => .ok result
  | m :: ms, rowOffset, colOffset, result => do
    let result ← copyBlock m numCols rowOffset colOffset result
    stackLoop numCols incRows incCols ms (rowOffset + m.rows * (if incRows then 1 else 0)) (colOffset + m.cols * (if incCols then 1 else 0)) result

/-- `stack`, `matrix_functions.cc:62-93`. `values[0]` of an empty list is undefined. -/
def stack (o : Ops E) (values : List (Mat E)) (numRows numCols : Int) : Res (Mat E) :=
  match values with
  | [] => .error .ub
  | first :: _ => do
    let result := List.replicate (sizeProduct numRows numCols).toNat o.zero
    let result ← stackLoop numCols (decide (numRows > first.rows)) (decide (numCols > first.cols)) values 0 0 result
    newMatrix numRows numCols result

/-- `hstack`, `matrix_functions.cc:93-112`. -/
def hstack (o : Ops E) (values : List (Mat E)) : Res (Mat E) :=
  match values with
  | [] => .error .dimension
  | first :: _ =>
    if values.any fun m => m.rows != first.rows then .error .dimension
    else stack o values first.rows (values.map (·.cols)).sum

/-- `vstack`, `matrix_functions.cc:114-132`. -/
def vstack (o : Ops E) (values : List (Mat E)) : Res (Mat E) :=
  match values with
  | [] => .error .dimension
  | first :: _ =>
    if values.any fun m => m.cols != first.cols then .error .dimension
    else stack o values (values.map (·.rows)).sum first.cols

/-- `diagonal_stack`, `matrix_functions.cc:134-145`. -/
def diagonalStack (o : Ops E) (values : List (Mat E)) : Res (Mat E) :=
  if values.isEmpty then .error .dimension
  else stack o values (values.map (·.rows)).sum (values.map (·.cols)).sum

/-- `squared_norm`, `matrix_expression.cc:65-73` (`pow(x, 2)` as a product; `addition::from_operands` rejects an empty list). -/
def Mat.squaredNorm (o : Ops E) (m : Mat E) : Res E :=
  if m.data.isEmpty then .error .invalidArgument else .ok (o.sum (m.data.map fun x => o.mul x x))

end Wf.Mat
