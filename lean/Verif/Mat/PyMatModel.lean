import Verif.Mat.MatrixModel

/-!
# Model of the Python interface of matrices: `wrapper/pywrenfold/matrix_wrapper.cc`

Indices, slices, iteration, construction from iterables and conversion to lists. Python integers that do not fit `int` are refused before
the functions below are called.
-/

namespace Wf.Mat

variable {E : Type}

/-! ## Slices -/

/-- A Python slice `start:stop:step`. -/
structure PySlice where
  start : Option Int
  stop : Option Int
  step : Option Int
deriving DecidableEq, Repr

/-- One bound of a slice as in CPython's `PySlice_AdjustIndices`. -/
def adjustBound (len step x : Int) : Int :=
  if x < 0 then (if x + len < 0 then (if step < 0 then -1 else 0) else x + len)
  else if x ≥ len then (if step < 0 then len - 1 else len) else x

/-- The number of steps, CPython's `PySlice_AdjustIndices`. -/
def sliceLength (start stop step : Int) : Int :=
  if step < 0 then (if stop < start then (start - stop - 1) / (-step) + 1 else 0)
  else if start < stop then (stop - start - 1) / step + 1 else 0

/-- `struct slice`, `matrix_wrapper.cc:36-60`: the first index, the step and the number of indices. `py::slice::compute` calls CPython's
`PySlice_Unpack` (missing bounds become the extreme values of `Py_ssize_t`; a zero step is refused) and `PySlice_AdjustIndices`. (CPython also
clamps bounds that do not fit `Py_ssize_t`; that gives the same indices.) -/
structure SliceIx where
  start : Int
  step : Int
  length : Int
deriving DecidableEq, Repr

@[inherit_doc SliceIx] def sliceCompute (len : Int) (s : PySlice) : Res SliceIx :=
  let step := s.step.getD 1
  if step = 0 then .error .invalidArgument
  else
    let start := adjustBound len step (s.start.getD (if step < 0 then 2 ^ 63 - 1 else 0))
    let stop := adjustBound len step (s.stop.getD (if step < 0 then -2 ^ 63 else 2 ^ 63 - 1))
    .ok ⟨start, step, sliceLength start stop step⟩

/-- `map_index`, `matrix_wrapper.cc:50-52`. -/
def SliceIx.map (s : SliceIx) (i : Int) : Int := s.start + i * s.step

/-! ## Element access -/

/-- What `__getitem__` returns for one index: a scalar or a matrix. -/
inductive Item (E : Type)
  | scalar (x : E)
  | matrix (m : Mat E)
deriving DecidableEq, Repr

/-- `matrix_get_row_and_col`, `matrix_wrapper.cc:94-99`. -/
def getRowAndCol (m : Mat E) (row col : Int) : Res E :=
  m.get (if row < 0 then m.rows + row else row) (if col < 0 then m.cols + col else col)

/-- `matrix_get_row`, `matrix_wrapper.cc:101-109`. -/
def getRow (m : Mat E) (row : Int) : Res (Item E) :=
  if m.cols = 1 then (m.getFlat (if row < 0 then m.rows + row else row)).map .scalar
  else (m.getBlock (if row < 0 then m.rows + row else row) 0 1 m.cols).map .matrix

/-- `matrix_get_row_slice`, `matrix_wrapper.cc:111-126`. -/
def getRowSlice (m : Mat E) (s : PySlice) : Res (Mat E) := do
  let ix ← sliceCompute m.rows s
  createMatrix ix.length m.cols fun i j => m.get (ix.map i) j

/-- `matrix_get_row_and_col_slice`, `matrix_wrapper.cc:128-147`. -/
def getRowAndColSlice (m : Mat E) (s t : PySlice) : Res (Mat E) := do
  let rows ← sliceCompute m.rows s
  let cols ← sliceCompute m.cols t
  createMatrix rows.length cols.length fun i j => m.get (rows.map i) (cols.map j)

/-- `matrix_get_row_index_and_col_slice`, `matrix_wrapper.cc:149-162`. -/
def getRowAndSlice (m : Mat E) (row : Int) (t : PySlice) : Res (Mat E) := do
  let wrapped ← if row < 0 then intResult (m.rows - row) else .ok row
  let cols ← sliceCompute m.cols t
  createMatrix 1 cols.length fun _ j => m.get wrapped (cols.map j)

/-- `matrix_get_row_slice_and_col_index`, `matrix_wrapper.cc:164-177`. -/
def getSliceAndCol (m : Mat E) (s : PySlice) (col : Int) : Res (Mat E) := do
  let wrapped ← if col < 0 then intResult (m.cols - col) else .ok col
  let rows ← sliceCompute m.rows s
  createMatrix rows.length 1 fun i _ => m.get (rows.map i) wrapped

/-- The dereferenced `row_iterator`, `matrix_wrapper.cc:77-84`, in all rows: `list(m)`. -/
def iterRows (m : Mat E) : Res (List (Item E)) :=
  (List.range m.rows.toNat).mapM fun (i : Nat) =>
    if m.cols = 1 then (m.getFlat i).map Item.scalar else (m.getBlock i 0 1 m.cols).map Item.matrix

/-! ## Construction from iterables -/

/-- A Python object given to `sym.matrix`: an expression (or a number), an iterable, a matrix, or something that is neither iterable nor a
scalar. -/
inductive PyObj (E : Type)
  | expr (x : E)
  | iter (xs : List (PyObj E))
  | matrix (m : Mat E)
  | other
deriving Repr

/-- `py::cast<scalar_expr>`. -/
def PyObj.toExpr : PyObj E → Res E
  | .expr x => .ok x
  | _ => .error .type

/-- `extract_iterable_rows`, `matrix_wrapper.cc:203-213`: the elements and the number of columns. -/
def extractRows : PyObj E → Res (List E × Int)
  | .matrix m => .ok (m.data, m.cols)
  | .iter xs => do
    let es ← xs.mapM PyObj.toExpr
    return (es, es.length)
  | _ => .error .type

/-- The loop of `stack_iterables`, `matrix_wrapper.cc:224-233`. -/
def extractLoop (cols : Int) : List (PyObj E) → List E → Res (List E)
  | [], acc => .ok acc
  | o :: os, acc => do
    let r ← extractRows o
    if r.2 ≠ cols then .error .dimension else extractLoop cols os (acc ++ r.1)

/-- `stack_iterables`, `matrix_wrapper.cc:215-240`. The number of elements is divided by the number of columns: undefined if that is zero. -/
def stackIterables (o : PyObj E) (os : List (PyObj E)) : Res (Mat E) := do
  let first ← extractRows o
  let all ← extractLoop first.2 os first.1
  if first.2 = 0 then .error .ub
  else if (all.length : Int) % first.2 ≠ 0 then .error .assertion
  else newMatrix ((all.length : Int) / first.2) first.2 all

/-- `column_vector_from_container`, `matrix_wrapper.cc:179-189`. -/
def columnVector (xs : List (PyObj E)) : Res (Mat E) := do
  let es ← xs.mapM PyObj.toExpr
  if es.isEmpty then .error .dimension else newMatrix es.length 1 es

/-- `row_vector_from_container`, `matrix_wrapper.cc:191-201`. -/
def rowVector (xs : List (PyObj E)) : Res (Mat E) := do
  let es ← xs.mapM PyObj.toExpr
  if es.isEmpty then .error .dimension else newMatrix 1 es.length es

/-- `matrix_from_iterable`, `matrix_wrapper.cc:242-265`. -/
def matrixFromIterable : List (PyObj E) → Res (Mat E)
  | [] => .error .dimension
  | o :: os =>
    match o with
    | .iter _ => stackIterables o os
    | .matrix _ => stackIterables o os
    | _ => columnVector (o :: os)

/-- `list_from_matrix`, `matrix_wrapper.cc:274-285`. -/
def listFromMatrix (m : Mat E) : Res (List (List E)) :=
  (List.range m.rows.toNat).mapM fun (i : Nat) => (List.range m.cols.toNat).mapM fun (j : Nat) => m.get i j

/-- `unary_map_matrix`, `matrix_wrapper.cc:267-272`. -/
def unaryMap (m : Mat E) (f : E → Res E) : Res (Mat E) := do
  let data ← m.data.mapM f
  newMatrix m.rows m.cols data

end Wf.Mat
