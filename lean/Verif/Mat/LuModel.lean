import Verif.Mat.MatrixModel

/-!
# Model of the LU factorisation and determinant in `matrix_functions.cc`

The in-place algorithm works on spans `L` and `U`. A span is a function from indices to elements; writing through a span is a functional
update, `block` is a shift of the indices (C45 proves this of the span class). Loops that fill or swap a row or column become one update
of the whole row or column.
-/

namespace Wf.Mat

variable {E : Type}

/-- `struct permutation_matrix`, `matrix_functions.cc:164-235`: the mapping and the number of swaps. -/
structure Perm where
  p : List Nat
  swaps : Nat
deriving DecidableEq, Repr

/-- `permutation_matrix(size)`, `matrix_functions.cc:168-171`. -/
def Perm.identity (n : Nat) : Perm := ⟨List.range n, 0⟩

/-- `permuted_row`, `matrix_functions.cc:176`. Reading outside is undefined. -/
def Perm.permutedRow (q : Perm) (i : Nat) : Res Nat :=
  match q.p[i]? with
  | some k => .ok k
  | none => .error .ub

/-- `permuted_row_transposed`, `matrix_functions.cc:179-182`: position of `i` in the list (its length when absent). -/
def Perm.permutedRowTransposed (q : Perm) (i : Nat) : Nat := q.p.idxOf i

/-- `std::swap(p[a], p[b])` on a list. -/
def swapAt (p : List Nat) (a b : Nat) : List Nat :=
  match p[a]?, p[b]? with
  | some x, some y => (p.set a y).set b x
  | _, _ => p

/-- Lines 186-189 and 198-201: add one to every entry and insert 0 at the start. -/
def shiftDown (p : List Nat) : List Nat := 0 :: p.map (· + 1)

/-- `shift_down_and_swap`, `matrix_functions.cc:188-198`. -/
def Perm.shiftDownAndSwap (q : Perm) (row : Nat) : Res Perm :=
  let p := shiftDown q.p
  if row ≠ 0 then
    if row < p.length then .ok ⟨swapAt p 0 row, q.swaps + 1⟩ else .error .assertion
  else .ok ⟨p, q.swaps⟩

/-- `shift_down_and_swap_right`, `matrix_functions.cc:201-212`. -/
def Perm.shiftDownAndSwapRight (q : Perm) (row : Nat) : Res Perm :=
  let p := shiftDown q.p
  let it := p.idxOf row
  if it < p.length then
    if it ≠ 0 then .ok ⟨swapAt p it 0, q.swaps + 1⟩ else .ok ⟨p, q.swaps⟩
  else .error .assertion

/-- `determinant` of a permutation, `matrix_functions.cc:224-230`. -/
def Perm.determinant (q : Perm) : Int := if q.swaps % 2 = 1 then -1 else 1

/-- A span: element access by indices. -/
abbrev View (E : Type) := Nat → Nat → E

/-- `find_pivot`, `matrix_functions.cc:240-252`: the first entry in row-major order that is not analytically zero. -/
def findPivot (o : Ops E) (rows cols : Nat) (U : View E) : Option (Nat × Nat) :=
  ((List.range rows).flatMap fun i => (List.range cols).map fun j => (i, j)).find? fun p => !o.isZero (U p.1 p.2)

/-- The row and column swaps, `matrix_functions.cc:293-302`: entry read at the swapped index. -/
def swapIdx (a i : Nat) : Nat := if i = 0 then a else if i = a then 0 else i

/-- The Schur complement, lines 316-320: `U_inner(i, j) - (c(i, 0) * r_t(0, j) / pivot)`. -/
def schur (o : Ops E) (V : View E) : View E :=
  fun i j => o.sub (V (i + 1) (j + 1)) (o.div (o.mul (V (i + 1) 0) (V 0 (j + 1))) (V 0 0))

/-- `L` after lines 322-332: inner result `Li`, first column from the (already row-swapped) `V`, the row-inverse of `P`; the rest of
row 0 keeps what was stored. -/
def assembleL (o : Ops E) (r : Nat) (L Li V : View E) (P : Perm) : View E := fun i j =>
  match i, j with
  | 0, 0 => o.one
  | 0, j + 1 => L 0 (j + 1)
  | i + 1, 0 => if i < r + 1 then o.div (V (P.permutedRowTransposed i + 1) 0) (V 0 0) else L (i + 1) 0
  | i + 1, j + 1 => Li i j

/-- `U` after lines 322-350: inner result `Ui`, first row permuted by `Q`, zeros below the pivot. -/
def assembleU (o : Ops E) (r : Nat) (Ui V : View E) (Q : Perm) : View E := fun i j =>
  match i, j with
  | 0, 0 => V 0 0
  | 0, j + 1 => match Q.permutedRow j with
    | .ok k => V 0 (k + 1)
    | .error _ => V 0 (j + 1)
  | i + 1, 0 => if i < r + 1 then o.zero else V (i + 1) 0
  | i + 1, j + 1 => Ui i j

/-- `factorize_full_piv_lu_internal(L, U)`, `matrix_functions.cc:271-356`, on an `L` of `rows` by `rows` and a `U` of `rows` by `cols`. -/
def luSpan (o : Ops E) : (rows cols : Nat) → (L U : View E) → Res (Perm × Perm × View E × View E)
  | 0, _, _, _ => .error .assertion
  | 1, cols, L, U => .ok (Perm.identity 1, Perm.identity cols, fun i j => if i = 0 ∧ j = 0 then o.one else L i j, U)
  | r + 2, cols, L, U =>
    match findPivot o (r + 2) cols U with
    | none => .ok (Perm.identity (r + 2), Perm.identity cols, fun i j => if i = j ∧ i < r + 2 then o.one else L i j, U)
    | some (pRow, pCol) =>
      -- lines 293-302: rows, then columns
      let V : View E := fun i j => U (swapIdx pRow i) (swapIdx pCol j)
      match luSpan o (r + 1) (cols - 1) (fun i j => L (i + 1) (j + 1)) (schur o V) with
      | .error e => .error e
      | .ok (P, Q, Li, Ui) =>
        -- assertions of lines 329 and 342
        if P.p.length ≠ r + 1 ∨ Q.p.length ≠ cols - 1 then .error .assertion
        else do
          -- lines 352-353
          let P' ← P.shiftDownAndSwap pRow
          let Q' ← Q.shiftDownAndSwapRight pCol
          return (P', Q', assembleL o r L Li V P, assembleU o r Ui V Q)

/-- Read a view back into the row-major storage. -/
def viewData (rows cols : Nat) (v : View E) : List E := (List.range rows).flatMap fun i => (List.range cols).map fun j => v i j

/-- The row-major span over the storage of a matrix (reads outside the storage are not performed by the algorithm; the view gives zero). -/
def dataView (o : Ops E) (cols : Nat) (data : List E) : View E := fun i j => (data[i * cols + j]?).getD o.zero

/-- `factorize_full_piv_lu_internal(A)`, `matrix_functions.cc:370-399`. -/
def luInternal (o : Ops E) (A : Mat E) : Res (Perm × Mat E × Mat E × Perm) :=
  if A.rows > A.cols then .error .dimension
  else do
    let r := A.rows.toNat
    let c := A.cols.toNat
    let (P, Q, L, U) ← luSpan o r c (dataView o r (List.replicate (r * r) o.zero)) (dataView o c A.data)
    let L ← newMatrix A.rows A.rows (viewData r r L)
    let U ← newMatrix A.rows A.cols (viewData r c U)
    return (P, L, U, Q)

/-- `create_matrix_from_permutations`, `matrix_functions.cc:358-368`. -/
def permMatrix (o : Ops E) (P : Perm) : Res (Mat E) :=
  let n := P.p.length
  newMatrix n n (viewData n n fun i j => if P.p[i]? = some j then o.one else o.zero)

/-- `factorize_full_piv_lu`, `matrix_functions.cc:401-414`. -/
def factorizeFullPivLu (o : Ops E) (A : Mat E) : Res (Mat E × Mat E × Mat E × Mat E) := do
  let (P, L, U, Q) ← luInternal o A
  let Pm ← permMatrix o P
  let Qm ← permMatrix o Q
  return (Pm, L, U, Qm)

/-- `determinant`, `matrix_functions.cc:416-453`. `ofSign` is the conversion of the integer 1 or -1 to an entry (line 448); negation in the
2 by 2 and 3 by 3 formulas is subtraction of entries. -/
def determinant (o : Ops E) (ofSign : Int → E) (m : Mat E) : Res E :=
  if m.rows ≠ m.cols then .error .dimension
  else if m.rows = 1 then m.getUnchecked 0 0
  else if m.rows = 2 then do
    let a ← m.getUnchecked 0 0
    let b ← m.getUnchecked 0 1
    let c ← m.getUnchecked 1 0
    let d ← m.getUnchecked 1 1
    return o.sub (o.mul a d) (o.mul b c)
  else if m.rows = 3 then do
    let m00 ← m.getUnchecked 0 0
    let m01 ← m.getUnchecked 0 1
    let m02 ← m.getUnchecked 0 2
    let m10 ← m.getUnchecked 1 0
    let m11 ← m.getUnchecked 1 1
    let m12 ← m.getUnchecked 1 2
    let m20 ← m.getUnchecked 2 0
    let m21 ← m.getUnchecked 2 1
    let m22 ← m.getUnchecked 2 2
    return o.sub (o.add (o.add (o.sub (o.sub (o.mul (o.mul m00 m11) m22) (o.mul (o.mul m00 m12) m21)) (o.mul (o.mul m01 m10) m22))
      (o.mul (o.mul m01 m12) m20)) (o.mul (o.mul m02 m10) m21)) (o.mul (o.mul m02 m11) m20)
  else do
    let (P, _, U, Q) ← luInternal o m
    let diag ← (List.range m.rows.toNat).mapM fun (i : Nat) => U.getUnchecked i i
    return diag.foldl o.mul (ofSign (P.determinant * Q.determinant))

end Wf.Mat
