import Verif.Gen.TypesModel

/-!
# Specification for access sequences: struct values, their elements in declaration order, and reading a path
-/

namespace Wf.Gen

mutual
/-- A value of a generated-code type with elements in `α`. -/
inductive Val (α : Type)
  | scalar (x : α)
  | matrix (rows : List (List α))
  | struct (members : Members α)
inductive Members (α : Type)
  | nil
  | cons (name : String) (value : Val α) (rest : Members α)
end

mutual
/-- The value has the type: same field names in the same order, matrices of the declared dimensions. -/
def Val.HasType {α : Type} : Val α → Ty → Prop
  | .scalar _, .scalar _ => True
  | .matrix rows, .matrix r c => rows.length = r ∧ ∀ row ∈ rows, row.length = c
  | .struct ms, .custom _ fs => ms.HasType fs
  | _, _ => False
def Members.HasType {α : Type} : Members α → Fields → Prop
  | .nil, .nil => True
  | .cons n v ms, .cons n' t fs => n = n' ∧ v.HasType t ∧ ms.HasType fs
  | _, _ => False
end

mutual
/-- The elements in declaration order, matrices row by row. -/
def Val.elements {α : Type} : Val α → List α
  | .scalar x => [x]
  | .matrix rows => rows.flatten
  | .struct ms => ms.elements
def Members.elements {α : Type} : Members α → List α
  | .nil => []
  | .cons _ v ms => v.elements ++ ms.elements
end

mutual
/-- The numeric types of the elements in declaration order; the elements of a matrix are floating point. -/
def Ty.elementTypes : Ty → List Prim
  | .scalar p => [p]
  | .matrix r c => List.replicate (r * c) .floating
  | .custom _ fs => fs.elementTypes
def Fields.elementTypes : Fields → List Prim
  | .nil => []
  | .cons _ t fs => t.elementTypes ++ fs.elementTypes
end

/-- One step of a path as generated code spells it: a member name, or a row and a column. -/
inductive Step
  | member (name : String)
  | cell (row col : Nat)
deriving DecidableEq, Repr

/-- The member of a struct with a given name. -/
def Members.lookup {α : Type} (s : String) : Members α → Option (Val α)
  | .nil => none
  | .cons n v ms => if n = s then some v else ms.lookup s

/-- Reading one step. -/
def Val.read {α : Type} : Val α → Step → Option (Val α)
  | .struct ms, .member s => ms.lookup s
  | .matrix rows, .cell i j => ((rows[i]?).bind fun row => row[j]?).map .scalar
  | _, _ => none

/-- Reading a path from the outermost step inwards, down to a scalar. -/
def Val.readPath {α : Type} : Val α → List Step → Option α
  | .scalar x, [] => some x
  | _, [] => none
  | v, s :: ss => match v.read s with
    | some w => w.readPath ss
    | none => none

/-- How generated code spells an access: `field_access::field_name`, and `matrix_access::indices`. -/
def Access.step : Access → Res Step
  | .field _ _ name => .ok (.member name)
  | .element r c e => match computeIndices r c e with
    | .ok (i, j) => .ok (.cell i j)
    | .error x => .error x

/-- The path of element `i`. -/
def accessPath (t : Ty) (i : Nat) : Res (List Step) :=
  match determineAccessSequence t i with
  | .ok seq => seq.mapM Access.step
  | .error e => .error e

end Wf.Gen
