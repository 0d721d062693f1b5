import Verif.Base

/-!
# Model of `code_generation/types.{h,cc}`

Matrix dimensions are natural numbers and sizes do not wrap. The `underlying_type` of a custom type and the native field accessors are not
modelled: nothing here depends on them.
-/

namespace Wf.Gen

/-- `numeric_primitive_type`, `enumerations.h`. -/
inductive Prim
  | boolean | integral | floating
deriving DecidableEq, Repr

mutual
/-- `type_variant`, `types.h:203`: `scalar_type`, `matrix_type` and `custom_type`. -/
inductive Ty
  | scalar (t : Prim)
  | matrix (rows cols : Nat)
  | custom (name : String) (fields : Fields)
/-- A `std::vector<struct_field>`. -/
inductive Fields
  | nil
  | cons (name : String) (type : Ty) (rest : Fields)
end

/-- The names of the fields. -/
def Fields.names : Fields → List String
  | .nil => []
  | .cons n _ r => n :: r.names

mutual
/-- `count_custom_type_size`, `types.cc:70-85`; for a custom type it is `total_size`. -/
def Ty.totalSize : Ty → Nat
  | .scalar _ => 1
  | .matrix r c => r * c
  | .custom _ fs => fs.totalSize
def Fields.totalSize : Fields → Nat
  | .nil => 0
  | .cons _ t r => t.totalSize + r.totalSize
end

mutual
/-- The check made by the constructor, `assert_field_names_are_unique`, `types.cc:29-40`, for the type and all the types nested in it. -/
def Ty.valid : Ty → Bool
  | .scalar _ => true
  | .matrix _ _ => true
  | .custom _ fs => decide fs.names.Nodup && fs.valid
def Fields.valid : Fields → Bool
  | .nil => true
  | .cons _ t r => t.valid && r.valid
end

/-- `field_by_name`, `types.cc:60-68`. -/
def Fields.byName (s : String) : Fields → Option Ty
  | .nil => none
  | .cons n t r => if n = s then some t else r.byName s

/-- `access_variant`, `types.h:325-369`. -/
inductive Access
  | field (type : String) (fields : Fields) (name : String)
  | element (rows cols index : Nat)

mutual
/-- `build_access_sequence`, `types.cc:115-153`: whether the element was found, the counter and the sequence (bottom to top). -/
def Ty.build : Ty → Nat → List Access → Bool × Nat × List Access
  | .scalar _, index, out => if index = 0 then (true, index, out) else (false, index - 1, out)
  | .matrix r c, index, out => if index < r * c then (true, index, out ++ [.element r c index]) else (false, index - r * c, out)
  | .custom n fs, index, out => buildFields n fs fs index out
/-- The loop over the fields of the type `n` with fields `all`, `types.cc:140-152`. -/
def buildFields (n : String) (all : Fields) : Fields → Nat → List Access → Bool × Nat × List Access
  | .nil, index, out => (false, index, out)
  | .cons f t r, index, out =>
    let s := t.build index out
    if s.1 then (true, s.2.1, s.2.2 ++ [.field n all f]) else buildFields n all r s.2.1 s.2.2
end

/-- `determine_access_sequence`, `types.cc:157-166`. -/
def determineAccessSequence (t : Ty) (index : Nat) : Res (List Access) :=
  let s := t.build index []
  if s.1 then .ok s.2.2.reverse else .error .assertion

/-- `compute_indices`, `types.h:67-71`. -/
def computeIndices (rows cols element : Nat) : Res (Nat × Nat) := if element < rows * cols then .ok (element / cols, element % cols) else .error .assertion

/-- `determine_member_type`, `types.cc:168-188`. A missing field or a null pointer would be undefined. -/
def determineMemberType (t : Ty) (index : Nat) : Res Prim :=
  match determineAccessSequence t index with
  | .error e => .error e
  | .ok seq =>
    match seq.getLast? with
    | none => .error .assertion
    | some (.element _ _ _) => .ok .floating
    | some (.field _ fs name) =>
      match fs.byName name with
      | none => .error .ub
      | some (.scalar p) => .ok p
      | some _ => .error .assertion

end Wf.Gen
