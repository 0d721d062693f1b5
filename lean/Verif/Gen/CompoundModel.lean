import Verif.Base

/-!
# Model of struct values: `custom_type_expressions.{h,cc}` and `compound_expression_element.cc`

A custom type is an element of `T`, and `size` is its `total_size`. `is_identical_struct` is structural equality and the cached hash is a
function of the value, so comparing hashes first does not change the outcome.
-/

namespace Wf.Gen

mutual
/-- `compound_expr`: a function call (identified by a number, with the custom type it returns, if it does), an argument, or a construction. -/
inductive Compound (T : Type)
  | call (id : Nat) (ret : Option T)
  | argument (name : String) (type : T)
  | construct (type : T) (args : Scalars T)
deriving DecidableEq, Repr
/-- A scalar expression: a member of a struct value, or anything else. -/
inductive Scalar (T : Type)
  | other (id : Nat)
  | element (provenance : Compound T) (index : Nat)
deriving DecidableEq, Repr
/-- A list of scalar expressions. -/
inductive Scalars (T : Type)
  | nil
  | cons (x : Scalar T) (rest : Scalars T)
deriving DecidableEq, Repr
end

variable {T : Type} [DecidableEq T]

def Scalars.toList : Scalars T → List (Scalar T)
  | .nil => []
  | .cons x r => x :: r.toList

def Scalars.ofList : List (Scalar T) → Scalars T
  | [] => .nil
  | x :: r => .cons x (ofList r)

/-- `maybe_get_custom_type`, `custom_type_expressions.cc:21-32`. -/
def Compound.type? : Compound T → Option T
  | .call _ ret => ret
  | .argument _ t => some t
  | .construct t _ => some t

/-- The loop of `maybe_get_existing_compound_expr`, `custom_type_expressions.cc:58-66`, from index `i`. -/
def restMatch (c : Compound T) : Nat → List (Scalar T) → Bool
  | _, [] => true
  | i, .element d j :: rest => j == i && d == c && restMatch c (i + 1) rest
  | _, .other _ :: _ => false

/-- `maybe_get_existing_compound_expr`, `custom_type_expressions.cc:36-68`. -/
def existingCompound (t : T) : List (Scalar T) → Option (Compound T)
  | .element c 0 :: rest => if c.type? = some t then (if restMatch c 1 rest then some c else none) else none
  | _ => none

/-- `custom_type_construction::create`, `custom_type_expressions.cc:70-76`, with the constructor's check (11-17). -/
def createConstruction (size : T → Nat) (t : T) (args : List (Scalar T)) : Res (Compound T) :=
  match existingCompound t args with
  | some c => .ok c
  | none => if size t = args.length then .ok (.construct t (Scalars.ofList args)) else .error .assertion

/-- `compound_expression_element::create`, `compound_expression_element.cc:11-19`. -/
def createElement (c : Compound T) (index : Nat) : Res (Scalar T) :=
  match c with
  | .construct _ args => match args.toList[index]? with
    | some x => .ok x
    | none => .error .assertion
  | c => .ok (.element c index)

end Wf.Gen
