import Verif.Gen.StructModel
import Verif.Sym.ExprModel

/-!
# Model of calls of external functions: `external_functions.py` and `external_function.cc`

A value that is passed is an expression, a Python number, a matrix, an instance of a dataclass (with the type it was declared with), an opaque
object (with the expression it stands for, if it has one) or anything else. The members of struct values are not rebuilt into an existing
value here (`maybe_get_existing_compound_expr`, see C50). Exceptions of Python are the error `type`.
-/

namespace Wf.Gen

open Mat (Mat)

variable {α E : Type}

/-- `external_function`: the parameters and the type of the result. -/
structure ExternalFn where
  params : List (String × Ty)
  ret : Ty

/-- The constructor with `assert_argument_names_are_unique`, `external_function.cc:20-38`. -/
def declareExternal (params : List (String × Ty)) (ret : Ty) : Res ExternalFn :=
  if (params.map (·.1)).Nodup then .ok ⟨params, ret⟩ else .error .assertion

/-- `arg_position`, `external_function.cc:40-47`. -/
def argPosition (names : List String) (s : String) : Option Nat := names.findIdx? (· == s)

/-- The loop over the keyword arguments, `external_functions.py:108-119`. -/
def keywordPositions (names : List String) (n : Nat) : List (String × α) → Res (List (Nat × α))
  | [] => .ok []
  | (key, value) :: rest =>
    match argPosition names key with
    | none => .error .type
    | some p => if p < n then .error .type else do
      let r ← keywordPositions names n rest
      return (p, value) :: r

/-- `_combine_args`, `external_functions.py:96-121`. -/
def combineArgs (names : List String) (args : List α) (kwargs : List (String × α)) : Res (List α) :=
  if args.length + kwargs.length ≠ names.length then .error .type
  else do
    let positions ← keywordPositions names args.length kwargs
    return args ++ (positions.mergeSort fun a b => decide (a.1 ≤ b.1)).map (·.2)

/-- A Python value passed to the function. -/
inductive Passed (E : Type)
  | expr (x : E)
  | number (x : E)
  | matrix (m : Mat E)
  | inst (type : Ty) (attrs : Attrs E)
  | opaque (type : Ty) (provenance : Option E)
  | other

/-- `any_expression`, as far as it is passed: a struct value is its type with the members, or an opaque value. -/
inductive AnyArg (E : Type)
  | scalar (x : E)
  | matrix (m : Mat E)
  | struct (type : Ty) (members : List E)
  | opaque (type : Ty) (value : E)

/-- Whether a type is that of a dataclass or opaque object. -/
def Ty.isCustom : Ty → Bool
  | .custom _ _ => true
  | _ => false

/-- The conversion of one argument, `external_functions.py:134-169`, with the check of `custom_type_construction` (`custom_type_expressions.cc:11-17`). -/
def convertArg (t : Ty) : Passed E → Res (AnyArg E)
  | .expr x => .ok (.scalar x)
  | .number x => .ok (.scalar x)
  | .matrix m => .ok (.matrix m)
  | .inst u a =>
    if t.isCustom = false then .error .type
    else if u ≠ t then .error .type
    else do
      let es ← t.toFlat (.inst a)
      if es.length = t.totalSize then .ok (.struct t es) else .error .assertion
  | .opaque u p =>
    if t.isCustom = false then .error .type
    else if u ≠ t then .error .type
    else if t.totalSize ≠ 0 then .error .assertion
    else match p with
      | none => .error .type
      | some x => .ok (.opaque t x)
  | .other => .error .type

/-- The type of a passed expression, `external_function.cc:76-88`. -/
def AnyArg.type : AnyArg E → Ty
  | .scalar _ => .scalar .floating
  | .matrix m => .matrix m.rows.toNat m.cols.toNat
  | .struct t _ => t
  | .opaque t _ => t

/-- The check of `create_invocation`, `external_function.cc:70-101`. -/
def checkArgs : List (String × Ty) → List (AnyArg E) → Res Unit
  | [], [] => .ok ()
  | p :: ps, a :: as => if p.2 = a.type then checkArgs ps as else .error .type
  | _, _ => .error .assertion

/-- The result of a call: the arguments of the invocation, and the elements of it that make up the value; none for a struct, which is the
invocation itself (`external_function.cc:103-119`). -/
structure Call (E : Type) where
  args : List (AnyArg E)
  elements : Option (Nat × Nat × List Nat)

/-- The result of `create_invocation`, `external_function.cc:108-118`. -/
def resultElements : Ty → Option (Nat × Nat × List Nat)
  | .scalar _ => some (1, 1, [0])
  | .matrix r c => some (r, c, List.range (r * c))
  | .custom _ _ => none

/-- `zip(combined_args, arg_names_and_types, strict=True)` and the loop, `external_functions.py:134-169`. -/
def convertArgs : List (String × Ty) → List (Passed E) → Res (List (AnyArg E))
  | [], [] => .ok []
  | p :: ps, v :: vs => do
    let a ← convertArg p.2 v
    let as ← convertArgs ps vs
    return a :: as
  | _, _ => .error .type

/-- `__call__`, `external_functions.py:22-26`, `_invoke_external_function` (124-174) and `create_invocation`. The keywords `self` and `func` are
parameters of these Python functions themselves, so passing them is an error. -/
def callExternal (f : ExternalFn) (args : List (Passed E)) (kwargs : List (String × Passed E)) : Res (Call E) :=
  if kwargs.any fun k => k.1 == "self" || k.1 == "func" then .error .type else do
  let combined ← combineArgs (f.params.map (·.1)) args kwargs
  let converted ← convertArgs f.params combined
  let _ ← checkArgs f.params converted
  return ⟨converted, resultElements f.ret⟩

end Wf.Gen
