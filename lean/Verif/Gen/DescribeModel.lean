import Verif.Gen.CallModel
import Verif.Gen.FlowModel

/-!
# Model of function descriptions: `function_description.cc` and `create_function_description` of `code_generation.py`

A symbolic Python function is its parameters and its body, which maps the values bound to the parameters to the object that is returned.
Annotations are given as the types they are converted to. Values are those of `Passed` (see `CallModel.lean`). Exceptions of Python are the
error `type`. The map of outputs is a list of keys and values. The members of a struct value are not rebuilt into an existing value
(`maybe_get_existing_compound_expr`, see C50).
-/

namespace Wf.Gen.Desc

open Mat (Mat newMatrix)

variable {E : Type}

/-- `argument_direction`, `argument.h:13-17`. -/
inductive Direction
  | input | output | optional
deriving DecidableEq, Repr

/-- `argument`, `argument.h:66-71`. -/
structure Argument where
  name : String
  type : Ty
  direction : Direction
  index : Nat
deriving DecidableEq

/-- `function_description::impl`, `function_description.h:77-86`, without the name of the function; the keys of the outputs are
`output_key`, `expression_group.h:21-40`. -/
structure Description (E : Type) where
  args : List Argument
  ret : Option Ty
  outputs : List ((Usage × String) × AnyArg E)

/-- `add_argument`, `function_description.cc:56-64`. -/
def Description.addArgument (d : Description E) (name : String) (t : Ty) (dir : Direction) : Res (Description E) :=
  if d.args.any fun a => a.name == name then .error .invalidArgument
  else .ok { d with args := d.args ++ [⟨name, t, dir, d.args.length⟩] }

/-- `std::unordered_map::emplace`: a key that is there keeps its value. -/
def emplace (m : List ((Usage × String) × AnyArg E)) (k : Usage × String) (v : AnyArg E) : List ((Usage × String) × AnyArg E) :=
  if m.any fun p => p.1 == k then m else m ++ [(k, v)]

/-- `find_output_expressions`, `function_description.cc:11-16`. -/
def Description.find (d : Description E) (k : Usage × String) : Res (AnyArg E) :=
  match d.outputs.find? fun p => p.1 == k with
  | some p => .ok p.2
  | none => .error .assertion

/-- `add_output_argument`, `function_description.cc:34-44`. -/
def Description.addOutput (d : Description E) (name : String) (t : Ty) (optional : Bool) (v : AnyArg E) : Res (Description E) := do
  let d ← d.addArgument name t (if optional then .optional else .output)
  return { d with outputs := emplace d.outputs (if optional then Usage.optional else Usage.output, name) v }

/-- `set_return_value`, `function_description.cc:47-53`. -/
def Description.setReturn (d : Description E) (t : Ty) (v : AnyArg E) : Res (Description E) :=
  if d.ret.isSome then .error .assertion
  else .ok { d with ret := some t, outputs := emplace d.outputs (.returnValue, "") v }

/-! ## The Python function -/

/-- How a parameter can be passed in Python. -/
inductive Kind
  | positionalOnly | ordinary | keywordOnly
deriving DecidableEq, Repr

/-- A parameter of a Python function. -/
structure Param where
  name : String
  kind : Kind
  annotation : Option Ty
  hasDefault : Bool

/-- An element of the returned sequence: `ReturnValue`, `OutputArg` or something else, `code_generation.py:30-57`. -/
inductive Item (E : Type)
  | returnValue (v : Passed E)
  | outputArg (v : Passed E) (name : String) (optional : Bool)
  | other

/-- What a function returns: a value, one `ReturnValue` or `OutputArg`, or a sequence. -/
inductive Returned (E : Type)
  | value (v : Passed E)
  | item (i : Item E)
  | seq (is : List (Item E))

/-- A symbolic Python function. -/
structure PyFn (E : Type) where
  params : List Param
  body : List (String × Passed E) → Res (Returned E)

/-- The expressions for inputs: an element of an argument (`function_argument_variable` or `compound_expression_element` of a
`custom_type_argument`), and an argument as a whole (`custom_type_argument`). -/
structure Inputs (E : Type) where
  elem : String → Ty → Nat → E
  whole : String → Ty → E

/-- The value for a parameter: `create_function_input`, `type_registry.cc:13-25`, `create_expression_elements`,
`compound_expression.cc:21-29`, and `code_generation.py:149-161`. -/
def inputValue (ip : Inputs E) (name : String) : Ty → Res (Passed E)
  | .scalar p => .ok (.expr (ip.elem name (.scalar p) 0))
  | .matrix r c => do
    let m ← newMatrix r c ((List.range (r * c)).map (ip.elem name (.matrix r c)))
    return .matrix m
  | .custom n .nil => .ok (.opaque (.custom n .nil) (some (ip.whole name (.custom n .nil))))
  | .custom n (.cons f t fs) => do
    let v ← (Ty.custom n (.cons f t fs)).fromFlat ((List.range (Ty.custom n (.cons f t fs)).totalSize).map (ip.elem name (.custom n (.cons f t fs))))
    match v.1 with
    | .inst a => return .inst (.custom n (.cons f t fs)) a
    | _ => .error .type

/-- The names in `inspect.getfullargspec(func).args`: those that are not keyword-only. -/
def PyFn.listed (f : PyFn E) : List Param := f.params.filter fun p => p.kind ≠ .keywordOnly

/-- The loop over the parameters, `code_generation.py:137-161`: the description and the keyword arguments. -/
def addInputs (ip : Inputs E) : List Param → Description E → Res (Description E × List (String × Passed E))
  | [], d => .ok (d, [])
  | p :: ps, d =>
    match p.annotation with
    | none => .error .type
    | some t => do
      let d ← d.addArgument p.name t .input
      let v ← inputValue ip p.name t
      let r ← addInputs ip ps d
      return (r.1, (p.name, v) :: r.2)

/-- The call `func(**kwargs)`, `code_generation.py:164`: positional-only parameters cannot be passed by name, and keyword-only ones are not
in `kwargs`. -/
def PyFn.call (f : PyFn E) (kwargs : List (String × Passed E)) : Res (Returned E) :=
  if f.params.any fun p => p.kind == .positionalOnly then .error .type
  else if f.params.any fun p => p.kind == .keywordOnly && !p.hasDefault then .error .type
  else f.body kwargs

/-- The returned object as a sequence, `code_generation.py:166-172`. Other values cannot be iterated over. -/
def Returned.items : Returned E → Res (List (Item E))
  | .value v => match v with
    | .expr _ => .ok [.returnValue v]
    | .matrix _ => .ok [.returnValue v]
    | .inst _ _ => .ok [.returnValue v]
    | _ => .error .type
  | .item i => match i with
    | .other => .error .type
    | i => .ok [i]
  | .seq is => .ok is

/-- The type and the expression of an output: the overloads in `codegen_wrapper.cc:184-229`, with `code_generation.py:175-210` and
the check of `custom_type_construction` (`custom_type_expressions.cc:11-17`). -/
def outputValue : Passed E → Res (Ty × AnyArg E)
  | .expr x => .ok (.scalar .floating, .scalar x)
  | .number x => .ok (.scalar .floating, .scalar x)
  | .matrix m => .ok (.matrix m.rows.toNat m.cols.toNat, .matrix m)
  | .inst t a => do
    let es ← t.toFlat (.inst a)
    if es.length = t.totalSize then .ok (t, .struct t es) else .error .assertion
  | .opaque _ _ => .error .type
  | .other => .error .type

/-- One turn of the loop over the outputs, `code_generation.py:174-212`. -/
def Description.addItem (d : Description E) : Item E → Res (Description E)
  | .returnValue v => do
    let o ← outputValue v
    d.setReturn o.1 o.2
  | .outputArg v name optional => do
    let o ← outputValue v
    d.addOutput name o.1 optional o.2
  | .other => .error .type

/-- The loop over the outputs, `code_generation.py:174-212`. -/
def Description.addItems : List (Item E) → Description E → Res (Description E)
  | [], d => .ok d
  | i :: is, d => do
    let d ← d.addItem i
    addItems is d

/-- `create_function_description`, `code_generation.py:133-214`. -/
def describe (ip : Inputs E) (f : PyFn E) : Res (Description E) := do
  let r ← addInputs ip f.listed ⟨[], none, []⟩
  let returned ← f.call r.2
  let items ← returned.items
  r.1.addItems items

end Wf.Gen.Desc
