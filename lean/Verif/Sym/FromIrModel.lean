import Verif.Sym.LowerModel
import Verif.Sym.CseModel
import Verif.Gen.FactorizeModel

/-!
# Model of `rebuild_expression_tree`: expressions from the intermediate form

Follows `components/core/wf/code_generation/expr_from_ir.cc` for a program of one block (as `cse_function_description`,
`components/wrapper/pywrenfold/codegen_wrapper.cc:41-48`, calls it, before conditionals are converted to control flow). External functions and struct
members are not modelled, as in `LowerModel.lean`: they give an assertion error.
-/

namespace Wf.Sym
open Wf.Gen (Prim Graph Op Load)

variable {F : Type} [FnOps F] [DecidableEq F]

/-- `any_expression`, without compound expressions: a scalar or Boolean expression (told apart by `isBoolean`), or a matrix. -/
inductive Rebuilt (F : Type)
  | expr (e : Expr F)
  | matrix (rows cols : Nat) (es : List (Expr F))
deriving DecidableEq

/-- `expression_from_ir_visitor`, `expr_from_ir.cc:262-281`, and the outputs of `rebuild_expression_tree`: `value_to_expression_`, the keys of
`scalar_variables_` in the order `scalar_variable_order_`, and `output_expressions`. -/
structure FromIr (F : Type) where
  values : List (Nat × Rebuilt F)
  vars : List Nat
  outputs : List (Nat × Rebuilt F)
deriving DecidableEq

/-- The entry of a map. -/
def entry {α : Type} (k : Nat) (l : List (Nat × α)) : Option α := (l.find? fun p => p.1 == k).map Prod.snd

/-- `make_expr<variable>(fmt::format("v{}", key->name()), number_set::unknown)`, `expr_from_ir.cc:256-257`. -/
def irVar (v : Nat) : Expr F := .var ("v" ++ toString v) .unknown

/-- `map_value_to_variant`, `expr_from_ir.cc:211-215`. -/
def FromIr.variant (s : FromIr F) (v : Nat) : Res (Rebuilt F) :=
  match entry v s.values with
  | some r => .ok r
  | none => .error .assertion

/-- `map_value<scalar_expr>`, `expr_from_ir.cc:217-231`. There are variables only if `use_intermediate_values_` is set. -/
def FromIr.scalar (s : FromIr F) (v : Nat) : Res (Expr F) :=
  if v ∈ s.vars then .ok (irVar v)
  else
    match s.variant v with
    | .error e => .error e
    | .ok (.expr e) => if isBoolean e then .error .assertion else .ok e
    | .ok (.matrix _ _ _) => .error .assertion

/-- `map_value<boolean_expr>`, `expr_from_ir.cc:217-231`. -/
def FromIr.boolean (s : FromIr F) (v : Nat) : Res (Expr F) :=
  match s.variant v with
  | .error e => .error e
  | .ok (.expr e) => if isBoolean e then .ok e else .error .assertion
  | .ok (.matrix _ _ _) => .error .assertion

/-- The function with the number (`Std.code`). -/
def stdOf (k : Nat) : Option Std :=
  [Std.fn .cos, .fn .sin, .fn .tan, .fn .arccos, .fn .arcsin, .fn .arctan, .fn .cosh, .fn .sinh, .fn .tanh, .fn .arccosh, .fn .arcsinh, .fn .arctanh,
    .fn .log, .fn .exp, .sqrt, .fn .abs, .fn .signum, .fn .floor, .fn .arctan2, .powi, .powf].find? fun f => f.code == k

/-- `operator()(const ir::call_std_function&)`, `expr_from_ir.cc:115-129`, with the function table 50-97. -/
def callOf (K : Ctors F) (m : Nat) (k : Nat) (es : List (Expr F)) : Res (Expr F) :=
  match stdOf k, es with
  | some .powi, [a, b] => K.pow a b
  | some .powf, [a, b] => K.pow a b
  | some .sqrt, [a] => K.pow a (.rat ⟨1, 2⟩)
  | some (.fn f), es => rebuild K m (.fn f) es
  | _, _ => .error .assertion

/-- The relation with the number (`relCode`). -/
def relWithCode (k : Nat) : Option RelOp := [RelOp.lt, .le, .eq].find? fun r => relCode r == k

/-- The result of an operator that returns a scalar or Boolean expression. -/
def exprRes (x : Res (Expr F)) : Res (Rebuilt F) := andThen x fun e => .ok (.expr e)

/-- `matrix_expr::create`, `matrix_expression.cc:23-25`, with the check of `matrix.cc:12-21`. -/
def matrixCreate (r c : Nat) (es : List (Expr F)) : Res (Rebuilt F) :=
  if es.length = r * c then .ok (.matrix r c es) else .error .dimension

/-- `operator()(const ir::cast&)`, `expr_from_ir.cc:131-138`. -/
def castOf (s : FromIr F) (ty : Nat → Prim) (v : Nat) : Res (Expr F) :=
  if ty v = .boolean then andThen (s.boolean v) fun c => .ok (iversonFn c) else s.scalar v

/-- The overloads of `operator()`, `expr_from_ir.cc:32-209`, for the operations of a single block. `ty` gives the numeric type of each value, `leaves` what
`ir::load` loads. Integer constants have 64 bits, so others do not occur. A number of operands other than the fixed one cannot occur either
(`ir_types.h`). -/
def convertOp (K : Ctors F) (m : Nat) (ty : Nat → Prim) (leaves : List (Expr F)) (s : FromIr F) (op : Op) (args : List Nat) : Res (Rebuilt F) :=
  match op, args with
  | .add, args => exprRes (andThen (mapRes s.scalar args) K.add)
  | .mul, args => exprRes (andThen (mapRes s.scalar args) K.mul)
  | .callStd k, args => exprRes (andThen (mapRes s.scalar args) (callOf K m k))
  | .cast _, [v] => exprRes (castOf s ty v)
  | .compare k, [a, b] => exprRes (andThen (s.scalar a) fun x => andThen (s.scalar b) fun y =>
      match relWithCode k with
      | some r => relCreate r x y
      | none => .error .assertion)
  | .construct t, args => andThen (mapRes s.scalar args) (matrixCreate (Nat.unpair t).1 (Nat.unpair t).2)
  | .cond, [c, a, b] => exprRes (andThen (s.boolean c) fun x => andThen (s.scalar a) fun y => andThen (s.scalar b) fun z => .ok (condCreate x y z))
  | .copy, [v] => exprRes (s.scalar v)
  | .div, [a, b] => exprRes (andThen (s.scalar a) fun x => andThen (s.scalar b) fun y => divE K x y)
  | .neg, [v] => exprRes (andThen (s.scalar v) (negE K))
  | .load (.int n), [] => if InI64 n then .ok (.expr (.int n)) else .error .assertion
  | .load (.other k), [] =>
    match leaves[k]? with
    | some e => .ok (.expr e)
    | none => .error .assertion
  | _, _ => .error .assertion

/-- Is it a scalar expression? -/
def Rebuilt.isScalar : Rebuilt F → Bool
  | .expr e => !isBoolean e
  | .matrix _ _ _ => false

/-- `process`, `expr_from_ir.cc:249-260`: `emplace` keeps an entry that is there. -/
def FromIr.insert (inter : Bool) (s : FromIr F) (v : Nat) (r : Rebuilt F) : FromIr F :=
  match entry v s.values with
  | some _ => s
  | none => { s with values := s.values ++ [(v, r)], vars := if inter && r.isScalar then s.vars ++ [v] else s.vars }

/-- One turn of the loop over the operations, `expr_from_ir.cc:310-321`. -/
def fromIrStep (K : Ctors F) (m : Nat) (ty : Nat → Prim) (leaves : List (Expr F)) (inter : Bool) (g : Graph) (s : FromIr F) (v : Nat) : Res (FromIr F) :=
  match (g.node v).op, (g.node v).args with
  | .jump, _ => .ok s
  | .save key, [a] => andThen (s.variant a) fun r => .ok { s with outputs := s.outputs ++ [(key, r)] }
  | .save _, _ => .error .assertion
  | op, args => andThen (convertOp K m ty leaves s op args) fun r => .ok (s.insert inter v r)

/-- The loop over the operations of the block, `expr_from_ir.cc:310-321`. -/
def fromIrLoop (K : Ctors F) (m : Nat) (ty : Nat → Prim) (leaves : List (Expr F)) (inter : Bool) (g : Graph) : FromIr F → List Nat → Res (FromIr F)
  | s, [] => .ok s
  | s, v :: vs => andThen (fromIrStep K m ty leaves inter g s v) fun s' => fromIrLoop K m ty leaves inter g s' vs

/-- `get_intermediate_values`, `expr_from_ir.cc:233-247`. -/
def FromIr.intermediate (s : FromIr F) : List Nat → Res (List (Expr F × Expr F)) :=
  mapRes fun v => match entry v s.values with
    | some (.expr e) => if isBoolean e then .error .assertion else .ok (irVar v, e)
    | _ => .error .assertion

/-- `rebuilt_expressions`. `emplace` keeps the first expression of a key, so the outputs are a list in which the first entry counts. -/
structure RebuiltOutputs (F : Type) where
  outputs : List (Nat × Rebuilt F)
  intermediate : List (Expr F × Expr F)
deriving DecidableEq

/-- `rebuild_expression_tree`, `expr_from_ir.cc:283-338`, with one block. -/
def rebuildTree (K : Ctors F) (m : Nat) (ty : Nat → Prim) (leaves : List (Expr F)) (inter : Bool) (g : Graph) : Res (RebuiltOutputs F) :=
  andThen (fromIrLoop K m ty leaves inter g ⟨[], [], []⟩ g.ops) fun s =>
    andThen (s.intermediate s.vars) fun l => .ok ⟨s.outputs, l⟩

/-- `cse_function_description`, `codegen_wrapper.cc:41-48`: lower the outputs, optimise, and make expressions from the result. `ty` gives the types of the
values of the optimised program. -/
def cseFunction (K : Ctors F) (m n : Nat) (cast : Graph → Nat → Option Nat) (passes : Nat) (binarize : Bool) (fuel : Nat) (ty : Nat → Prim)
    (inter : Bool) (outs : List (Nat × Output F)) : Res (RebuiltOutputs F) :=
  andThen (lowerFunction K m n Low.empty outs) fun s =>
    andThen (s.g.applySimplifications cast passes binarize fuel) fun g => rebuildTree K m ty s.leaves inter g

end Wf.Sym
