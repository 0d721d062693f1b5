import Verif.Gen.AstModel
import Verif.Gen.StmtTextModel

/-!
# Names in the generated code: `ast_conversion.{h,cc}`, `function_description.cc`

The statements of `AstModel.lean`, where a variable is the number of a value, become the statements of `StmtTextModel.lean`, where variables, arguments and
outputs have names. Simplifications:

* Calls of external functions, members of structs and outputs that are structs have no translation here, and neither has a variable that is a matrix: there is
  one only if a matrix is passed to an external function.
* The comment with the operation counts (`ast_conversion.cc:98-104`) is left out.
-/

namespace Wf.Gen.Text

/-- `format_variable_name`, `ast_conversion.h:58-60`: the letter `v` and the number of the value, with zeros in front up to a width. -/
def tempName (width n : Nat) : String :=
  String.ofList ('v' :: (List.replicate (width - (Nat.toDigits 10 n).length) '0' ++ Nat.toDigits 10 n))

/-- The loop of `compute_print_width`, `control_flow_graph.cc:754-760`; the first argument bounds the number of turns. -/
def widthLoop : Nat → Nat → Nat → Nat
  | 0, width, _ => width
  | k + 1, width, n => if 0 < n then widthLoop k (width + 1) (n / 10) else width

/-- `value_print_width`, `control_flow_graph.cc:762-765`, for the highest number of a value. -/
def printWidth (highest : Nat) : Nat := widthLoop (highest + 1) 1 highest

/-- `argument_direction`. -/
inductive Direction
  | input | output | optional
deriving DecidableEq, Repr

/-- `argument`, `function_description.h`. -/
structure Argument where
  name : String
  type : VarType
  direction : Direction
deriving DecidableEq, Repr

/-- `add_argument`, `function_description.cc:56-64`: the only check is that the name is not there already. -/
def addArgument (args : List Argument) (a : Argument) : Res (List Argument) :=
  if args.any (fun b => b.name == a.name) then .error .invalidArgument else .ok (args ++ [a])

/-- The arguments of a function, added in order. -/
def addArguments : List Argument → List Argument → Res (List Argument)
  | args, [] => .ok args
  | args, a :: as =>
    match addArgument args a with
    | .error e => .error e
    | .ok args => addArguments args as

/-- What the numbers in the statements stand for. -/
structure Naming where
  /-- The width of the numbers of variables. -/
  width : Nat
  /-- The contents of `ir::load` other than integers: elements of arguments and constants. -/
  leaf : Nat → Option Tree
  /-- The type of a value. -/
  type : Nat → VarType
  /-- Rows and columns of the matrices made by a constructor. -/
  shape : Nat → Option (Nat × Nat)
  /-- The argument of an output. -/
  output : Nat → Argument

/-- `numeric_primitive_type`, `enumerations.h:67-71`. -/
def primOf : Nat → Option Prim
  | 0 => some .boolean
  | 1 => some .integral
  | 2 => some .floating
  | _ => none

/-- `relational_operation`. -/
def relOf : Nat → Option Rel
  | 0 => some .lt
  | 1 => some .le
  | 2 => some .eq
  | _ => none

/-- `std_math_function`, `enumerations.h:101-125`, in its order. -/
def stdOf (n : Nat) : Option Std :=
  [.cos, .sin, .tan, .acos, .asin, .atan, .cosh, .sinh, .tanh, .acosh, .asinh, .atanh, .log, .exp, .sqrt, .abs, .signum, .floor, .atan2, .powi, .powf][n]?

/-- The conversions of the operations, `ast_conversion.cc:390-498`, given the operands. -/
def opTree (N : Naming) (op : Op) (l : List Tree) : Option Tree :=
  match op, l with
  | .add, l => some (.add l)
  | .mul, l => some (.mul l)
  | .neg, [a] => some (.neg a)
  | .div, [a, b] => some (.div a b)
  | .cond, [c, a, b] => some (.cond c a b)
  | .load (.int n), [] => some (.int n)
  | .load (.other k), [] => N.leaf k
  | .cast t, [a] => (primOf t).map fun t => .cast t a
  | .compare r, [a, b] => (relOf r).map fun r => .cmp r a b
  | .callStd f, l => (stdOf f).map fun f => .std f l
  | _, _ => none

mutual
/-- An expression with names: `make_variable_ref`, `ast_conversion.h:67-70`. -/
def exprTree (N : Naming) : AExpr → Option Tree
  | .ref v => some (.var (tempName N.width v))
  | .app op args => (exprTrees N args).bind (opTree N op)

def exprTrees (N : Naming) : List AExpr → Option (List Tree)
  | [] => some []
  | e :: es =>
    match exprTree N e, exprTrees N es with
    | some t, some ts => some (t :: ts)
    | _, _ => none
end

/-- The constructor of a matrix, with the elements. -/
def asMatrix (N : Naming) : AExpr → Option ((Nat × Nat) × List AExpr)
  | .app (.construct t) args => (N.shape t).map fun s => (s, args)
  | _ => none

/-- The right hand side of a statement: `construct_matrix` or an expression. -/
def exprValue (N : Naming) (e : AExpr) : Option Value :=
  match asMatrix N e with
  | some (s, args) => (exprTrees N args).map fun ts => .matrix s.1 s.2 ts
  | none => (exprTree N e).map .expr

/-- `push_back_output_operations`, `ast_conversion.cc:116-149`, for an output argument. -/
def outputStm (N : Naming) (key : Nat) (e : AExpr) : Option Stm :=
  match (N.output key).type with
  | .scalar _ => (exprTree N e).map fun t => .output (N.output key).name ((N.output key).direction == .optional) (.expr t)
  | .matrix _ _ =>
    match asMatrix N e with
    | some (s, args) => (exprTrees N args).map fun ts => .outputMatrix (N.output key).name ((N.output key).direction == .optional) s.1 s.2 ts
    | none => none
  | .custom _ => none

mutual
/-- The statements with names: `format_variable_name` in `ast_conversion.cc:175, 261, 264, 269`, and the names of arguments, 132-134, 299-340. -/
def stmtStm (N : Naming) : Stmt → Option Stm
  | .decl v e => (exprTree N e).map fun x => .declare (tempName N.width v) (N.type v) (some (.expr x))
  | .declare v => some (.declare (tempName N.width v) (N.type v) none)
  | .assign v e => (exprTree N e).map fun x => .assign (tempName N.width v) (.expr x)
  | .output key e => outputStm N key e
  | .ret _ e => (exprValue N e).map .ret
  | .branch c t e =>
    match exprTree N c, stmtStms N t, stmtStms N e with
    | some c, some t, some e => some (.branch c t e)
    | _, _, _ => none
  | .optional key t => (stmtStms N t).map fun t => .optional (N.output key).name (N.output key).type t

def stmtStms (N : Naming) : List Stmt → Option (List Stm)
  | [] => some []
  | s :: ss =>
    match stmtStm N s, stmtStms N ss with
    | some x, some xs => some (x :: xs)
    | _, _ => none
end

end Wf.Gen.Text
