import Verif.Sym.CtorModel

/-!
# Model of `expression_tree_str`: `tree_formatter.cc`

One line per node, indented by the branches above it. Simplifications: text is a list of characters (code points, not bytes of UTF-8); the digits of
a float are a parameter `digits`; sorting compares rational constants in unbounded integers (`exactOrder`).
-/

namespace Wf.Sym.Tree
open Wf.Gen (Prim)

variable {F : Type}

/-- The constant `name_str` of each kind of node: `addition.h:20`, `conditional.h:12`, `compound_expression_element.h:13`, `unevaluated.h:12`,
`stop_derivative.h:16`, `casts.h:13`, `matrix.h:17`, `special_constants.h:19,51,65,75,85`, `substitute_expression.h:12`, `variable.h:16,47,70`,
`custom_type_expressions.h:16,59`, `power.h:13`, `multiplication.h:26`, `derivative_expression.h:15`, `relational.h:13`,
`function_expressions.h:18,136`, `numeric_expressions.h:23,65,145`, `external_function_invocation.h:14`. -/
def kindName : Head F → String
  | .flt _ => "FloatConstant" | .int _ => "IntegerConstant" | .rat _ => "RationalConstant" | .const _ => "SymbolicConstant"
  | .zoo => "ComplexInfinity" | .imag => "ImaginaryUnit" | .var _ _ => "Variable" | .argVar _ _ _ => "FunctionArgumentVariable"
  | .uniq _ _ => "UniqueVariable" | .mul => "Multiplication" | .add => "Addition" | .pow => "Power" | .fn _ => "BuiltInFunctionInvocation"
  | .symfn _ => "SymbolicFunctionInvocation" | .uneval => "Unevaluated" | .cond => "Conditional" | .iverson => "IversonBracket"
  | .elem _ => "CompoundExpressionElement" | .deriv _ => "Derivative" | .subst => "Substitution" | .stop => "StopDerivative" | .undef => "Undefined"
  | .matrix _ _ => "Matrix" | .call _ => "ExternalFunctionInvocation" | .typeArg _ _ => "CustomTypeArgument" | .construct _ => "CustomTypeConstruction"
  | .bconst _ => "BooleanConstant" | .rel _ => "Relational"

/-- `string_from_number_set`, `enumerations.h:254-268`. -/
def setName : NSet → String
  | .positive => "real_positive" | .nonNegative => "real_non_negative" | .real => "real" | .complex => "complex" | .unknown => "unknown"

/-- `string_from_numeric_primitive_type`, `enumerations.h:240-251`. -/
def primName : Prim → String
  | .boolean => "boolean" | .integral => "integral" | .floating => "floating_point"

/-- `string_from_symbolic_constant`, `enumerations.h:228-237`. -/
def constName : SymConst → String
  | .euler => "E" | .pi => "pi"

/-- `string_from_relational_operation`, `enumerations.h:214-225`. -/
def relName : RelOp → String
  | .lt => "<" | .le => "<=" | .eq => "=="

/-- An unsigned and a signed number, `fmt::format("{}", n)`. -/
def natText (n : Nat) : List Char := Nat.toDigits 10 n
@[inherit_doc natText] def intText (n : Int) : List Char := if n < 0 then '-' :: natText n.natAbs else natText n.natAbs

/-- What follows the name of the kind in the line of a node, `tree_formatter.cc:27-159`. -/
def detail (digits : F → List Char) : Head F → List Char
  | .flt f => [' ', '('] ++ digits f ++ [')']
  | .int n => [' ', '('] ++ intText n ++ [')']
  | .rat r => [' ', '('] ++ intText r.n ++ [' ', '/', ' '] ++ intText r.d ++ [')']
  | .const c => [' ', '('] ++ (constName c).toList ++ [')']
  | .zoo => []
  | .imag => []
  | .undef => []
  | .var n s => [' ', '('] ++ n.toList ++ [',', ' '] ++ (setName s).toList ++ [')']
  | .argVar n i t => [' ', '('] ++ n.toList ++ '[' :: natText i ++ [']', ':', ' '] ++ (primName t).toList ++ [')']
  | .uniq i s => [' ', '('] ++ natText i ++ [',', ' '] ++ (setName s).toList ++ [')']
  | .fn f => [' ', '('] ++ f.name.toList ++ [')', ':']
  | .symfn n => [' ', '('] ++ n.toList ++ [')', ':']
  | .elem i => [' ', '(', 'i', 'n', 'd', 'e', 'x', ' ', '=', ' '] ++ natText i ++ [')', ':']
  | .deriv n => [' ', '(', 'o', 'r', 'd', 'e', 'r', ' ', '=', ' '] ++ natText n ++ [')', ':']
  | .matrix r c => [' ', '('] ++ natText r ++ [',', ' '] ++ natText c ++ [')', ':']
  | .call f => [' ', '(', 'f', 'u', 'n', 'c', 't', 'i', 'o', 'n', ' ', '=', ' ', '`'] ++ f.name.toList ++ ['`', ')', ':']
  | .typeArg n t => [' ', '('] ++ n.toList ++ [':', ' '] ++ t.name.toList ++ [')']
  | .construct t => [' ', '(', 't', 'y', 'p', 'e', ' ', '=', ' '] ++ t.name.toList ++ [')', ':']
  | .bconst b => [' ', '('] ++ (if b then "true" else "false").toList ++ [')']
  | .rel op => [' ', '('] ++ (relName op).toList ++ [')']
  | _ => [':']

/-- The line of a node without its indentation. -/
def label (digits : F → List Char) (h : Head F) : List Char := (kindName h).toList ++ detail digits h

/-- The nodes that are printed without looking at children. -/
def isLeaf : Head F → Bool
  | .flt _ | .int _ | .rat _ | .const _ | .zoo | .imag | .undef | .var _ _ | .argVar _ _ _ | .uniq _ _ | .typeArg _ _ | .bconst _ => true
  | _ => false

/-- `apply_indentation`, `tree_formatter.cc:175-194`; `true` is a left branch. -/
def indent : List Bool → List Char
  | [] => []
  | [b] => if b then ['├', '─', ' '] else ['└', '─', ' ']
  | b :: c :: bs => (if b then ['│', ' ', ' '] else [' ', ' ', ' ']) ++ indent (c :: bs)

mutual
/-- The visit of a node, `tree_formatter.cc:22-159,196-201`. A container without elements is advanced beyond its end (`visit_all`,
`tree_formatter.cc:225-232`), which is undefined. The visits of the three operands of a conditional and of the one operand of an element
(`visit_left`, `visit_right`, `tree_formatter.cc:203-223`) are those of `visit_all`. -/
def lines (digits : F → List Char) (ind : List Bool) : Expr F → Res (List (List Char))
  | .node h as =>
    if isLeaf h then .ok [indent ind ++ label digits h]
    else if as.isEmpty then .error .ub
    else do
      let rest ← linesAll digits ind as
      .ok ((indent ind ++ label digits h) :: rest)
@[inherit_doc lines] def linesAll (digits : F → List Char) (ind : List Bool) : List (Expr F) → Res (List (List Char))
  | [] => .ok []
  | a :: as => do
    let x ← lines digits (ind ++ [!as.isEmpty]) a
    let y ← linesAll digits ind as
    .ok (x ++ y)
end

variable [FloatCmp F]

/-- `sorted_terms` of sums and products, `addition.cc:13-17`, `multiplication.cc:85-89`; the children of other nodes keep their order. Every term
comes with its own arranged form. -/
def sorted (h : Head F) (ts : List (Expr F × Expr F)) : List (Expr F) :=
  match h with
  | .add => (ts.insertionSort (fun a b => exactOrder a.1 b.1 ≠ .gt)).map (·.2)
  | .mul => (ts.insertionSort (fun a b => exactOrder a.1 b.1 ≠ .gt)).map (·.2)
  | _ => ts.map (·.2)

mutual
/-- The expression with the terms of all sums and products in the order in which they are printed. -/
def arranged : Expr F → Expr F
  | .node h as => .node h (sorted h (arrangedAll as))
@[inherit_doc arranged] def arrangedAll : List (Expr F) → List (Expr F × Expr F)
  | [] => []
  | a :: as => (a, arranged a) :: arrangedAll as
end

/-- `std::isspace` in the C locale. -/
def isSpace (c : Char) : Bool := c == ' ' || c == '\n' || c == '\t' || c == '\r' || c == '\x0b' || c == '\x0c'

/-- `right_trim_in_place`, `tree_formatter.cc:161-165`. -/
def rightTrim (s : List Char) : List Char := (s.reverse.dropWhile isSpace).reverse

/-- `to_expression_tree_string`: visit and `take_output`, `tree_formatter.cc:167-173`. -/
def treeText (digits : F → List Char) (e : Expr F) : Res (List Char) := do
  let ls ← lines digits [] (arranged e)
  .ok (rightTrim (ls.flatMap (· ++ ['\n'])))

end Wf.Sym.Tree
