import Verif.Gen.NameModel

/-!
# Model of the text emitted for signatures and for the conversions of arguments: `cpp_code_generator.cc`, `rust_code_generator.cc`, `python_code_generator.cc`

The text of a signature is a list of lexemes; spaces, line breaks and the attributes of Rust functions are left out. A type is one lexeme
(`Eigen::Matrix<Scalar, 2, 3>`). A generator that throws has no text (`none`). The conversions at the top of the body are written with the tokens of
`TextModel.lean`; `wf::make_input_span<2, 3>` is one name.
-/

namespace Wf.Gen.Text

/-- Lexemes of signatures. -/
inductive Lex
  | word (s : String)
  | sym (s : String)
  | num (n : Nat)
deriving DecidableEq, Repr

/-- `ast::function_signature`, `ast.h:289-333`. -/
structure FnSignature where
  name : String
  returns : Option VarType
  args : List Argument
deriving DecidableEq, Repr

/-- `join(", ", …)`. -/
def joinLex : List (List Lex) → List Lex
  | [] => []
  | [x] => x
  | x :: xs => x ++ .sym "," :: joinLex xs

/-- `T{}` with `argument::index()`, the position in the list of arguments (`function_description.cc:62`). -/
def typeParam (i : Nat) : String := "T" ++ toString i

/-- The numbers of the matrix arguments. -/
def matrixArgs (args : List Argument) : List (Nat × Argument) := (enumerate args).filter fun p => p.2.type.isMatrix

/-! ## C++ -/

/-- `operator()(const argument&)`, `cpp_code_generator.cc:61-107`. -/
def cppParam (span : Bool) (i : Nat) (a : Argument) : List Lex :=
  match a.type, a.direction with
  | .matrix _ _, .input => if span then [.word "const", .word (typeParam i), .sym "&", .word a.name] else [.word "const", .word a.type.cpp, .sym "&", .word a.name]
  | .matrix _ _, .output => if span then [.word (typeParam i), .sym "&&", .word a.name] else [.word a.type.cpp, .sym "&", .word a.name]
  | .matrix _ _, .optional =>
    if span then [.word (typeParam i), .sym "&&", .word a.name] else [.word a.type.cpp, .sym "*", .word "const", .word a.name]
  | .scalar _, .input => [.word "const", .word a.type.cpp, .word a.name]
  | .custom _, .input => [.word "const", .word a.type.cpp, .sym "&", .word a.name]
  | _, .output => [.word a.type.cpp, .sym "&", .word a.name]
  | _, .optional => [.word a.type.cpp, .sym "*", .word a.name]

/-- The type that is returned, `cpp_code_generator.cc:165-170`; the generator throws for a matrix if it knows spans only (43-51). -/
def cppReturns (span : Bool) : Option VarType → Option String
  | none => some "void"
  | some t => if span && t.isMatrix then none else some t.cpp

/-- The parameters of the template, `cpp_code_generator.cc:155-163`. -/
def cppTypeParams (span : Bool) (args : List Argument) : List String :=
  "Scalar" :: if span then (matrixArgs args).map fun p => typeParam p.1 else []

/-- `operator()(const ast::function_signature&)`, `cpp_code_generator.cc:152-177`. -/
def cppSignature (span : Bool) (s : FnSignature) : Option (List Lex) :=
  (cppReturns span s.returns).map fun r =>
    [.word "template", .sym "<"] ++ joinLex ((cppTypeParams span s.args).map fun t => [.word "typename", .word t]) ++ [.sym ">", .word r, .word s.name, .sym "("] ++
      joinLex ((enumerate s.args).map fun p => cppParam span p.1 p.2) ++ [.sym ")"]

/-- The function that makes a view, `cpp_code_generator.cc:128-140`. -/
def spanMaker (d : Direction) (r c : Nat) : String :=
  (match d with
    | .input => "wf::make_input_span<"
    | .output => "wf::make_output_span<"
    | .optional => "wf::make_optional_output_span<") ++ toString r ++ ", " ++ toString c ++ ">"

/-- The line for a matrix argument, `cpp_code_generator.cc:120-143`. -/
def cppView (a : Argument) : Toks :=
  match a.type with
  | .matrix r c => [.ty "auto", .sp, .name ("_" ++ a.name), .sp, .assign, .sp, .name (spanMaker a.direction r c), .lpar, .name a.name, .rpar, .semi]
  | _ => []

/-- The conversions, `cpp_code_generator.cc:113-146`. -/
def cppViews (span : Bool) (args : List Argument) : Toks :=
  let ms := args.filter (·.type.isMatrix)
  if span && !ms.isEmpty then indented 2 [] [.nl] (joinWith [.nl] (ms.map cppView)) ++ [.nl] else []

/-- The text after the signature, `cpp_code_generator.cc:109-151`. -/
def cppDefinition (span : Bool) (args : List Argument) (body : List Stm) : Option Toks :=
  if span && stmsHaveMatrix body then none
  else some ([.nl, .lbrace, .nl] ++ cppViews span args ++ indented 2 [] [.nl, .rbrace] (joinWith [.nl] (stmsCpp span body)))

/-! ## Rust -/

/-- `operator()(const argument&)`, `rust_code_generator.cc:73-98`. -/
def rustParam (i : Nat) (a : Argument) : List Lex :=
  let type := if a.type.isMatrix then typeParam i else a.type.rust
  let borrow := match a.type with
    | .scalar _ => false
    | _ => true
  [.word a.name, .sym ":"] ++
    match a.direction with
    | .input => (if borrow then [.sym "&"] else []) ++ [.word type]
    | .output => [.sym "&", .word "mut", .word type]
    | .optional => [.word "Option", .sym "<", .sym "&", .word "mut", .word type, .sym ">"]

/-- `span_type_from_direction`, `rust_code_generator.cc:24-33`. -/
def rustTrait : Direction → String
  | .input => "wrenfold_traits::Span2D"
  | _ => "wrenfold_traits::OutputSpan2D"

/-- A constraint, `rust_code_generator.cc:136-143`. -/
def rustBound (i : Nat) (a : Argument) : List Lex :=
  match a.type with
  | .matrix r c =>
    [.word (typeParam i), .sym ":", .word (rustTrait a.direction), .sym "<", .num r, .sym ",", .num c, .sym ",", .word "ValueType", .sym "=", .word "f64",
      .sym ">", .sym ","]
  | _ => []

/-- The type that is returned, `rust_code_generator.cc:124-132`; the generator throws for a matrix (56-63). -/
def rustReturns : Option VarType → Option (List Lex)
  | none => some [.sym "(", .sym ")"]
  | some t => if t.isMatrix then none else some [.word t.rust]

/-- `operator()(const ast::function_signature&)`, `rust_code_generator.cc:106-146`, without the attributes. -/
def rustSignature (s : FnSignature) : Option (List Lex) :=
  (rustReturns s.returns).map fun r =>
    [.word "pub", .word "fn", .word s.name, .sym "<"] ++ ((matrixArgs s.args).map fun p => [.word (typeParam p.1), .sym ","]).flatten ++ [.sym ">", .sym "("] ++
      joinLex ((enumerate s.args).map fun p => rustParam p.1 p.2) ++ [.sym ")", .sym "->"] ++ r ++
      if (matrixArgs s.args).isEmpty then [] else .word "where" :: ((matrixArgs s.args).map fun p => rustBound p.1 p.2).flatten

/-! ## Python -/

/-- `python_matrix_type_from_target`, `python_code_generator.cc:113-127`. -/
def PyOptions.matrixType (o : PyOptions) : String :=
  match o.target with
  | .numpy => "np.ndarray"
  | .pytorch => "th.Tensor"
  | .jax => "jnp.ndarray"

/-- The annotation of a type, `python_code_generator.cc:129-150`. -/
def VarType.python (o : PyOptions) : VarType → String
  | .scalar .boolean => "bool"
  | .scalar .integral => "int"
  | .scalar .floating => "float"
  | .matrix _ _ => o.matrixType
  | .custom n => n

/-- The parameter of an argument, `python_code_generator.cc:236-251`. -/
def pyParam (o : PyConfig) (a : Argument) : Option (List Lex) :=
  match a.direction with
  | .input => some [.word a.name, .sym ":", .word (a.type.python o.expr)]
  | .output => if o.outputArguments then some [.word a.name, .sym ":", .word (a.type.python o.expr)] else none
  | .optional =>
    if o.outputArguments then some [.word a.name, .sym ":", .word (a.type.python o.expr), .sym "|", .word "None", .sym "=", .word "None"]
    else some [.word ("compute_" ++ a.name), .sym ":", .word "bool"]

/-- The annotations of outputs that are returned, `python_code_generator.cc:253-266`. -/
def pyOutputTypes (o : PyConfig) (args : List Argument) : List (List Lex) :=
  if o.outputArguments then []
  else (args.filter (·.direction ≠ .input)).map fun a =>
    if a.direction = .optional then [.word o.expr.matrixType, .sym "|", .word "None"] else [.word o.expr.matrixType]

/-- The annotation of what is returned, `python_code_generator.cc:268-280`. -/
def pyReturns (o : PyConfig) (s : FnSignature) : List Lex :=
  match s.returns, pyOutputTypes o s.args with
  | none, [] => [.word "None"]
  | some t, [] => [.word (t.python o.expr)]
  | none, l => [.word "tuple", .sym "["] ++ joinLex l ++ [.sym "]"]
  | some t, l => [.word "tuple", .sym "["] ++ joinLex ([.word (t.python o.expr)] :: l) ++ [.sym "]"]

/-- `operator()(const ast::function_signature&)`, `python_code_generator.cc:232-283`. -/
def pySignature (o : PyConfig) (s : FnSignature) : List Lex :=
  [.word "def", .word s.name, .sym "("] ++ joinLex (s.args.filterMap (pyParam o)) ++ [.sym ")", .sym "->"] ++ pyReturns o s ++ [.sym ":"]

/-- The line that converts an argument, `python_code_generator.cc:164-179`, with the line break. -/
def pyConversion (o : PyConfig) (a : Argument) : Toks :=
  match a.direction, a.type with
  | .input, .matrix r c =>
    [.indent o.indent, .name a.name, .sp, .assign, .sp, .name (o.expr.name "asarray"), .lpar, .name a.name, .comma, .sp,
      .name ("dtype=" ++ o.expr.name (o.expr.type .floating)), .rpar, .dot, .name "reshape", .lpar, .int r "", .comma, .sp, .int c "", .rpar, .nl]
  | .input, .scalar p => [.indent o.indent, .name a.name, .sp, .assign, .sp] ++ pyCast o.expr p [.name a.name] ++ [.nl]
  | _, _ => []

/-- The generator throws for outputs that are not matrices if there are output arguments, `python_code_generator.cc:180-192`. -/
def pyRefuses (o : PyConfig) (args : List Argument) : Bool := o.outputArguments && args.any fun a => decide (a.direction ≠ .input) && !a.type.isMatrix

/-- The text after the signature, `python_code_generator.cc:156-230`. An empty body is refused (195-196). -/
def pyDefinition (o : PyConfig) (args : List Argument) (body : List Stm) : Option Toks :=
  if pyRefuses o args || body.isEmpty then none
  else (pyBody o ((args.filter (·.direction ≠ .input)).map (·.name)) body).map fun t => .nl :: ((args.map (pyConversion o)).flatten ++ t)

end Wf.Gen.Text
