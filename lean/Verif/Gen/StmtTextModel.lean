import Verif.Gen.TextModel

/-!
# Model of the text emitted for statements: `cpp_code_generator.cc`, `rust_code_generator.cc`, `python_code_generator.cc`

Statements have the operand trees of `TextModel.lean` in them. Simplifications:

* The signature of the function, the conversions of its arguments at the top of the body (`cpp_code_generator.cc:113-146`,
  `python_code_generator.cc:162-193`) and the preamble are left out.
* The name of a type is one token (`Eigen::Matrix<Scalar, 2, 3>`), and so are `std::…` names and the message of a Python assertion.
* A generator that throws for some statement has the text `none` for the body; which statements it throws for is computed by functions of their own.
-/

namespace Wf.Gen.Text

/-- `type_variant`, `types.h`. -/
inductive VarType
  | scalar (p : Prim)
  | matrix (rows cols : Nat)
  | custom (name : String)
deriving DecidableEq, Repr

mutual
/-- The right hand side of a statement: an expression, `ast::construct_matrix` or `ast::construct_custom_type`. -/
inductive Value
  | expr (t : Tree)
  | matrix (rows cols : Nat) (l : List Tree)
  | struct (name : String) (fields : Fields)

/-- The members of `ast::construct_custom_type`: names and values. -/
inductive Fields
  | nil
  | cons (name : String) (v : Value) (rest : Fields)
end

/-- The statements of `ast.h`. `output` is `assign_output_scalar` or `assign_output_struct`. -/
inductive Stm
  | comment (lines : List String)
  | declare (name : String) (type : VarType) (value : Option Value)
  | assign (name : String) (value : Value)
  | output (arg : String) (optional : Bool) (value : Value)
  | outputMatrix (arg : String) (optional : Bool) (rows cols : Nat) (l : List Tree)
  | ret (value : Value)
  | branch (c : Tree) (t e : List Stm)
  | optional (arg : String) (type : VarType) (body : List Stm)

/-- The loop of `join_and_indent`, `strings.h:128-134`: indentation after every line break but a trailing one. -/
def indentAfter (n : Nat) : Toks → Toks
  | [] => []
  | .nl :: ts => if ts = [] then [.nl] else .nl :: .indent n :: indentAfter n ts
  | t :: ts => t :: indentAfter n ts

/-- `join_and_indent`, `strings.h:116-136`, given the joined text. -/
def indented (n : Nat) (opening closing : Toks) (joined : Toks) : Toks := opening ++ .indent n :: indentAfter n joined ++ closing

/-- `compute_indices`, `types.h:67-71`. -/
def indicesOf (cols i : Nat) : Nat × Nat := (i / cols, i % cols)

/-- The texts of the elements with their numbers. -/
def enumerate {α : Type} (l : List α) : List (Nat × α) := (List.range l.length).zip l

/-- `operator()(const ast::comment&)`, `cpp_code_generator.cc:291-298`, `rust_code_generator.cc:261-268`. -/
def commentToks (lines : List String) : Toks := (lines.map fun s => [.comment s, .nl]).flatten

/-! ## C++ -/

/-- `cpp_code_generator.cc:43-59`. -/
def VarType.cpp : VarType → String
  | .scalar p => cppType p
  | .matrix r c => "Eigen::Matrix<Scalar, " ++ toString r ++ ", " ++ toString c ++ ">"
  | .custom n => n

mutual
/-- `operator()(const ast::construct_matrix&)`, `operator()(const ast::construct_custom_type&)`, `cpp_code_generator.cc:305-324`. -/
def Value.cpp (span : Bool) : Value → Toks
  | .expr t => t.visit.cpp span
  | .matrix r c l =>
    [.lpar, .ty (VarType.matrix r c).cpp, .lpar, .rpar, .sp, .shl, .sp] ++ joinWith [.comma, .sp] (cppList span (visitAll l)) ++
      [.rpar, .dot, .name "finished", .lpar, .rpar]
  | .struct n fs => indented 2 [.ty n, .lbrace, .nl] [.nl, .rbrace] (joinWith [.comma, .nl] (fs.cpp span))

def Fields.cpp (span : Bool) : Fields → List Toks
  | .nil => []
  | .cons _ v fs => v.cpp span :: fs.cpp span
end

/-- The target of an assignment to an element, `cpp_code_generator.cc:183-200`. -/
def cppElement (span : Bool) (arg : String) (optional : Bool) (i j : Nat) : Toks :=
  if span then [.name ("_" ++ arg), .lpar, .int i "", .comma, .sp, .int j "", .rpar]
  else if optional then [.name arg, .arrow, .name "operator()", .lpar, .int i "", .comma, .sp, .int j "", .rpar]
  else [.name arg, .lpar, .int i "", .comma, .sp, .int j "", .rpar]

mutual
/-- The statements of `cpp_code_generator.cc:183-220, 226-234, 291-298, 326-338, 388-396, 402-404`. -/
def Stm.cpp (span : Bool) : Stm → Toks
  | .comment ls => commentToks ls
  | .declare n t none => [.ty t.cpp, .sp, .name n, .semi]
  | .declare n t (some v) => [.kConst, .sp, .ty t.cpp, .sp, .name n, .sp, .assign, .sp] ++ v.cpp span ++ [.semi]
  | .assign n v => [.name n, .sp, .assign, .sp] ++ v.cpp span ++ [.semi]
  | .output n optional v => (if optional then [.star, .name n] else [.name n]) ++ [.sp, .assign, .sp] ++ v.cpp span ++ [.semi]
  | .outputMatrix n optional _ cols l =>
    joinWith [.nl] ((enumerate l).map fun p =>
      cppElement span n optional (indicesOf cols p.1).1 (indicesOf cols p.1).2 ++ [.sp, .assign, .sp] ++ p.2.visit.cpp span ++ [.semi])
  | .ret v => [.kReturn, .sp] ++ v.cpp span ++ [.semi]
  | .branch c t e =>
    [.kIf, .sp, .lpar] ++ c.visit.cpp span ++ [.rpar, .sp] ++ indented 2 [.lbrace, .nl] [.nl, .rbrace] (joinWith [.nl] (stmsCpp span t)) ++
      (if e.isEmpty then [] else indented 2 [.sp, .kElse, .sp, .lbrace, .nl] [.nl, .rbrace] (joinWith [.nl] (stmsCpp span e)))
  | .optional n t body =>
    [.kIf, .sp, .lpar, .staticCast "bool", .lpar, .name (cppArg span n (match t with | .matrix _ _ => .matrix | _ => .scalar)), .rpar, .rpar, .sp] ++
      indented 2 [.lbrace, .nl] [.nl, .rbrace] (joinWith [.nl] (stmsCpp span body))

def stmsCpp (span : Bool) : List Stm → List Toks
  | [] => []
  | s :: ss => s.cpp span :: stmsCpp span ss
end

/-! ## Rust -/

/-- `rust_code_generator.cc:56-71`; the text of a matrix is not used. -/
def VarType.rust : VarType → String
  | .scalar p => rustType p
  | .matrix _ _ => ""
  | .custom n => n

mutual
/-- `operator()(const ast::construct_custom_type&)`, `rust_code_generator.cc:284-291`; the text of a matrix is not used. -/
def Value.rust : Value → Toks
  | .expr t => t.visit.rust
  | .matrix _ _ _ => []
  | .struct n fs => .ty n :: indented 2 [.sp, .lbrace, .nl] [.nl, .rbrace] (joinWith [.comma, .nl] fs.rust)

def Fields.rust : Fields → List Toks
  | .nil => []
  | .cons n v fs => ([.name n, .colon, .sp] ++ v.rust) :: fs.rust
end

mutual
/-- The statements of `rust_code_generator.cc:152-170, 176-184, 261-268, 293-306, 357-366`. A `return_object` is printed as its value. -/
def Stm.rust : Stm → Toks
  | .comment ls => commentToks ls
  | .declare n t none => [.kLet, .sp, .name n, .colon, .sp, .ty t.rust, .semi]
  | .declare n t (some v) => [.kLet, .sp, .name n, .colon, .sp, .ty t.rust, .sp, .assign, .sp] ++ v.rust ++ [.semi]
  | .assign n v => [.name n, .sp, .assign, .sp] ++ v.rust ++ [.semi]
  | .output n _ v => [.star, .name n, .sp, .assign, .sp] ++ v.rust ++ [.semi]
  | .outputMatrix n _ _ cols l =>
    joinWith [.nl] ((enumerate l).map fun p =>
      [.name n, .dot, .name "set", .lpar, .int (indicesOf cols p.1).1 "", .comma, .sp, .int (indicesOf cols p.1).2 "", .comma, .sp] ++ p.2.visit.rust ++
        [.rpar, .semi])
  | .ret v => v.rust
  | .branch c t e =>
    [.kIf, .sp] ++ c.visit.rust ++ [.sp] ++ indented 2 [.lbrace, .nl] [.nl, .rbrace] (joinWith [.nl] (stmsRust t)) ++
      (if e.isEmpty then [] else indented 2 [.sp, .kElse, .sp, .lbrace, .nl] [.nl, .rbrace] (joinWith [.nl] (stmsRust e)))
  | .optional n _ body =>
    [.kIf, .sp, .kLet, .sp, .name "Some", .lpar, .name n, .rpar, .sp, .assign, .sp, .name n, .sp] ++
      indented 2 [.lbrace, .nl] [.nl, .rbrace] (joinWith [.nl] (stmsRust body))

def stmsRust : List Stm → List Toks
  | [] => []
  | s :: ss => s.rust :: stmsRust ss
end

/-! ## Python -/

/-- The options of `python_code_generator`, `python_code_generator.cc:101-111`. -/
structure PyConfig where
  expr : PyOptions
  indent : Nat
  outputArguments : Bool
deriving DecidableEq, Repr

/-- `python_matrix_constructor_from_target`, `python_code_generator.cc:288-303`. -/
def PyOptions.matrixConstructor (o : PyOptions) : String :=
  match o.target with
  | .pytorch => o.name "stack"
  | _ => o.name "array"

/-- `operator()(const ast::construct_matrix&)`, `python_code_generator.cc:430-434`. -/
def pyMatrix (o : PyOptions) (r c : Nat) (l : List Tree) : Toks :=
  [.name o.matrixConstructor, .lpar, .lbracket] ++ joinWith [.comma, .sp] (pyList o (visitAll l)) ++
    [.rbracket, .rpar, .dot, .name "reshape", .lpar, .int r "", .comma, .sp, .int c "", .rpar]

mutual
/-- `operator()(const ast::construct_custom_type&)`, `python_code_generator.cc:436-444`. -/
def Value.python (o : PyConfig) : Value → Toks
  | .expr t => t.visit.python o.expr
  | .matrix r c l => pyMatrix o.expr r c l
  | .struct n fs => .name n :: indented o.indent [.lpar, .nl] [.nl, .rpar] (joinWith [.comma, .nl] (fs.python o))

def Fields.python (o : PyConfig) : Fields → List Toks
  | .nil => []
  | .cons n v fs => ([.name n, .assign] ++ v.python o) :: fs.python o
end

/-- The beginning of an optional output, `python_code_generator.cc:491-503`. -/
def pyOptionalHead (o : PyConfig) (n : String) (t : VarType) : Toks :=
  if o.outputArguments then
    [.kIf, .sp, .name n, .sp, .kIs, .sp, .kNot, .sp, .name "None", .colon] ++
      (match t with
        | .matrix r c => [.nl, .indent o.indent, .kAssert, .sp, .name n, .dot, .name "size", .sp, .eqeq, .sp, .int (r * c) "", .comma, .sp, .name "message"]
        | _ => [])
  else [.kIf, .sp, .name ("compute_" ++ n), .colon]

mutual
/-- The statements of `python_code_generator.cc:305-344, 416-418, 446-452, 491-511`. A `return_object` is printed with the body of the
function; `operator()` throws for it (517-520), and the text here is not used. -/
def Stm.python (o : PyConfig) : Stm → Toks
  | .comment ls => joinWith [.nl] (ls.map fun s => [.comment s])
  | .declare n _ none => [.name n, .sp, .assign, .sp, .name "None"]
  | .declare n _ (some v) => [.name n, .sp, .assign, .sp] ++ v.python o
  | .assign n v => [.name n, .sp, .assign, .sp] ++ v.python o
  | .output n _ v => [.name n, .sp, .assign, .sp] ++ v.python o
  | .outputMatrix n _ r c l =>
    if o.outputArguments then
      [.name n, .dot, .name "reshape", .lpar, .int r "", .comma, .sp, .int c "", .rpar, .lbracket, .colon, .rbracket, .sp, .assign, .sp] ++ pyMatrix o.expr r c l
    else [.name n, .sp, .assign, .sp] ++ pyMatrix o.expr r c l
  | .ret _ => []
  | .branch c t e =>
    [.kIf, .sp] ++ c.visit.python o.expr ++ indented o.indent [.colon, .nl] [.nl] (joinWith [.nl] (stmsPython o t)) ++
      (if e.isEmpty then [] else .kElse :: indented o.indent [.colon, .nl] [] (joinWith [.nl] (stmsPython o e)))
  | .optional n t body =>
    pyOptionalHead o n t ++ indented o.indent [.nl] (if o.outputArguments then [] else [.nl]) (joinWith [.nl] (stmsPython o body)) ++
      (if o.outputArguments then [] else [.kElse, .colon, .nl, .indent o.indent, .name n, .sp, .assign, .sp, .name "None"])

def stmsPython (o : PyConfig) : List Stm → List Toks
  | [] => []
  | s :: ss => s.python o :: stmsPython o ss
end

/-! ## Bodies of functions -/

mutual
/-- A matrix is constructed in the value. -/
def Value.hasMatrix : Value → Bool
  | .expr _ => false
  | .matrix _ _ _ => true
  | .struct _ fs => fs.hasMatrix

def Fields.hasMatrix : Fields → Bool
  | .nil => false
  | .cons _ v fs => v.hasMatrix || fs.hasMatrix
end

/-- `matrix_type`. -/
def VarType.isMatrix : VarType → Bool
  | .matrix _ _ => true
  | _ => false

mutual
/-- A variable that is a matrix is declared or a matrix is constructed: the generators that know spans only throw, `cpp_code_generator.cc:33-51, 305-308`,
`rust_code_generator.cc:56-63, 276-282`. -/
def Stm.hasMatrix : Stm → Bool
  | .comment _ => false
  | .declare _ t v => t.isMatrix || (v.map Value.hasMatrix).getD false
  | .assign _ v => v.hasMatrix
  | .output _ _ v => v.hasMatrix
  | .outputMatrix _ _ _ _ _ => false
  | .ret v => v.hasMatrix
  | .branch _ t e => stmsHaveMatrix t || stmsHaveMatrix e
  | .optional _ _ body => stmsHaveMatrix body

def stmsHaveMatrix : List Stm → Bool
  | [] => false
  | s :: ss => s.hasMatrix || stmsHaveMatrix ss
end

/-- The body of a C++ function, `cpp_code_generator.cc:109-111, 148-150`, without the conversions of the arguments. -/
def cppBody (span : Bool) (body : List Stm) : Option Toks :=
  if span && stmsHaveMatrix body then none else some (.nl :: indented 2 [.lbrace, .nl] [.nl, .rbrace] (joinWith [.nl] (stmsCpp span body)))

/-- The body of a Rust function, `rust_code_generator.cc:100-104`. -/
def rustBody (body : List Stm) : Option Toks :=
  if stmsHaveMatrix body then none else some (indented 2 [.lbrace, .nl] [.nl, .rbrace] (joinWith [.nl] (stmsRust body)))

mutual
/-- The generator throws: for a `return_object` that is not the last statement of the function, `python_code_generator.cc:517-520`, and for outputs that
are not matrices when there are output arguments, 180-192. -/
def Stm.throwsPython (o : PyConfig) : Stm → Bool
  | .output _ _ _ => o.outputArguments
  | .ret _ => true
  | .branch _ t e => throwPython o t || throwPython o e
  | .optional _ t body => (o.outputArguments && !t.isMatrix) || throwPython o body
  | _ => false

def throwPython (o : PyConfig) : List Stm → Bool
  | [] => false
  | s :: ss => s.throwsPython o || throwPython o ss
end

/-- `get_if<ast::return_object>(body.back())`, `python_code_generator.cc:198-203`: the statements before the last one and the value that is returned. -/
def splitReturn : List Stm → List Stm × Option Value
  | [] => ([], none)
  | [.ret v] => ([], some v)
  | s :: ss => (s :: (splitReturn ss).1, (splitReturn ss).2)

/-- The `return` statement, `python_code_generator.cc:218-228`, given the texts of the values. -/
def pyReturn (o : PyConfig) : List Toks → Toks
  | [] => []
  | [t] => [.indent o.indent, .kReturn, .sp] ++ t
  | ts => [.indent o.indent, .kReturn, .sp] ++ indented (o.indent * 2) [.lpar, .nl] [.nl, .indent o.indent, .rpar] (joinWith [.comma, .nl] ts)

/-- The body of a Python function after the signature, `python_code_generator.cc:195-229`, without the conversions of the arguments. `outs` are the names of
the output arguments. -/
def pyBody (o : PyConfig) (outs : List String) (body : List Stm) : Option Toks :=
  if throwPython o (splitReturn body).1 then none
  else some (indented o.indent [] [.nl] (joinWith [.nl] (stmsPython o (splitReturn body).1)) ++
    pyReturn o (((splitReturn body).2.map (Value.python o)).toList ++ if o.outputArguments then [] else outs.map fun n => [.name n]))

end Wf.Gen.Text
