/-!
# Model of the text emitted for an operation: `ast_conversion.cc`, `cpp_code_generator.cc`, `rust_code_generator.cc`, `python_code_generator.cc`

The operand graph below one statement is a tree (`Tree`): values that have a declaration are variables in it (`declared_values_`,
`ast_conversion.cc:372, 379`). The text is a list of tokens; a space is a token, because in C++ two adjacent minus signs are read as one.
Simplifications:

* Names, and the digits of floating point literals, are opaque; qualified names (`std::cos`, `np.cos`), `static_cast<…>` and keyword arguments of
  Python (`dtype=np.float64`) are single tokens.
* Construction of matrices and structs is left out: they are not operands of arithmetic operations.
-/

namespace Wf.Gen.Text

/-- `precedence`, `enumerations.h:15-22`. -/
inductive Prec
  | relational | addition | multiplication | power | ternary | none
deriving DecidableEq, Repr

/-- The value of the enumerator. -/
def Prec.rank : Prec → Nat
  | .relational => 0
  | .addition => 1
  | .multiplication => 2
  | .power => 3
  | .ternary => 4
  | .none => 2147483647

/-- `numeric_primitive_type`, `enumerations.h`. -/
inductive Prim
  | boolean | integral | floating
deriving DecidableEq, Repr

/-- `relational_operation`. -/
inductive Rel
  | lt | le | eq
deriving DecidableEq, Repr

/-- `std_math_function`, `enumerations.h:101-125`. -/
inductive Std
  | cos | sin | tan | acos | asin | atan | cosh | sinh | tanh | acosh | asinh | atanh | log | exp | sqrt | abs | signum | floor | atan2 | powi | powf
deriving DecidableEq, Repr

/-- The type of an argument of the generated function or of a parameter. -/
inductive Kind
  | scalar | matrix | custom
deriving DecidableEq, Repr

/-- The type that an external function gives. -/
inductive Returns
  | scalar (p : Prim) | matrix (rows cols : Nat) | custom
deriving DecidableEq, Repr

/-- An operation with its operands, `ir_types.h`. -/
inductive Tree
  | var (name : String)
  | arg (name : String) (kind : Kind)
  | int (n : Int)
  | float (negative : Bool) (digits : String)
  | bool (b : Bool)
  | euler
  | pi
  | add (l : List Tree)
  | mul (l : List Tree)
  | div (a b : Tree)
  | neg (a : Tree)
  | cmp (op : Rel) (a b : Tree)
  | cond (c a b : Tree)
  | cast (target : Prim) (a : Tree)
  | std (f : Std) (l : List Tree)
  | call (name : String) (returns : Returns) (params : List Kind) (l : List Tree)
  | copy (a : Tree)
  | field (a : Tree) (name : String)
  | elem (a : Tree) (row col : Nat)
deriving Repr

/-- `ast.h`. -/
inductive Ast
  | var (name : String)
  | arg (name : String) (kind : Kind)
  | int (n : Int)
  | float (negative : Bool) (digits : String)
  | bool (b : Bool)
  | euler
  | pi
  | add (l : List Ast)
  | mul (l : List Ast)
  | div (a b : Ast)
  | neg (a : Ast)
  | cmp (op : Rel) (a b : Ast)
  | cond (c a b : Ast)
  | cast (target : Prim) (a : Ast)
  | std (f : Std) (l : List Ast)
  | call (name : String) (returns : Returns) (params : List Kind) (l : List Ast)
  | field (a : Ast) (name : String)
  | elem (a : Ast) (row col : Nat)
  | paren (a : Ast)
deriving Repr

/-- `operation_precedence`, `ir_value.cc:32-40`. -/
def Tree.prec : Tree → Prec
  | .cmp _ _ _ => .relational
  | .add _ => .addition
  | .mul _ => .multiplication
  | .div _ _ => .multiplication
  | .cond _ _ _ => .ternary
  | _ => .none

/-- `visit_operation_argument`, `ast_conversion.cc:370-381`, where the last argument is the converted operand. -/
def wrap (parent : Prec) (t : Tree) (a : Ast) : Ast := if t.prec.rank ≤ parent.rank then .paren a else a

mutual
/-- `visit_value` and the conversions of the operations, `ast_conversion.cc:355-519`. -/
def Tree.visit : Tree → Ast
  | .var s => .var s
  | .arg s k => .arg s k
  | .int n => .int n
  | .float s d => .float s d
  | .bool b => .bool b
  | .euler => .euler
  | .pi => .pi
  | .add l => .add (visitList .addition l)
  | .mul l => .mul (visitList .multiplication l)
  | .div a b => .div (wrap .multiplication a a.visit) (wrap .multiplication b b.visit)
  | .neg a => .neg (wrap .multiplication a a.visit)
  | .cmp op a b => .cmp op a.visit b.visit
  | .cond c a b => .cond (wrap .ternary c c.visit) (wrap .ternary a a.visit) (wrap .ternary b b.visit)
  | .cast t a => .cast t a.visit
  | .std f l => .std f (visitAll l)
  | .call n r p l => .call n r p (visitAll l)
  | .copy a => a.visit
  | .field a n => .field a.visit n
  | .elem a i j => .elem a.visit i j

/-- The operands of a sum or a product. -/
def visitList (p : Prec) : List Tree → List Ast
  | [] => []
  | t :: ts => wrap p t t.visit :: visitList p ts

/-- `transform_operands` without a precedence, `ast_conversion.cc:383-388`. -/
def visitAll : List Tree → List Ast
  | [] => []
  | t :: ts => t.visit :: visitAll ts
end

/-- Tokens of the three languages. `sp` is a space, `nl` a line break, `indent n` stands for `n` spaces and `comment` for a comment up to the end of the
line (`//` or `#`). The tokens of the last two lines occur in statements only. -/
inductive Tok
  | sp
  | name (s : String)
  | int (n : Nat) (suffix : String)
  | ty (s : String)
  | staticCast (s : String)
  | lpar | rpar | lbracket | rbracket | lbrace | rbrace | comma | dot
  | plus | minus | star | slash | lt | le | eqeq | quest | colon | amp | decrement
  | kIf | kElse | kAs
  | nl | indent (n : Nat) | comment (s : String)
  | semi | assign | arrow | shl | kConst | kLet | kReturn | kIs | kNot | kAssert
deriving DecidableEq, Repr

abbrev Toks := List Tok

/-- `join`. -/
def joinWith (sep : Toks) : List Toks → Toks
  | [] => []
  | [t] => t
  | t :: ts => t ++ sep ++ joinWith sep ts

/-- `string_from_relational_operation`, `enumerations.h:214-225`. -/
def relTok : Rel → Tok
  | .lt => .lt
  | .le => .le
  | .eq => .eqeq

/-- `fmt::format("{}", n)` for an integer. -/
def intToks (n : Int) (suffix : String) : Toks := if n < 0 then [.minus, .int n.natAbs suffix] else [.int n.natAbs suffix]

/-- `fmt::format("{}", x)` for a floating point value. -/
def floatToks (negative : Bool) (digits : String) : Toks := if negative then [.minus, .name digits] else [.name digits]

/-- `string_from_standard_library_function`, `enumerations.h:271-318`. -/
def stdName : Std → String
  | .cos => "cos"
  | .sin => "sin"
  | .tan => "tan"
  | .acos => "acos"
  | .asin => "asin"
  | .atan => "atan"
  | .cosh => "cosh"
  | .sinh => "sinh"
  | .tanh => "tanh"
  | .acosh => "acosh"
  | .asinh => "asinh"
  | .atanh => "atanh"
  | .log => "log"
  | .exp => "exp"
  | .sqrt => "sqrt"
  | .abs => "abs"
  | .signum => "signum"
  | .floor => "floor"
  | .atan2 => "atan2"
  | .powi => "powi"
  | .powf => "powf"

/-! ## C++ -/

/-- `cpp_string_from_numeric_type`, `cpp_code_generator.cc:20-31`. -/
def cppType : Prim → String
  | .boolean => "bool"
  | .integral => "std::int64_t"
  | .floating => "Scalar"

/-- `static_cast<T>(…)`. -/
def cppCast (t : String) (ts : Toks) : Toks := [.staticCast t, .lpar] ++ ts ++ [.rpar]

/-- The function name in `cpp_code_generator.cc:246-284`. -/
def cppStd : Std → String
  | .atan2 => "std::atan2"
  | .powi => "std::pow"
  | .powf => "std::pow"
  | f => "std::" ++ stdName f

/-- `operator()(const ast::call_std_function&)`, `cpp_code_generator.cc:246-284`, given the text of the operands. -/
def cppStdToks (f : Std) (l : List Toks) : Toks :=
  match f with
  | .signum =>
    let x := l.headD []
    [.lpar] ++ cppCast "Scalar" [.int 0 ""] ++ [.sp, .lt, .sp] ++ x ++ [.rpar, .sp, .minus, .sp, .lpar] ++ x ++ [.sp, .lt, .sp] ++
      cppCast "Scalar" [.int 0 ""] ++ [.rpar]
  | .floor => cppCast "std::int64_t" ([.name "std::floor", .lpar] ++ l.headD [] ++ [.rpar])
  | f => [.name (cppStd f), .lpar] ++ joinWith [.comma, .sp] l ++ [.rpar]

/-- `operator()(const ast::call_external_function&)`, `cpp_code_generator.cc:236-244`. -/
def cppCall (n : String) (r : Returns) (l : List Toks) : Toks :=
  let t := [.name n, .lpar] ++ joinWith [.comma, .sp] l ++ [.rpar]
  if r = .scalar .floating then cppCast "Scalar" t else t

/-- `operator()(const ast::get_argument&)`, `cpp_code_generator.cc:348-355`; `span` is `cpp_matrix_type_behavior::generic_span`. -/
def cppArg (span : Bool) (n : String) (k : Kind) : String := if k = .matrix ∧ span = true then "_" ++ n else n

mutual
/-- The expressions of `cpp_code_generator.cc:179-418`. -/
def Ast.cpp (span : Bool) : Ast → Toks
  | .var s => [.name s]
  | .arg s k => [.name (cppArg span s k)]
  | .int n => intToks n ""
  | .float s d => cppCast "Scalar" (floatToks s d)
  | .bool b => [.name (if b then "true" else "false")]
  | .euler => cppCast "Scalar" [.name "M_E"]
  | .pi => cppCast "Scalar" [.name "M_PI"]
  | .add l => joinWith [.sp, .plus, .sp] (cppList span l)
  | .mul l => joinWith [.sp, .star, .sp] (cppList span l)
  | .div a b => a.cpp span ++ [.sp, .slash, .sp] ++ b.cpp span
  | .neg a => [.minus] ++ a.cpp span
  | .cmp op a b => a.cpp span ++ [.sp, relTok op, .sp] ++ b.cpp span
  | .cond c a b => c.cpp span ++ [.sp, .quest, .sp] ++ a.cpp span ++ [.sp, .colon, .sp] ++ b.cpp span
  | .cast t a => cppCast (cppType t) (a.cpp span)
  | .std f l => cppStdToks f (cppList span l)
  | .call n r _ l => cppCall n r (cppList span l)
  | .field a n => a.cpp span ++ [.dot, .name n]
  | .elem a i j => a.cpp span ++ [.lpar, .int i "", .comma, .sp, .int j "", .rpar]
  | .paren a => [.lpar] ++ a.cpp span ++ [.rpar]

def cppList (span : Bool) : List Ast → List Toks
  | [] => []
  | a :: as => a.cpp span :: cppList span as
end

/-! ## Rust -/

/-- `rust_string_from_numeric_type`, `rust_code_generator.cc:12-22`. -/
def rustType : Prim → String
  | .boolean => "bool"
  | .integral => "i64"
  | .floating => "f64"

/-- The method name in `rust_code_generator.cc:217-253`. -/
def rustStd : Std → String
  | .log => "ln"
  | f => stdName f

/-- `operator()(const ast::call_std_function&)`, `rust_code_generator.cc:217-253`, given the text of the operands. -/
def rustStdToks (f : Std) (l : List Toks) : Toks :=
  match f with
  | .signum =>
    let x := l.headD []
    [.lpar, .name "0.0f64", .sp, .lt, .sp] ++ x ++ [.rpar, .sp, .kAs, .sp, .ty "i64", .sp, .minus, .sp, .lpar] ++ x ++
      [.sp, .lt, .sp, .name "0.0f64", .rpar, .sp, .kAs, .sp, .ty "i64"]
  | .floor => [.lpar] ++ l.headD [] ++ [.rpar, .dot, .name "floor", .lpar, .rpar, .sp, .kAs, .sp, .ty "i64"]
  | f => [.lpar] ++ l.headD [] ++ [.rpar, .dot, .name (rustStd f), .lpar] ++ joinWith [.comma, .sp] l.tail ++ [.rpar]

/-- `is_get_argument_with_custom_type`, `rust_code_generator.cc:186-191`. -/
def Ast.isCustomArg : Ast → Bool
  | .arg _ .custom => true
  | _ => false

/-- The lambda of `rust_code_generator.cc:197-208`: borrow the argument unless it is a scalar or a borrowed argument already. -/
def rustBorrow (a : Ast) (k : Kind) (t : Toks) : Toks :=
  if a.isCustomArg then t else if k = .custom ∨ k = .matrix then .amp :: t else t

/-- `ast::get_if<ast::get_argument>`. -/
def Ast.isArg : Ast → Bool
  | .arg _ _ => true
  | _ => false

mutual
/-- The expressions of `rust_code_generator.cc:148-385`. -/
def Ast.rust : Ast → Toks
  | .var s => [.name s]
  | .arg s _ => [.name s]
  | .int n => intToks n "i64"
  | .float s d => floatToks s (d ++ "f64")
  | .bool b => [.name (if b then "true" else "false")]
  | .euler => [.name "std::f64::consts::E"]
  | .pi => [.name "std::f64::consts::PI"]
  | .add l => joinWith [.sp, .plus, .sp] (rustList l)
  | .mul l => joinWith [.sp, .star, .sp] (rustList l)
  | .div a b => a.rust ++ [.sp, .slash, .sp] ++ b.rust
  | .neg a => [.minus] ++ a.rust
  | .cmp op a b => [.lpar] ++ a.rust ++ [.rpar, .sp, relTok op, .sp, .lpar] ++ b.rust ++ [.rpar]
  | .cond c a b => [.kIf, .sp] ++ c.rust ++ [.sp, .lbrace, .sp] ++ a.rust ++ [.sp, .rbrace, .sp, .kElse, .sp, .lbrace, .sp] ++ b.rust ++ [.sp, .rbrace]
  | .cast t a => [.lpar] ++ a.rust ++ [.rpar, .sp, .kAs, .sp, .ty (rustType t)]
  | .std f l => rustStdToks f (rustList l)
  | .call n r p l =>
    [.name n, .lpar] ++ joinWith [.comma, .sp] (rustArgs p l) ++ [.rpar] ++ (if r = .scalar .floating then [.sp, .kAs, .sp, .ty "f64"] else [])
  | .field a n => a.rust ++ [.dot, .name n]
  | .elem a i j =>
    if a.isArg then a.rust ++ [.dot, .name "get", .lpar, .int i "", .comma, .sp, .int j "", .rpar]
    else a.rust ++ [.lbracket, .lpar, .int i "", .comma, .sp, .int j "", .rpar, .rbracket]
  | .paren a => [.lpar] ++ a.rust ++ [.rpar]

def rustList : List Ast → List Toks
  | [] => []
  | a :: as => a.rust :: rustList as

def rustArgs : List Kind → List Ast → List Toks
  | k :: ks, a :: as => rustBorrow a k a.rust :: rustArgs ks as
  | _, _ => []
end

/-! ## Python -/

/-- `python_generator_target` and `python_generator_float_width`. -/
inductive Target
  | numpy | pytorch | jax
deriving DecidableEq, Repr

structure PyOptions where
  target : Target
  wide : Bool
deriving DecidableEq, Repr

/-- `python_module_prefix_from_target`, `python_code_generator.cc:43-56`. -/
def PyOptions.module (o : PyOptions) : String :=
  match o.target with
  | .numpy => "np"
  | .pytorch => "th"
  | .jax => "jnp"

/-- `python_string_from_cast_destination_type`, `python_code_generator.cc:27-41`. -/
def PyOptions.type (o : PyOptions) : Prim → String
  | .boolean => "bool"
  | .integral => "int32"
  | .floating => if o.wide then "float64" else "float32"

/-- A name in the module. -/
def PyOptions.name (o : PyOptions) (s : String) : String := o.module ++ "." ++ s

/-- `format_scalar_type_cast`, `python_code_generator.cc:85-99`. -/
def pyCast (o : PyOptions) (t : Prim) (ts : Toks) : Toks :=
  if o.target = .pytorch then [.name (o.name "asarray"), .lpar] ++ ts ++ [.comma, .sp, .name ("dtype=" ++ o.name (o.type t)), .rpar]
  else [.name (o.name (o.type t)), .lpar] ++ ts ++ [.rpar]

/-- `python_string_from_std_math_function`, `python_code_generator.cc:361-408`. -/
def pyStd : Std → String
  | .acos => "arccos"
  | .asin => "arcsin"
  | .atan => "arctan"
  | .acosh => "arccosh"
  | .asinh => "arcsinh"
  | .atanh => "arctanh"
  | .signum => "sign"
  | .atan2 => "arctan2"
  | .powi => "power"
  | .powf => "power"
  | f => stdName f

/-- The casts around literals and constants, `python_code_generator.cc:458-465, 522-531`. -/
def pyLiteral (o : PyOptions) (ts : Toks) : Toks := if o.target = .pytorch then ts else pyCast o .floating ts

/-- `operator()(const ast::call_external_function&)`, `python_code_generator.cc:346-359`. -/
def pyCall (o : PyOptions) (n : String) (r : Returns) (l : List Toks) : Toks :=
  let t := [.name n, .lpar] ++ joinWith [.comma, .sp] l ++ [.rpar]
  match r with
  | .matrix i j =>
    [.name (o.name "asarray"), .lpar] ++ t ++
      [.comma, .sp, .name ("dtype=" ++ o.name (o.type .floating)), .rpar, .dot, .name "reshape", .lpar, .int i "", .comma, .sp, .int j "", .rpar]
  | _ => t

mutual
/-- The expressions of `python_code_generator.cc:284-542`. -/
def Ast.python (o : PyOptions) : Ast → Toks
  | .var s => [.name s]
  | .arg s _ => [.name s]
  | .int n => intToks n ""
  | .float s d => pyLiteral o (floatToks s d)
  | .bool b => [.name (if b then "True" else "False")]
  | .euler => pyLiteral o [.name (o.name "e")]
  | .pi => pyLiteral o [.name (o.name "pi")]
  | .add l => joinWith [.sp, .plus, .sp] (pyList o l)
  | .mul l => joinWith [.sp, .star, .sp] (pyList o l)
  | .div a b => a.python o ++ [.sp, .slash, .sp] ++ b.python o
  | .neg a => [.minus] ++ a.python o
  | .cmp op a b => a.python o ++ [.sp, relTok op, .sp] ++ b.python o
  | .cond c a b => [.name (o.name "where"), .lpar] ++ c.python o ++ [.comma, .sp] ++ a.python o ++ [.comma, .sp] ++ b.python o ++ [.rpar]
  | .cast t a => pyCast o t (a.python o)
  | .std f l => [.name (o.name (pyStd f)), .lpar] ++ joinWith [.comma, .sp] (pyList o l) ++ [.rpar]
  | .call n r _ l => pyCall o n r (pyList o l)
  | .field a n => a.python o ++ [.dot, .name n]
  | .elem a i j => a.python o ++ [.lbracket, .int i "", .comma, .sp, .int j "", .rbracket]
  | .paren a => [.lpar] ++ a.python o ++ [.rpar]

def pyList (o : PyOptions) : List Ast → List Toks
  | [] => []
  | a :: as => a.python o :: pyList o as
end

end Wf.Gen.Text
