import Verif.Gen.SigModel
import Verif.Gen.RunSpec

/-!
# How signatures are read, and what a call does

* C++: a parameter is a type, perhaps with `const` in front and `&`, `&&`, `*` or `* const` behind it, and a name. Keywords are no names. The names of
  parameters are distinct, and different from the parameters of the template ([temp.local]: a template parameter shall not be redeclared).
* Rust: `name: type`, where the type is `T`, `&T`, `&mut T` or `Option<&mut T>`. The type parameters in the constraints are those of the function.
* Python: `name: annotation`, perhaps with a default. Names are distinct, and a parameter without a default does not follow one with a default (reference,
  "Function definitions").

A call binds the parameters, in order, to what the caller passes. The conversions at the top of the body then make views (C++) or arrays of the right shape
(Python).
-/

namespace Wf.Gen.Text

/-! ## Reading -/

/-- The parts of a list between commas. -/
def splitLex : List Lex → List (List Lex)
  | [] => [[]]
  | l :: ls =>
    if l = .sym "," then [] :: splitLex ls
    else match splitLex ls with
      | [] => [[l]]
      | p :: ps => (l :: p) :: ps

/-- The parts of a list between commas; the empty list has no parts. -/
def partsLex (l : List Lex) : List (List Lex) := if l.isEmpty then [] else splitLex l

/-- The lexemes before and after the first occurrence of a lexeme. -/
def breakLex (x : Lex) : List Lex → Option (List Lex × List Lex)
  | [] => none
  | l :: ls => if l = x then some ([], ls) else (breakLex x ls).map fun p => (l :: p.1, p.2)

/-- All parts are read. -/
def readAll {α : Type} (f : List Lex → Option α) : List (List Lex) → Option (List α)
  | [] => some []
  | x :: xs =>
    match f x, readAll f xs with
    | some a, some as => some (a :: as)
    | _, _ => none

/-- How an argument is passed. C++: by value (that cannot be changed), by reference to a constant, by reference, by a reference of the type of the argument
(`T&&`), by a pointer. Rust: by value, by a shared borrow, by a mutable borrow, by an optional mutable borrow. Python passes objects. -/
inductive Pass
  | value | constRef | ref | forward | pointer
  | borrow | borrowMut | optionMut
  | object
deriving DecidableEq, Repr

structure Param where
  name : String
  type : String
  pass : Pass
deriving DecidableEq, Repr

/-- A signature that has been read: the function, its type parameters, the type that is returned, the parameters. -/
structure FnRead where
  name : String
  typeParams : List String
  returns : List Lex
  params : List Param
deriving DecidableEq, Repr

/-- The keywords of the languages (C++17, Rust 2021, Python 3). -/
def keywords : Lang → List String
  | .cpp => ["alignas", "alignof", "and", "and_eq", "asm", "auto", "bitand", "bitor", "bool", "break", "case", "catch", "char", "char16_t", "char32_t", "class",
      "compl", "const", "constexpr", "const_cast", "continue", "decltype", "default", "delete", "do", "double", "dynamic_cast", "else", "enum",
      "explicit", "export", "extern", "false", "float", "for", "friend", "goto", "if", "inline", "int", "long", "mutable", "namespace", "new",
      "noexcept", "not", "not_eq", "nullptr", "operator", "or", "or_eq", "private", "protected", "public", "register", "reinterpret_cast", "return",
      "short", "signed", "sizeof", "static", "static_assert", "static_cast", "struct", "switch", "template", "this", "thread_local", "throw", "true",
      "try", "typedef", "typeid", "typename", "union", "unsigned", "using", "virtual", "void", "volatile", "wchar_t", "while", "xor", "xor_eq"]
  | .rust => ["as", "async", "await", "break", "const", "continue", "crate", "dyn", "else", "enum", "extern", "false", "fn", "for", "if", "impl", "in", "let",
      "loop", "match", "mod", "move", "mut", "pub", "ref", "return", "self", "Self", "static", "struct", "super", "trait", "true", "type", "unsafe",
      "use", "where", "while", "abstract", "become", "box", "do", "final", "macro", "override", "priv", "try", "typeof", "unsized", "virtual",
      "yield"]
  | .python => ["False", "None", "True", "and", "as", "assert", "async", "await", "break", "class", "continue", "def", "del", "elif", "else", "except", "finally",
      "for", "from", "global", "if", "import", "in", "is", "lambda", "nonlocal", "not", "or", "pass", "raise", "return", "try", "while", "with",
      "yield"]

/-- A name that is no keyword. -/
def nameOf (L : Lang) : Lex → Option String
  | .word s => if s ∈ keywords L then none else some s
  | _ => none

/-- A parameter of a C++ function. -/
def readCppParam : List Lex → Option Param
  | [.word c, .word t, n] => if c = "const" then (nameOf .cpp n).map fun n => ⟨n, t, .value⟩ else none
  | [.word c, .word t, .sym s, n] => if c = "const" ∧ s = "&" then (nameOf .cpp n).map fun n => ⟨n, t, .constRef⟩ else none
  | [.word t, .sym s, n] =>
    if s = "&" then (nameOf .cpp n).map fun n => ⟨n, t, .ref⟩
    else if s = "&&" then (nameOf .cpp n).map fun n => ⟨n, t, .forward⟩
    else if s = "*" then (nameOf .cpp n).map fun n => ⟨n, t, .pointer⟩
    else none
  | [.word t, .sym s, .word c, n] => if s = "*" ∧ c = "const" then (nameOf .cpp n).map fun n => ⟨n, t, .pointer⟩ else none
  | _ => none

/-- A parameter of a template. -/
def readTypeParam : List Lex → Option String
  | [.word k, n] => if k = "typename" then nameOf .cpp n else none
  | _ => none

/-- The signature of a C++ function. -/
def readCpp : List Lex → Option FnRead
  | .word "template" :: .sym "<" :: ls =>
    match breakLex (.sym ">") ls with
    | some (ts, .word r :: n :: .sym "(" :: ps) =>
      match breakLex (.sym ")") ps with
      | some (ps, []) =>
        match readAll readTypeParam (partsLex ts), nameOf .cpp n, readAll readCppParam (partsLex ps) with
        | some ts, some n, some ps => if (ts ++ ps.map (·.name)).Nodup then some ⟨n, ts, [.word r], ps⟩ else none
        | _, _, _ => none
      | _ => none
    | _ => none
  | _ => none

/-- A parameter of a Rust function. -/
def readRustParam : List Lex → Option Param
  | [n, .sym a, .word t] => if a = ":" then (nameOf .rust n).map fun n => ⟨n, t, .value⟩ else none
  | [n, .sym a, .sym b, .word t] => if a = ":" ∧ b = "&" then (nameOf .rust n).map fun n => ⟨n, t, .borrow⟩ else none
  | [n, .sym a, .sym b, .word m, .word t] => if a = ":" ∧ b = "&" ∧ m = "mut" then (nameOf .rust n).map fun n => ⟨n, t, .borrowMut⟩ else none
  | [n, .sym a, .word o, .sym b, .sym c, .word m, .word t, .sym d] =>
    if a = ":" ∧ o = "Option" ∧ b = "<" ∧ c = "&" ∧ m = "mut" ∧ d = ">" then (nameOf .rust n).map fun n => ⟨n, t, .optionMut⟩ else none
  | _ => none

/-- Parts that end with a comma each. -/
def endedLex (l : List Lex) : Option (List (List Lex)) :=
  if l.isEmpty then some []
  else match (splitLex l).reverse with
    | [] :: ps => some ps.reverse
    | _ => none

/-- A type parameter of a Rust function. -/
def readRustType : List Lex → Option String
  | [n] => nameOf .rust n
  | _ => none

/-- A matrix that a type parameter stands for: one that is read, or written, with its rows and columns. -/
structure Bound where
  type : String
  trait : String
  rows : Nat
  cols : Nat
deriving DecidableEq, Repr

/-- Constraints. The length of the list bounds the number of turns. -/
def readBounds : Nat → List Lex → Option (List Bound)
  | _, [] => some []
  | k + 1, .word t :: .sym a :: .word s :: .sym b :: .num r :: .sym c :: .num n :: .sym d :: .word v :: .sym e :: .word f :: .sym g :: .sym h :: ls =>
    if [a, b, c, d, v, e, f, g, h] = [":", "<", ",", ",", "ValueType", "=", "f64", ">", ","] then (readBounds k ls).map fun bs => ⟨t, s, r, n⟩ :: bs else none
  | _, _ => none

/-- What follows the list of parameters of a Rust function: the type that is returned, and the constraints. -/
def readRustEnd : List Lex → Option (List Lex × List Bound)
  | .sym "->" :: .sym "(" :: .sym ")" :: .word "where" :: ls => (readBounds ls.length ls).map fun bs => ([.sym "(", .sym ")"], bs)
  | .sym "->" :: .word r :: .word "where" :: ls => (readBounds ls.length ls).map fun bs => ([.word r], bs)
  | [.sym "->", .sym "(", .sym ")"] => some ([.sym "(", .sym ")"], [])
  | [.sym "->", .word r] => some ([.word r], [])
  | _ => none

/-- The signature of a Rust function, with the constraints. -/
def readRust : List Lex → Option (FnRead × List Bound)
  | .word "pub" :: .word "fn" :: n :: .sym "<" :: ls =>
    match breakLex (.sym ">") ls with
    | some (ts, .sym "(" :: ps) =>
      match breakLex (.sym ")") ps with
      | some (ps, rest) =>
        match (endedLex ts).bind (readAll readRustType), nameOf .rust n, readAll readRustParam (partsLex ps), readRustEnd rest with
        | some ts, some n, some ps, some (r, bs) =>
          if ts.Nodup ∧ (ps.map (·.name)).Nodup ∧ bs.map (·.type) = ts then some (⟨n, ts, r, ps⟩, bs) else none
        | _, _, _, _ => none
      | _ => none
    | _ => none
  | _ => none

/-- A parameter of a Python function, and if it has a default. -/
def readPyParam : List Lex → Option (Param × Bool)
  | [n, .sym a, .word t] => if a = ":" then (nameOf .python n).map fun n => (⟨n, t, .object⟩, false) else none
  | [n, .sym a, .word t, .sym b, .word x, .sym c, .word y] =>
    if a = ":" ∧ b = "|" ∧ x = "None" ∧ c = "=" ∧ y = "None" then (nameOf .python n).map fun n => (⟨n, t, .object⟩, true) else none
  | _ => none

/-- No parameter without a default follows one with a default. -/
def defaultsLast : List Bool → Bool
  | [] => true
  | true :: l => l.all id
  | false :: l => defaultsLast l

/-- The signature of a Python function. -/
def readPython : List Lex → Option FnRead
  | .word "def" :: n :: .sym "(" :: ls =>
    match breakLex (.sym ")") ls with
    | some (ps, .sym "->" :: rest) =>
      match nameOf .python n, readAll readPyParam (partsLex ps), rest.getLast? with
      | some n, some ps, some (.sym ":") =>
        if defaultsLast (ps.map Prod.snd) ∧ (ps.map (·.1.name)).Nodup then some ⟨n, [], rest.dropLast, ps.map Prod.fst⟩ else none
      | _, _, _ => none
    | _ => none
  | _ => none

/-- The type of an argument in C++; the type of a matrix is a parameter if the generator knows spans only. -/
def cppTypeOf (span : Bool) (i : Nat) (a : Argument) : String := if span && a.type.isMatrix then typeParam i else a.type.cpp

/-- The type of an argument in Rust. -/
def rustTypeOf (i : Nat) (a : Argument) : String := if a.type.isMatrix then typeParam i else a.type.rust

/-- What a Rust matrix has to provide: elements that can be read, or also written. -/
def traitFor : Direction → String
  | .input => "wrenfold_traits::Span2D"
  | .output => "wrenfold_traits::OutputSpan2D"
  | .optional => "wrenfold_traits::OutputSpan2D"

/-- The arrays of the Python libraries. -/
def arrayName : Target → String
  | .numpy => "np.ndarray"
  | .pytorch => "th.Tensor"
  | .jax => "jnp.ndarray"

/-- The Python class of the objects of a type. -/
def className (T : Target) : VarType → String
  | .scalar .boolean => "bool"
  | .scalar .integral => "int"
  | .scalar .floating => "float"
  | .matrix _ _ => arrayName T
  | .custom n => n

/-- A class, or a class or `None`. -/
def readClass : List Lex → Option (String × Bool)
  | [.word t] => some (t, false)
  | [.word t, .sym b, .word x] => if b = "|" ∧ x = "None" then some (t, true) else none
  | _ => none

/-- The annotation of what a Python function returns, as the list of the results: nothing, one object, or the elements of a tuple. A result is a class, and if
it may be `None`. -/
def readResults : List Lex → Option (List (String × Bool))
  | [.word "None"] => some []
  | .word "tuple" :: .sym "[" :: ls =>
    match breakLex (.sym "]") ls with
    | some (ps, []) => readAll readClass (partsLex ps)
    | _ => none
  | l => (readClass l).map fun c => [c]

/-- What a Python function returns: its value, and then its outputs in their order, if they are not arguments. Every output is said to be an array (see
`C61_python_annotation_refuted`); an optional one may be missing. -/
def pyResults (o : PyConfig) (s : FnSignature) : List (String × Bool) :=
  (s.returns.toList.map fun t => (className o.expr.target t, false)) ++
    if o.outputArguments then [] else (s.args.filter (·.direction ≠ .input)).map fun a => (arrayName o.expr.target, decide (a.direction = .optional))

/-! ## Calls -/

/-- What a caller passes: a value, an object of the caller (called by the name of its parameter), its address (in Rust: `Some` with a borrow), or nothing
(a null pointer, `None`). -/
inductive Actual (K : Type)
  | val (c : Cell K)
  | obj (a : String)
  | address (a : String)
  | nothing

/-- What the parameter stands for then. -/
def Pass.bind {K : Type} : Pass → Actual K → Option (Obj K)
  | .value, .val c => some (.val c)
  | .constRef, .val c => some (.val c)
  | .borrow, .val c => some (.val c)
  | .ref, .obj a => some (.alias a)
  | .forward, .obj a => some (.alias a)
  | .forward, .address a => some (.ptr a)
  | .forward, .nothing => some (.val .none)
  | .pointer, .address a => some (.ptr a)
  | .pointer, .nothing => some (.val .none)
  | .borrowMut, .obj a => some (.ptr a)
  | .optionMut, .address a => some (.option a)
  | .optionMut, .nothing => some (.val .none)
  | .object, .val c => some (.val c)
  | .object, .obj a => some (.ptr a)
  | .object, .address a => some (.ptr a)
  | .object, .nothing => some (.val .none)
  | _, _ => none

/-- The parameters, bound in order. -/
def bindParams {K : Type} : List Param → List (Actual K) → Option (List (String × Obj K))
  | [], [] => some []
  | p :: ps, a :: as =>
    match p.pass.bind a, bindParams ps as with
    | some o, some os => some ((p.name, o) :: os)
    | _, _ => none
  | _, _ => none

/-- What is passed for an argument: the value of an input, an object for an output, and for an optional output the address of an object, if it is wanted. -/
def Argument.actual {K : Type} (input : String → Cell K) (wanted : String → Bool) (a : Argument) : Actual K :=
  match a.direction with
  | .input => .val (input a.name)
  | .output => .obj a.name
  | .optional => if wanted a.name then .address a.name else .nothing

/-- What is passed to the function: its arguments in order. In Python without output arguments: the inputs, and for each optional output if it is wanted. -/
def actuals {K : Type} (T : Scoping) (input : String → Cell K) (wanted : String → Bool) (args : List Argument) : List (Actual K) :=
  match T with
  | .python false => args.filterMap fun a =>
    match a.direction with
    | .input => some (.val (input a.name))
    | .output => none
    | .optional => some (.val (.switch (wanted a.name)))
  | _ => args.map (Argument.actual input wanted)

/-! ## Conversions of arguments -/

/-- `auto name = maker(arg);` -/
structure ViewOf where
  name : String
  maker : String
  arg : String
deriving DecidableEq, Repr

def ViewOf.toks (v : ViewOf) : Toks := [.ty "auto", .name v.name, .assign, .name v.maker, .lpar, .name v.arg, .rpar, .semi]

/-- A text in braces is read as views and a block with the statements, and with no others. -/
def ViewsReadAs (text : Toks) (vs : List ViewOf) (ss : List St) : Prop :=
  ∃ ts, words .cpp text = .lbrace :: ((vs.map ViewOf.toks).flatten ++ (ts ++ [.rbrace])) ∧ ReadsBlock .cpp ts ss ∧ ∀ ss', ReadsBlock .cpp ts ss' → ss' = ss

/-- The functions that make a view of a matrix with `r` rows and `c` columns: one that is read, one that is written, one that may be missing (`span.h`). -/
def viewMaker (d : Direction) (r c : Nat) : String :=
  match d with
  | .input => "wf::make_input_span<" ++ toString r ++ ", " ++ toString c ++ ">"
  | .output => "wf::make_output_span<" ++ toString r ++ ", " ++ toString c ++ ">"
  | .optional => "wf::make_optional_output_span<" ++ toString r ++ ", " ++ toString c ++ ">"

/-- Make a view: of a matrix that is only read, of a matrix of the caller, or of one that may be missing. The dimensions have to be right. -/
def makeView {K : Type} (s : State K) (f : String) (o : Obj K) : Option (Obj K) :=
  match o with
  | .val (.mat r c l) => if f = viewMaker .input r c then some (.val (.mat r c l)) else none
  | .val .none => if "wf::make_optional_output_span<".toList.isPrefixOf f.toList then some (.val .none) else none
  | .alias a =>
    match find a s.heap with
    | some (.mat r c _) => if f = viewMaker .output r c then some (.alias a) else none
    | _ => none
  | .ptr a =>
    match find a s.heap with
    | some (.mat r c _) => if f = viewMaker .optional r c then some (.alias a) else none
    | _ => none
  | _ => none

/-- Make the views in order; a name is not declared twice. -/
def runViews {K : Type} : List ViewOf → State K → Option (State K)
  | [], s => some s
  | v :: vs, s =>
    match (find v.arg s.vars).bind (makeView s v.maker), find v.name s.vars with
    | some o, none => runViews vs { s with vars := s.vars ++ [(v.name, o)] }
    | _, _ => none

/-- The value of a conversion in Python: `np.asarray(x, dtype=t).reshape(r, c)`, or an expression. An array is reshaped row by row. -/
def convCell {K : Type} [CommRing K] (M : Machine K) (S : Setting) (s : State K) : E → Option (Cell K)
  | .app (.field (.app (.atom f) [.atom n, .atom d]) m) l =>
    match find n s.vars, indices l, find d ((inModule S.mod (numberTypes .python)).map fun p => ("dtype=" ++ p.1, p.2)) with
    | some (.val (.mat r' c' xs)), some (r, c), some p =>
      if f = S.mod ++ ".asarray" ∧ m = "reshape" ∧ r' * c' = r * c then some (.mat r c (xs.map (M.cast p))) else none
    | _, _, _ => none
  | e => (e.value M S s).map .num

/-- Run the conversions. -/
def runConversions {K : Type} [CommRing K] (M : Machine K) (S : Setting) : List St → State K → Option (State K)
  | [], s => some s
  | .assign (.e (.atom n)) (.e e) :: ss, s =>
    match (convCell M S s e).bind fun c => setVar S.T n (.val c) s.vars with
    | some vars => runConversions M S ss { s with vars := vars }
    | none => none
  | _, _ => none

/-- What an input is after the conversions of Python: a number of the type, an array of floating-point numbers with the rows and columns of the type. The
array of the caller has as many elements, in any shape; they are taken row by row. -/
inductive Converted {K : Type} (M : Machine K) : VarType → Cell K → Cell K → Prop
  | scalar {p x} : Converted M (.scalar p) (.num x) (.num (M.cast p x))
  | matrix {r c r' c' xs} : r' * c' = r * c → Converted M (.matrix r c) (.mat r' c' xs) (.mat r c (xs.map (M.cast .floating)))
  | custom {n x} : Converted M (.custom n) x x

/-! ## Whole functions -/

/-- The state after the parameters are bound. -/
def boundState {K : Type} (T : Scoping) (args : List Argument) (wanted : String → Bool) (vars : List (String × Obj K)) : State K where
  vars := vars
  heap := if T = .python false then [] else (args.filter (Argument.present wanted)).map fun a => (a.name, a.type.fresh)
  result := none

/-- Names of the function and its arguments that are no keywords. -/
def Speakable (L : Lang) (s : FnSignature) : Prop := s.name ∉ keywords L ∧ ∀ a ∈ s.args, a.name ∉ keywords L

/-- Inputs come before outputs, as in the functions that `generate_function` makes. -/
def InputsFirst (args : List Argument) : Prop := ∃ ins outs, args = ins ++ outs ∧ (∀ a ∈ ins, a.direction = .input) ∧ ∀ a ∈ outs, a.direction ≠ .input

end Wf.Gen.Text
