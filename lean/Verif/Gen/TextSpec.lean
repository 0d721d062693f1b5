import Verif.Gen.TextModel

/-!
# How the target languages read an expression

`Reads L k ts e`: the tokens `ts` are an expression of the grammar level `k` of language `L`, and its syntax tree is `e`. The rules are the ones of the
grammars of the languages for the operators that occur:

* C++ ([expr.post], [expr.unary], [expr.mul], [expr.add], [expr.rel], [expr.eq], [expr.cond]): level 0 conditional, 1 equality, 2 relational, 3
  additive, 4 multiplicative, 6 unary, 7 postfix and primary. Binary operators are left associative. Levels with operators that the generator never
  emits (shift, bitwise and logical operators) are left out.
* Rust (reference, "Expression precedence"): comparisons need parentheses around comparisons; `as` (level 5) binds closer than `*` and looser than
  unary minus; a `<` after a type is read as the start of generic arguments; `if` is an expression.
* Python (reference, "Expressions"): comparisons are one level. A chain `a < b < c` is an expression in Python too, with another meaning; such
  texts have no tree here.
-/

namespace Wf.Gen.Text

inductive Lang
  | cpp | rust | python
deriving DecidableEq, Repr

inductive BinOp
  | add | sub | mul | div | lt | le | eq
deriving DecidableEq, Repr

/-- Syntax trees of the target languages. -/
inductive E
  | atom (s : String)
  | int (n : Nat) (suffix : String)
  | bin (op : BinOp) (a b : E)
  | neg (a : E)
  | ref (a : E)
  | cond (c a b : E)
  | cast (t : String) (a : E)
  | app (f : E) (l : List E)
  | field (a : E) (name : String)
  | index (a : E) (l : List E)
deriving Repr

def BinOp.tok : BinOp → Tok
  | .add => .plus
  | .sub => .minus
  | .mul => .star
  | .div => .slash
  | .lt => .lt
  | .le => .le
  | .eq => .eqeq

/-- The level of a binary operator. -/
def BinOp.level (L : Lang) : BinOp → Nat
  | .add | .sub => 3
  | .mul | .div => 4
  | .lt | .le => 2
  | .eq => if L = .cpp then 1 else 2

/-- The level of the left operand of a binary operator. -/
def BinOp.left (L : Lang) (op : BinOp) : Nat :=
  if L ≠ .cpp ∧ (op = .lt ∨ op = .le ∨ op = .eq) then op.level L + 1 else op.level L

/-- The last token is the name of a type. -/
def endsInType (ts : Toks) : Bool :=
  match ts.getLast? with
  | some (.ty _) => true
  | _ => false

mutual
inductive Reads (L : Lang) : Nat → Toks → E → Prop
  | up {k ts e} : k < 7 → Reads L (k + 1) ts e → Reads L k ts e
  | bin {op l r a b} : Reads L (op.left L) l a → Reads L (op.level L + 1) r b → ¬(L = .rust ∧ op = .lt ∧ endsInType l = true) →
      Reads L (op.level L) (l ++ op.tok :: r) (.bin op a b)
  | cond {l m r c a b} : L = .cpp → Reads L 1 l c → Reads L 0 m a → Reads L 0 r b → Reads L 0 (l ++ .quest :: (m ++ .colon :: r)) (.cond c a b)
  | neg {ts e} : Reads L 6 ts e → Reads L 6 (.minus :: ts) (.neg e)
  | ref {ts e} : L = .rust → Reads L 6 ts e → Reads L 6 (.amp :: ts) (.ref e)
  | as {ts e t} : L = .rust → Reads L 5 ts e → Reads L 5 (ts ++ [.kAs, .ty t]) (.cast t e)
  | ifElse {l m r c a b} : L = .rust → Reads L 0 l c → Reads L 0 m a → Reads L 0 r b →
      Reads L 7 (.kIf :: (l ++ .lbrace :: (m ++ .rbrace :: .kElse :: .lbrace :: (r ++ [.rbrace])))) (.cond c a b)
  | staticCast {ts e t} : L = .cpp → Reads L 0 ts e → Reads L 7 (.staticCast t :: .lpar :: (ts ++ [.rpar])) (.cast t e)
  | paren {ts e} : Reads L 0 ts e → Reads L 7 (.lpar :: (ts ++ [.rpar])) e
  | name {s} : Reads L 7 [.name s] (.atom s)
  | int {n s} : (L = .cpp → n < 2 ^ 63) → Reads L 7 [.int n s] (.int n s)
  | app {ts us f l} : Reads L 7 ts f → ReadsArgs L us l → Reads L 7 (ts ++ .lpar :: (us ++ [.rpar])) (.app f l)
  | field {ts e s} : Reads L 7 ts e → Reads L 7 (ts ++ [.dot, .name s]) (.field e s)
  | index {ts us e l} : L = .python → Reads L 7 ts e → ReadsArgs L us l → Reads L 7 (ts ++ .lbracket :: (us ++ [.rbracket])) (.index e l)
  | indexTuple {ts us e l} : L = .rust → Reads L 7 ts e → ReadsArgs L us l →
      Reads L 7 (ts ++ .lbracket :: .lpar :: (us ++ [.rpar, .rbracket])) (.index e l)

/-- Arguments separated by commas. -/
inductive ReadsArgs (L : Lang) : Toks → List E → Prop
  | nil : ReadsArgs L [] []
  | one {ts e} : Reads L 0 ts e → ReadsArgs L ts [e]
  | cons {ts us e l} : Reads L 0 ts e → ReadsArgs L us l → l ≠ [] → ReadsArgs L (ts ++ .comma :: us) (e :: l)
end

/-- The tokens of a text: spaces are dropped, and in C++ two adjacent minus signs are one token. -/
def tokens (L : Lang) : Toks → Toks
  | [] => []
  | .sp :: ts => tokens L ts
  | .minus :: .minus :: ts => if L = .cpp then .decrement :: tokens L ts else .minus :: tokens L (.minus :: ts)
  | t :: ts => t :: tokens L ts

/-- The text reads as the tree `e` and as no other. -/
def ReadsAs (L : Lang) (text : Toks) (e : E) : Prop := Reads L 0 (tokens L text) e ∧ ∀ e', Reads L 0 (tokens L text) e' → e' = e

/-! ## The syntax trees that are meant -/

/-- `((a ∘ b) ∘ c) ∘ …` -/
def fold (op : BinOp) : List E → E
  | [] => .atom ""
  | e :: l => l.foldl (.bin op) e

def relOp : Rel → BinOp
  | .lt => .lt
  | .le => .le
  | .eq => .eq

def intE (n : Int) (suffix : String) : E := if n < 0 then .neg (.int n.natAbs suffix) else .int n.natAbs suffix

def floatE (negative : Bool) (digits : String) : E := if negative then .neg (.atom digits) else .atom digits

/-- A C++ function. The sign is the difference of two comparisons. -/
def cppStdE (f : Std) (l : List E) : E :=
  match f with
  | .signum =>
    .bin .sub (.bin .lt (.cast "Scalar" (.int 0 "")) (l.headD (.atom ""))) (.bin .lt (l.headD (.atom "")) (.cast "Scalar" (.int 0 "")))
  | .floor => .cast "std::int64_t" (.app (.atom "std::floor") [l.headD (.atom "")])
  | f => .app (.atom (cppStd f)) l

mutual
/-- The C++ expression meant by an operation. -/
def Tree.cppE (span : Bool) : Tree → E
  | .var s => .atom s
  | .arg s k => .atom (cppArg span s k)
  | .int n => intE n ""
  | .float s d => .cast "Scalar" (floatE s d)
  | .bool b => .atom (if b then "true" else "false")
  | .euler => .cast "Scalar" (.atom "M_E")
  | .pi => .cast "Scalar" (.atom "M_PI")
  | .add l => fold .add (cppEs span l)
  | .mul l => fold .mul (cppEs span l)
  | .div a b => .bin .div (a.cppE span) (b.cppE span)
  | .neg a => .neg (a.cppE span)
  | .cmp op a b => .bin (relOp op) (a.cppE span) (b.cppE span)
  | .cond c a b => .cond (c.cppE span) (a.cppE span) (b.cppE span)
  | .cast t a => .cast (cppType t) (a.cppE span)
  | .std f l => cppStdE f (cppEs span l)
  | .call n r _ l => if r = .scalar .floating then .cast "Scalar" (.app (.atom n) (cppEs span l)) else .app (.atom n) (cppEs span l)
  | .copy a => a.cppE span
  | .field a n => .field (a.cppE span) n
  | .elem a i j => .app (a.cppE span) [.int i "", .int j ""]

def cppEs (span : Bool) : List Tree → List E
  | [] => []
  | t :: ts => t.cppE span :: cppEs span ts
end

/-- A Rust function. -/
def rustStdE (f : Std) (l : List E) : E :=
  match f with
  | .signum =>
    .bin .sub (.cast "i64" (.bin .lt (.atom "0.0f64") (l.headD (.atom "")))) (.cast "i64" (.bin .lt (l.headD (.atom "")) (.atom "0.0f64")))
  | .floor => .cast "i64" (.app (.field (l.headD (.atom "")) "floor") [])
  | f => .app (.field (l.headD (.atom "")) (rustStd f)) l.tail

/-- An argument of the generated function. -/
def Tree.isArg : Tree → Bool
  | .arg _ _ => true
  | .copy a => a.isArg
  | _ => false

/-- An argument that is a reference to a struct already. -/
def Tree.isCustomArg : Tree → Bool
  | .arg _ .custom => true
  | .copy a => a.isCustomArg
  | _ => false

/-- The argument of a call is borrowed if it is not a scalar. -/
def borrowE (t : Tree) (k : Kind) (e : E) : E := if t.isCustomArg then e else if k = .custom ∨ k = .matrix then .ref e else e

mutual
/-- The Rust expression meant by an operation. -/
def Tree.rustE : Tree → E
  | .var s => .atom s
  | .arg s _ => .atom s
  | .int n => intE n "i64"
  | .float s d => floatE s (d ++ "f64")
  | .bool b => .atom (if b then "true" else "false")
  | .euler => .atom "std::f64::consts::E"
  | .pi => .atom "std::f64::consts::PI"
  | .add l => fold .add (rustEs l)
  | .mul l => fold .mul (rustEs l)
  | .div a b => .bin .div a.rustE b.rustE
  | .neg a => .neg a.rustE
  | .cmp op a b => .bin (relOp op) a.rustE b.rustE
  | .cond c a b => .cond c.rustE a.rustE b.rustE
  | .cast t a => .cast (rustType t) a.rustE
  | .std f l => rustStdE f (rustEs l)
  | .call n r p l => if r = .scalar .floating then .cast "f64" (.app (.atom n) (rustParams p l)) else .app (.atom n) (rustParams p l)
  | .copy a => a.rustE
  | .field a n => .field a.rustE n
  | .elem a i j => if a.isArg then .app (.field a.rustE "get") [.int i "", .int j ""] else .index a.rustE [.int i "", .int j ""]

def rustEs : List Tree → List E
  | [] => []
  | t :: ts => t.rustE :: rustEs ts

def rustParams : List Kind → List Tree → List E
  | k :: ks, t :: ts => borrowE t k t.rustE :: rustParams ks ts
  | _, _ => []
end

/-- A Python conversion. -/
def pyCastE (o : PyOptions) (t : Prim) (e : E) : E :=
  if o.target = .pytorch then .app (.atom (o.name "asarray")) [e, .atom ("dtype=" ++ o.name (o.type t))] else .app (.atom (o.name (o.type t))) [e]

def pyLiteralE (o : PyOptions) (e : E) : E := if o.target = .pytorch then e else pyCastE o .floating e

def pyCallE (o : PyOptions) (n : String) (r : Returns) (l : List E) : E :=
  match r with
  | .matrix i j =>
    .app (.field (.app (.atom (o.name "asarray")) [.app (.atom n) l, .atom ("dtype=" ++ o.name (o.type .floating))]) "reshape") [.int i "", .int j ""]
  | _ => .app (.atom n) l

mutual
/-- The Python expression meant by an operation. -/
def Tree.pythonE (o : PyOptions) : Tree → E
  | .var s => .atom s
  | .arg s _ => .atom s
  | .int n => intE n ""
  | .float s d => pyLiteralE o (floatE s d)
  | .bool b => .atom (if b then "True" else "False")
  | .euler => pyLiteralE o (.atom (o.name "e"))
  | .pi => pyLiteralE o (.atom (o.name "pi"))
  | .add l => fold .add (pythonEs o l)
  | .mul l => fold .mul (pythonEs o l)
  | .div a b => .bin .div (a.pythonE o) (b.pythonE o)
  | .neg a => .neg (a.pythonE o)
  | .cmp op a b => .bin (relOp op) (a.pythonE o) (b.pythonE o)
  | .cond c a b => .app (.atom (o.name "where")) [c.pythonE o, a.pythonE o, b.pythonE o]
  | .cast t a => pyCastE o t (a.pythonE o)
  | .std f l => .app (.atom (o.name (pyStd f))) (pythonEs o l)
  | .call n r _ l => pyCallE o n r (pythonEs o l)
  | .copy a => a.pythonE o
  | .field a n => .field (a.pythonE o) n
  | .elem a i j => .index (a.pythonE o) [.int i "", .int j ""]

def pythonEs (o : PyOptions) : List Tree → List E
  | [] => []
  | t :: ts => t.pythonE o :: pythonEs o ts
end

/-! ## The functions of the libraries -/

/-- Functions of one or two real numbers. -/
inductive Fn
  | cos | sin | tan | acos | asin | atan | cosh | sinh | tanh | acosh | asinh | atanh | ln | exp | sqrt | abs | floor | sign | atan2 | pow
deriving DecidableEq, Repr

/-- The function that an operation stands for. -/
def Std.meaning : Std → Fn
  | .cos => .cos
  | .sin => .sin
  | .tan => .tan
  | .acos => .acos
  | .asin => .asin
  | .atan => .atan
  | .cosh => .cosh
  | .sinh => .sinh
  | .tanh => .tanh
  | .acosh => .acosh
  | .asinh => .asinh
  | .atanh => .atanh
  | .log => .ln
  | .exp => .exp
  | .sqrt => .sqrt
  | .abs => .abs
  | .signum => .sign
  | .floor => .floor
  | .atan2 => .atan2
  | .powi => .pow
  | .powf => .pow

/-- The header `<cmath>` of C++. -/
def cmath : List (String × Fn) :=
  [("std::abs", .abs), ("std::acos", .acos), ("std::acosh", .acosh), ("std::asin", .asin), ("std::asinh", .asinh), ("std::atan", .atan),
    ("std::atan2", .atan2), ("std::atanh", .atanh), ("std::cos", .cos), ("std::cosh", .cosh), ("std::exp", .exp), ("std::floor", .floor),
    ("std::log", .ln), ("std::pow", .pow), ("std::sin", .sin), ("std::sinh", .sinh), ("std::sqrt", .sqrt), ("std::tan", .tan), ("std::tanh", .tanh)]

/-- The methods of the Rust type `f64`. (`f64::signum` is 1 at positive zero; the generator does not use it.) -/
def rustMethods : List (String × Fn) :=
  [("abs", .abs), ("acos", .acos), ("acosh", .acosh), ("asin", .asin), ("asinh", .asinh), ("atan", .atan), ("atan2", .atan2), ("atanh", .atanh),
    ("cos", .cos), ("cosh", .cosh), ("exp", .exp), ("floor", .floor), ("ln", .ln), ("powf", .pow), ("powi", .pow), ("sin", .sin), ("sinh", .sinh),
    ("sqrt", .sqrt), ("tan", .tan), ("tanh", .tanh)]

/-- The functions of NumPy and of JAX. -/
def numpyFunctions : List (String × Fn) :=
  [("abs", .abs), ("arccos", .acos), ("arccosh", .acosh), ("arcsin", .asin), ("arcsinh", .asinh), ("arctan", .atan), ("arctan2", .atan2),
    ("arctanh", .atanh), ("cos", .cos), ("cosh", .cosh), ("exp", .exp), ("floor", .floor), ("log", .ln), ("power", .pow), ("sign", .sign),
    ("sin", .sin), ("sinh", .sinh), ("sqrt", .sqrt), ("tan", .tan), ("tanh", .tanh)]

/-- The names of the number types in the languages. (`Scalar` is the floating point type that the generated C++ function is a template of.) -/
def numberTypes : Lang → List (String × Prim)
  | .cpp => [("bool", .boolean), ("std::int64_t", .integral), ("Scalar", .floating)]
  | .rust => [("bool", .boolean), ("i64", .integral), ("f64", .floating)]
  | .python => [("bool", .boolean), ("int32", .integral), ("float32", .floating), ("float64", .floating)]

/-! ## Operations whose text is read as meant -/

/-- The number of operands of a function. -/
def Std.arity : Std → Nat
  | .atan2 | .powi | .powf => 2
  | _ => 1

/-- The text is a conversion written with `as` (Rust). -/
def Tree.isAs : Tree → Bool
  | .cast _ _ => true
  | .std f _ => f = .floor
  | .call _ r _ _ => r = .scalar .floating
  | _ => false

/-- The text of an operand of a sum or product begins or ends with another expression in disguise: the copy of an operation, in C++ a conditional, in C++
and Rust the sign function. -/
def Tree.risky (L : Lang) : Tree → Bool
  | .copy _ => true
  | .cond _ _ _ => L = .cpp
  | .std f _ => f = .signum ∧ L ≠ .python
  | _ => false

/-- The text begins with a minus sign, or is a conversion (Rust): it must not follow a minus sign. -/
def Tree.riskyNeg (L : Lang) (t : Tree) : Bool :=
  t.risky L || match t with
    | .neg _ => L = .cpp
    | .int n => L = .cpp && n < 0
    | t => L = .rust && t.isAs

/-- A comparison or, in C++, a conditional. -/
def Tree.isLoose (L : Lang) : Tree → Bool
  | .cmp _ _ _ => true
  | .cond _ _ _ => L = .cpp
  | .copy a => a.isLoose L
  | _ => false

/-- A value with parts: an argument, a variable, the result of a call that is not a scalar, or a part of such a value. -/
def Tree.isObject : Tree → Bool
  | .var _ => true
  | .arg _ _ => true
  | .call _ (.scalar _) _ _ => false
  | .call _ _ _ _ => true
  | .copy a => a.isObject
  | .field a _ => a.isObject
  | .elem a _ _ => a.isObject
  | _ => false

mutual
/-- Operations whose text is read as meant. Apart from the numbers of operands, this excludes the cases refuted in `TextProps.lean`. -/
def Tree.Fine (L : Lang) : Tree → Prop
  | .int n => L = .cpp → -(2 ^ 63) < n ∧ n < 2 ^ 63
  | .add l => l ≠ [] ∧ (∀ t ∈ l, t.risky L = false) ∧ AllFine L l
  | .mul l => l ≠ [] ∧ (∀ t ∈ l, t.risky L = false) ∧ AllFine L l
  | .div a b => a.risky L = false ∧ b.risky L = false ∧ a.Fine L ∧ b.Fine L
  | .neg a => a.riskyNeg L = false ∧ a.Fine L
  | .cmp _ a b => (L ≠ .rust → a.isLoose L = false ∧ b.isLoose L = false) ∧ a.Fine L ∧ b.Fine L
  | .cond c a b => c.Fine L ∧ a.Fine L ∧ b.Fine L ∧ (∀ x, c ≠ .copy x)
  | .cast _ a => a.Fine L
  | .std f l =>
    l.length = f.arity ∧ AllFine L l ∧ (f = .signum → ∀ t ∈ l, (L ≠ .python → t.isLoose L = false) ∧ (L = .rust → endsInType (tokens .rust t.visit.rust) = false))
  | .call _ _ p l => p.length = l.length ∧ AllFine L l ∧ ∀ x ∈ p.zip l, x.1 ≠ .scalar → x.2.isObject = true
  | .copy a => a.Fine L
  | .field a _ => a.isObject = true ∧ a.Fine L
  | .elem a i j => a.isObject = true ∧ a.Fine L ∧ i < 2 ^ 63 ∧ j < 2 ^ 63
  | _ => True

def AllFine (L : Lang) : List Tree → Prop
  | [] => True
  | t :: ts => t.Fine L ∧ AllFine L ts
end

end Wf.Gen.Text
