import Verif.Sym.FunctionModel

/-!
# Model of decisions that Python makes about expressions

The comparison operators of `sym.Expr`, `scalar_wrapper.cc:245-248`, make boolean expressions, and `if`, `while`, `and`, `not`, chained comparisons and the
built-in functions `max` and `min` of Python ask such an expression for its truth with `__bool__`, `boolean_expression_wrapper.cc:21-31`.
-/

namespace Wf.Sym.Truth

variable {F : Type} [FnOps F] [DecidableEq F]

/-- The comparison operators of Python that make an expression. -/
inductive PyCmp
  | lt | gt | le | ge
deriving DecidableEq

/-- `operator<`, `operator>`, `operator<=` and `operator>=`, `expression.cc:121-135`. -/
def compare : PyCmp → Expr F → Expr F → Res (Expr F)
  | .lt, a, b => relCreate .lt a b
  | .gt, a, b => relCreate .lt b a
  | .le, a, b => relCreate .le a b
  | .ge, a, b => relCreate .le b a

/-- `coerce_to_bool`, `boolean_expression_wrapper.cc:21-31`, and `__bool__` of scalars and matrices, which always throws, `scalar_wrapper.cc:284-293`,
`matrix_wrapper.cc:479-481`. -/
def truth (e : Expr F) : Res Bool :=
  match e with
  | .node (.bconst t) _ => .ok t
  | _ => .error .type

/-- `bool(a op b)` -/
def asks (op : PyCmp) (a b : Expr F) : Res Bool :=
  match compare op a b with
  | .error e => .error e
  | .ok c => truth c

/-- `bool(a op₁ b op₂ c …)`: Python makes `a op₁ b and b op₂ c …` of it. -/
def chain : Expr F → List (PyCmp × Expr F) → Res Bool
  | _, [] => .ok true
  | a, (op, b) :: rest =>
    match asks op a b with
    | .error e => .error e
    | .ok false => .ok false
    | .ok true => chain b rest

/-- A condition in Python. -/
inductive Test (F : Type)
  | chain (a : Expr F) (rest : List (PyCmp × Expr F))
  | not (c : Test F)
  | and (c d : Test F)
  | or (c d : Test F)

/-- The condition is asked for its truth; `and` and `or` do not ask the second part if the first decides. -/
def Test.run : Test F → Res Bool
  | .chain a rest => Truth.chain a rest
  | .not c =>
    match c.run with
    | .error e => .error e
    | .ok t => .ok (!t)
  | .and c d =>
    match c.run with
    | .error e => .error e
    | .ok false => .ok false
    | .ok true => d.run
  | .or c d =>
    match c.run with
    | .error e => .error e
    | .ok true => .ok true
    | .ok false => d.run

/-- `f if a op b else g` -/
def pyIf (op : PyCmp) (a b f g : Expr F) : Res (Expr F) :=
  match asks op a b with
  | .error e => .error e
  | .ok t => .ok (if t then f else g)

/-- `sym.where(a op b, f, g)`, `functions.cc:649-652`. -/
def symWhere (op : PyCmp) (a b f g : Expr F) : Res (Expr F) :=
  match compare op a b with
  | .error e => .error e
  | .ok c => .ok (condCreate c f g)

/-- Python's `max` (`op` is `>`) and `min` (`op` is `<`): an element replaces the best one so far if it compares as wanted. -/
def pyBest (op : PyCmp) : Expr F → List (Expr F) → Res (Expr F)
  | best, [] => .ok best
  | best, x :: xs =>
    match asks op x best with
    | .error e => .error e
    | .ok t => pyBest op (if t then x else best) xs

end Wf.Sym.Truth
