import Verif.Sym.FunctionModel

/-!
# Model of `map_children`

Visitors that rewrite an expression (`substitute`, `distribute`, `collect`, `eliminate_subexpressions`) visit the children of a node and make
the node again from the results with `map_children`. A visitor is modelled by its body, which calls an argument for the children; `visitor
body n` is the body iterated, `n` being the depth of nested calls. The caches of the visitors are left out where the visitor has no other
state: they only save work.
-/

namespace Wf.Sym

variable {F : Type} [FnOps F] [DecidableEq F]

/-- Call `f` with the result of a call that may fail. -/
def andThen {α β : Type} (x : Res α) (f : α → Res β) : Res β :=
  match x with
  | .error e => .error e
  | .ok a => f a

theorem andThen_ok {α β : Type} {x : Res α} {f : α → Res β} {r : β} (h : andThen x f = .ok r) : ∃ a, x = .ok a ∧ f a = .ok r := by
  cases x with
  | error e => cases h
  | ok a => exact ⟨a, rfl, h⟩

/-- `is_leaf_node` of the node types. -/
def Head.isLeaf : Head F → Bool
  | .flt _ | .int _ | .rat _ | .const _ | .zoo | .imag | .var _ _ | .argVar _ _ _ | .uniq _ _ | .undef | .typeArg _ _ | .bconst _ => true
  | _ => false

/-- `is_type<variable, unique_variable, function_argument_variable>()`. -/
def Head.isVar : Head F → Bool
  | .var _ _ | .argVar _ _ _ | .uniq _ _ => true
  | _ => false

/-- `unevaluated::create`, `unevaluated.cc:8-15`. -/
def unevalCreate (x : Expr F) : Expr F :=
  match x.head with
  | .uneval => x
  | _ => .uneval x

/-- `stop_derivative::create`, `stop_derivative.cc:8-14`. -/
def stopCreate (x : Expr F) : Expr F :=
  match x.head with
  | .stop => x
  | _ => .stop x

/-- `compound_expression_element::create`, `compound_expression_element.cc:11-19`. -/
def elemCreate (c : Expr F) (i : Nat) : Res (Expr F) :=
  match c with
  | .node (.construct _) as =>
    match as[i]? with
    | some a => .ok a
    | none => .error .assertion
  | c => .ok (.elem c i)

/-- `derivative::create`, `derivative_expression.cc:11-33`. -/
def derivCreate (f x : Expr F) (n : Nat) : Res (Expr F) :=
  if n = 0 then .error .invalidArgument
  else
    match x.head.isVar, x.head with
    | false, .symfn _ => derivNode f x n
    | false, _ => .error .type
    | true, _ => derivNode f x n
where
  /-- the order of a derivative with respect to the same variable is increased -/
  derivNode (f x : Expr F) (n : Nat) : Res (Expr F) :=
    match f with
    | .deriv g y k => if identical y x then .ok (.deriv g x (k + n)) else .ok (.deriv f x n)
    | f => .ok (.deriv f x n)

/-- `substitution::create`, `substitute_expression.cc:8-23`. -/
def substCreate (input target replacement : Expr F) : Res (Expr F) :=
  if isNumeric input then .ok input
  else if isNumeric target then .error .type
  else if identical target replacement then .ok input
  else .ok (.subst input target replacement)

/-- The end of `map_children`, given the new children: `addition.h:54-58`, `multiplication.h:62-64`, `power.h:21-23`, `function_expressions.h:49-52`
(with `function_expressions.cc:12-51`), `154-157`, `unevaluated.h:18-20`, `stop_derivative.h:32-34`, `casts.h:26-28`,
`compound_expression_element.h:30-32`, `derivative_expression.h:38-40`, `substitute_expression.h:32-34`, `relational.h:21-23`, `matrix.h:26-29`,
`external_function_invocation.h:31-38`, `custom_type_expressions.h:82-84`. (A construction is made without the simplification of
`custom_type_construction::create`, which is the subject of C50.) `m` is the depth of nested calls of the functions. -/
def rebuild (K : Ctors F) (m : Nat) (h : Head F) (bs : List (Expr F)) : Res (Expr F) :=
  match h, bs with
  | .add, bs => K.add bs
  | .mul, bs => K.mul bs
  | .pow, [b, e] => K.pow b e
  | .fn .arctan2, [y, x] => atan2Fn K y x
  | .fn f, [x] => fns K m f x
  | .symfn n, bs => .ok (.symfn n bs)
  | .uneval, [x] => .ok (unevalCreate x)
  | .stop, [x] => .ok (stopCreate x)
  | .iverson, [c] => .ok (iversonFn c)
  | .cond, [c, a, b] => .ok (condCreate c a b)
  | .rel op, [a, b] => relCreate op a b
  | .elem i, [c] => elemCreate c i
  | .deriv n, [f, x] => derivCreate f x n
  | .subst, [e, x, r] => substCreate e x r
  | .matrix r c, bs => .ok (.node (.matrix r c) bs)
  | .call f, bs => .ok (.node (.call f) bs)
  | .construct t, bs => .ok (.node (.construct t) bs)
  | _, _ => .error .assertion

/-- `conditional::map_children`, `conditional.h:20-28`: only the branch that is needed is visited. -/
def mapCond (R : Expr F → Res (Expr F)) (c a b : Expr F) : Res (Expr F) :=
  match R c with
  | .error e => .error e
  | .ok c' =>
    if identical c' (.bconst true) then R a
    else if identical c' (.bconst false) then R b
    else
      match R a with
      | .error e => .error e
      | .ok a' =>
        match R b with
        | .error e => .error e
        | .ok b' => .ok (condCreate c' a' b')

/-- `map_children`: apply `R` to each child and make the node again. -/
def mapChildren (K : Ctors F) (m : Nat) (R : Expr F → Res (Expr F)) (e : Expr F) : Res (Expr F) :=
  match e with
  | .cond c a b => mapCond R c a b
  | .node h as =>
    match mapRes R as with
    | .error e => .error e
    | .ok bs => rebuild K m h bs

/-- The category of the expression is `boolean_expr`, `boolean_expression.h:15-18`. -/
def isBoolean (e : Expr F) : Bool :=
  match e.head with
  | .bconst _ | .rel _ => true
  | _ => false

/-- A visitor that calls itself at most `n` deep. -/
def visitor (body : (Expr F → Res (Expr F)) → Expr F → Res (Expr F)) : Nat → Expr F → Res (Expr F)
  | 0, _ => .error .terminate
  | n + 1, e => body (visitor body n) e

end Wf.Sym
