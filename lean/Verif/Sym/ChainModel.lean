import Verif.Sym.DerivativeModel
import Verif.Sym.NumberSetModel

/-!
# Model of the derivatives of functions that the user declares and of deferred substitutions

`derivative_visitor` for `symbolic_function_invocation`, `derivative.cc:328-383`, and for `substitution`, `derivative.cc:276-325`.

`make_unique_variable_symbol` (`expressions/variable.h:51-52`) takes the next value of a global counter. The model has a function `fresh` that gives the
number of the variable made for the argument `i` of an expression. The derivatives of all children are computed before these rules; the code does not
differentiate the target of a substitution, nor the arguments of an invocation that is itself the variable.
-/

namespace Wf.Sym

variable {F : Type} [FnOps F] [DecidableEq F]

/-- `make_unique_variable_symbol(determine_numeric_set(s))`, `derivative.cc:312,368`. -/
def freshVar (fresh : Expr F → Nat → Nat) (e : Expr F) (i : Nat) (s : Expr F) : Expr F := .node (.uniq (fresh e i) (numberSet s)) []

/-- The term for the argument `a` with number `i` and derivative `d`, `derivative.cc:358-381`. -/
def chainTerm (K : Ctors F) (fresh : Expr F → Nat → Nat) (arg : Expr F) (n : String) (as : List (Expr F)) (i : Nat) (a d : Expr F) : Res (Expr F) :=
  if isInt 0 d then .ok (.int 0)
  else
    let u := freshVar fresh (.symfn n as) i arg
    andThen (derivCreate (.symfn n (as.set i u)) u 1) fun D => andThen (substCreate D u a) fun s => K.mul [d, s]

/-- The terms from the argument with number `i` on. -/
def chainTerms (K : Ctors F) (fresh : Expr F → Nat → Nat) (arg : Expr F) (n : String) (as : List (Expr F)) :
    Nat → List (Expr F) → List (Expr F) → Res (List (Expr F))
  | i, a :: l, d :: ds => andThen (chainTerm K fresh arg n as i a d) fun t => andThen (chainTerms K fresh arg n as (i + 1) l ds) fun ts => .ok (t :: ts)
  | _, _, _ => .ok []

/-- `derivative_visitor::operator()(const symbolic_function_invocation&)`, `derivative.cc:328-383`. -/
def diffSymfn (K : Ctors F) (fresh : Expr F → Nat → Nat) (arg : Expr F) (n : String) (as ds : List (Expr F)) : Res (Expr F) :=
  if identical (.symfn n as) arg then .ok (.int 1)
  else if ds.all (isInt 0) then .ok (.int 0)
  else if (ds.filter (isInt 0)).length + 1 = ds.length ∧ (ds.filter (isInt 1)).length = 1 then derivCreate (.symfn n as) arg 1
  else andThen (chainTerms K fresh arg n as 0 as ds) K.add

/-- The derivative with respect to the replacement, `derivative.cc:295-318`. `inner` is `sub.input().diff(sub.target())`. -/
def diffReplacement (fresh : Expr F → Nat → Nat) (inner : Unit → Res (Expr F)) (e i t r : Expr F) : Res (Expr F) :=
  if t.head.isVar then andThen (inner ()) fun d => substCreate d t r
  else if r.head.isVar then derivCreate e r 1
  else
    let u := freshVar fresh e 0 r
    andThen (substCreate i t u) fun s => andThen (derivCreate s u 1) fun d => substCreate d u r

/-- `derivative_visitor::operator()(const substitution&)`, `derivative.cc:276-325`; `di` and `dr` are the derivatives of the input and of the
replacement. -/
def diffSubst (K : Ctors F) (fresh : Expr F → Nat → Nat) (arg : Expr F) (inner : Unit → Res (Expr F)) (i t r di dr : Expr F) : Res (Expr F) :=
  if isFunctionOf arg t then derivCreate (.subst i t r) arg 1
  else if isInt 0 dr then substCreate di t r
  else andThen (diffReplacement fresh inner (.subst i t r) i t r) fun q => andThen (K.mul [dr, q]) fun p => andThen (substCreate di t r) fun s => K.add [p, s]

/-- The rules for the nodes that `diffNode` leaves to `other`. The derivative with respect to the target of a substitution is taken with the default
behaviour (`derivative.cc:299`); `k` is the depth of such derivatives. Nodes of the other categories are not differentiated. -/
def chainRules (K : Ctors F) (m : Nat) (fresh : Expr F → Nat → Nat) : Nat → Expr F → Expr F → List (Expr F) → Res (Expr F)
  | _, arg, .node (.symfn n) as, ds => diffSymfn K fresh arg n as ds
  | 0, arg, .node .subst [i, t, r], [di, _, dr] => diffSubst K fresh arg (fun _ => .error .assertion) i t r di dr
  | k + 1, arg, .node .subst [i, t, r], [di, _, dr] =>
    diffSubst K fresh arg (fun _ => diff ⟨K, m, t, .constant, chainRules K m fresh k t⟩ i 1) i t r di dr
  | _, _, _, _ => .error .assertion

/-- A derivative with these rules. -/
def chainCfg (K : Ctors F) (m : Nat) (fresh : Expr F → Nat → Nat) (k : Nat) (arg : Expr F) (beh : NonDiff) : DiffCfg F :=
  ⟨K, m, arg, beh, chainRules K m fresh k arg⟩

end Wf.Sym
