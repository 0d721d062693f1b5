import Verif.Sym.SubstituteModel

/-!
# Model of common sub-expression elimination

`eliminate_subexpressions`, `cse.cc:98-119`. Nodes that occur often are replaced, bottom up, by new variables. Both passes keep state, so they
are modelled by structural recursion with the state passed along, children from left to right. (For nodes whose `map_children` passes the
visited children as arguments of one call, C++ leaves the order of the visits open.)
-/

namespace Wf.Sym

variable {F : Type} [FnOps F] [DecidableEq F]

/-- Scalar expressions, `expression.h:29-52`. -/
def Head.isScalar : Head F → Bool
  | .matrix _ _ | .call _ | .typeArg _ _ | .construct _ | .bconst _ | .rel _ => false
  | _ => true

/-- `counts_` and `visited_`, `cse.cc:43-51`. -/
structure CountSt (F : Type) where
  counts : List (Expr F × Nat)
  visited : List (Expr F)

/-- `counts_.find`. -/
def lookupCount (e : Expr F) : List (Expr F × Nat) → Option Nat
  | [] => none
  | (k, n) :: l => if identical k e then some n else lookupCount e l

/-- `++counts_[child]`, `cse.cc:32`. -/
def bumpCount (e : Expr F) : List (Expr F × Nat) → List (Expr F × Nat)
  | [] => [(e, 1)]
  | (k, n) :: l => if identical k e then (k, n + 1) :: l else (k, n) :: bumpCount e l

/-- The part of `record_count` that counts, `cse.cc:30-32`. -/
def CountSt.bump (s : CountSt F) (e : Expr F) : CountSt F :=
  if e.head.isScalar then { s with counts := bumpCount e s.counts } else s

mutual
/-- `counter_visitor::operator()`, `cse.cc:24-27`. -/
def countNode : Expr F → CountSt F → CountSt F
  | .node _ as, s => countKids as s
/-- `record_count` of each child, `cse.cc:29-38`. -/
def countKids : List (Expr F) → CountSt F → CountSt F
  | [], s => s
  | a :: as, s =>
    if s.visited.any (fun v => identical v a) then countKids as (s.bump a)
    else countKids as (countNode a { s.bump a with visited := a :: s.visited })
end

/-- `cache_` and `replacements_`, `cse.h:64-67`. -/
structure CseSt (F : Type) where
  cache : List (Expr F × Expr F)
  repl : List (Expr F × Expr F)

/-- What stays fixed during the pass: the constructors, the counts, `make_variable_` and `min_occurrences_`. -/
structure CseCfg (F : Type) where
  K : Ctors F
  m : Nat
  counts : List (Expr F × Nat)
  var : Nat → Expr F
  min : Nat

/-- Should this node be replaced? `cse.cc:79-82`. -/
def CseCfg.wants (C : CseCfg F) (e : Expr F) : Bool :=
  e.head.isScalar && match lookupCount e C.counts with
    | some n => C.min ≤ n
    | none => false

/-- `cse.cc:78-90`: introduce a variable for a node, or return the node made from the new children. -/
def cseReplace (C : CseCfg F) (e mapped : Expr F) (s : CseSt F) : Expr F × CseSt F :=
  if C.wants e then (C.var s.repl.length, { s with repl := s.repl ++ [(C.var s.repl.length, mapped)] })
  else (mapped, s)

/-- The state after `get_or_insert`, `expression_cache.h`. -/
def CseSt.remember (s : CseSt F) (e r : Expr F) : CseSt F := { s with cache := (e, r) :: s.cache }

/-- `cse_visitor::operator()(const T& concrete, const X& expr)`, `cse.cc:71-96`, given the visits of the children of a conditional and of the
children of another node. -/
def cseVisit (C : CseCfg F) (h : Head F) (as : List (Expr F)) (cond : CseSt F → Res (Expr F × CseSt F))
    (kids : CseSt F → Res (List (Expr F) × CseSt F)) (s : CseSt F) : Res (Expr F × CseSt F) :=
  if h.isLeaf then .ok (.node h as, s)
  else if h = .cond then
    match cond s with
    | .error e => .error e
    | .ok (r, s1) => .ok (cseReplace C (.node h as) r s1)
  else
    match kids s with
    | .error e => .error e
    | .ok (bs, s1) =>
      match rebuild C.K C.m h bs with
      | .error e => .error e
      | .ok r => .ok (cseReplace C (.node h as) r s1)

mutual
/-- `cse_visitor::operator()(const T& expr)`, `cse.cc:65-68`: look the expression up, or visit it and remember the result. -/
def cseE (C : CseCfg F) : Expr F → CseSt F → Res (Expr F × CseSt F)
  | .node h as, s =>
    match findKey (.node h as) s.cache with
    | some r => .ok (r, s)
    | none =>
      match cseVisit C h as (cseCond C as) (cseKids C as) s with
      | .error e => .error e
      | .ok (r, s1) => .ok (r, s1.remember (.node h as) r)
/-- `conditional::map_children`, `conditional.h:20-28`. -/
def cseCond (C : CseCfg F) : List (Expr F) → CseSt F → Res (Expr F × CseSt F)
  | [c, a, b], s =>
    match cseE C c s with
    | .error e => .error e
    | .ok (c', s1) =>
      if identical c' (.bconst true) then cseE C a s1
      else if identical c' (.bconst false) then cseE C b s1
      else
        match cseE C a s1 with
        | .error e => .error e
        | .ok (a', s2) =>
          match cseE C b s2 with
          | .error e => .error e
          | .ok (b', s3) => .ok (condCreate c' a' b', s3)
  | _, _ => .error .assertion
/-- Visit each child. -/
def cseKids (C : CseCfg F) : List (Expr F) → CseSt F → Res (List (Expr F) × CseSt F)
  | [], s => .ok ([], s)
  | a :: as, s =>
    match cseE C a s with
    | .error e => .error e
    | .ok (b, s1) =>
      match cseKids C as s1 with
      | .error e => .error e
      | .ok (bs, s2) => .ok (b :: bs, s2)
end

/-- `make_variable_` when none is given, `cse.cc:59-61`. -/
def defaultVar (i : Nat) : Expr F := .var ("v" ++ toString i) .unknown

/-- `visit(expr, cse)`, `cse.cc:105`: the call visits the expression itself, not through the cache. -/
def cseTop (C : CseCfg F) (h : Head F) (as : List (Expr F)) : Res (Expr F × CseSt F) := cseVisit C h as (cseCond C as) (cseKids C as) ⟨[], []⟩

/-- `eliminate_subexpressions`, `cse.cc:98-119`: the new expression and the list of (variable, definition). -/
def cse (K : Ctors F) (m : Nat) (mk : Nat → Expr F) (min : Nat) (e : Expr F) : Res (Expr F × List (Expr F × Expr F)) :=
  match e with
  | .node h as =>
    match cseTop ⟨K, m, (countNode e ⟨[], []⟩).counts, mk, min⟩ h as with
    | .error er => .error er
    | .ok (r, s) => .ok (r, s.repl)

end Wf.Sym
