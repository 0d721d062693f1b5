import Verif.Sym.CseModel

/-!
# Model of the search for sub-expressions: `get_variables`

`get_expressions_by_predicate`, `utility_visitors.cc:53-93`: a search that goes through the children from left to right, with the set of the
scalar expressions it has seen. The hash set is a list.
-/

namespace Wf.Sym

variable {F : Type} [FnOps F] [DecidableEq F]

/-- `visited_` and `collected_`, `utility_visitors.cc:82-85`. -/
structure SearchSt (F : Type) where
  visited : List (Expr F)
  collected : List (Expr F)

/-- A scalar expression that was not seen before, `utility_visitors.cc:65-68`. -/
def SearchSt.add (p : Expr F → Bool) (s : SearchSt F) (e : Expr F) : SearchSt F :=
  { visited := s.visited ++ [e], collected := if p e then s.collected ++ [e] else s.collected }

mutual
/-- `operator()`, `utility_visitors.cc:62-76`: scalar expressions are tested once; expressions of the other categories are only passed through. -/
def search (p : Expr F → Bool) : Expr F → SearchSt F → SearchSt F
  | .node h as, s =>
    if h.isScalar then
      if s.visited.any (fun v => identical v (.node h as)) then s else searches p as (s.add p (.node h as))
    else searches p as s
/-- `for_each_child`, `expression_iteration.h:21-40`. -/
def searches (p : Expr F → Bool) : List (Expr F) → SearchSt F → SearchSt F
  | [], s => s
  | a :: as, s => searches p as (search p a s)
end

/-- `get_expressions_by_predicate`, `utility_visitors.cc:88-93`: `visit(expr, visitor)` calls the visitor with the node and not with the expression,
so the expression itself is not tested. -/
def getByPredicate (p : Expr F → Bool) (e : Expr F) : List (Expr F) := (searches p e.args ⟨[], []⟩).collected

/-- `get_variables` in Python, `scalar_wrapper.cc:438-445`. -/
def getVariables (e : Expr F) : List (Expr F) := getByPredicate (fun x => x.head.isVar) e

end Wf.Sym
