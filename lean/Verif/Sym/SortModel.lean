import Verif.Sym.ExprModel

/-! # C82: `sym.compare` and sorting with it -/

namespace Wf.Sym.Sort

variable {F : Type}

/-- The number behind a relative order. Models `enum class relative_order : int`, components/core/wf/utility/ordering.h:16-23. -/
def number : Ordering → Int
  | .lt => -1
  | .eq => 0
  | .gt => 1

/-- `sym.compare(a, b)`: the order of the two expressions as a number. Models components/wrapper/pywrenfold/scalar_wrapper.cc:330-336. -/
def compareE [FloatCmp F] (a b : Expr F) : Res Int :=
  match order a b with
  | .ok o => .ok (number o)
  | .error e => .error e

/-- Insert an expression into a list: it goes in front of the first one it belongs before. Models one step of Python's `sorted` with
`key=functools.cmp_to_key(sym.compare)` (used so in components/wrapper/tests/expression_wrapper_test.py:182-186), where `a < b` asks whether
`sym.compare(a, b)` is negative. Simplification: Python finds the place by binary search, and merges runs of long lists; here the list is
searched from the front. -/
def insertE [FloatCmp F] (a : Expr F) : List (Expr F) → Res (List (Expr F))
  | [] => .ok [a]
  | b :: bs => do
    let c ← compareE a b
    if c < 0 then return a :: b :: bs
    let rest ← insertE a bs
    return b :: rest

/-- `sorted(es, key=functools.cmp_to_key(sym.compare))`, with the simplification of `insertE`. -/
def sortE [FloatCmp F] : List (Expr F) → List (Expr F) → Res (List (Expr F))
  | done, [] => .ok done
  | done, a :: as => do
    let done ← insertE a done
    sortE done as

end Wf.Sym.Sort
