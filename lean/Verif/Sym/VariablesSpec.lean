import Verif.Sym.VariablesModel

/-!
# Occurrences
-/

namespace Wf.Sym

variable {F : Type}

/-- The expression is `e` or a part of it. -/
inductive Occurs (v : Expr F) : Expr F → Prop
  | here : Occurs v v
  | inside (h : Head F) (as : List (Expr F)) (a : Expr F) : a ∈ as → Occurs v a → Occurs v (.node h as)

mutual
/-- The expression and its parts, each before its own parts, from left to right. -/
def parts : Expr F → List (Expr F)
  | .node h as => .node h as :: partsL as
/-- The parts of several expressions. -/
def partsL : List (Expr F) → List (Expr F)
  | [] => []
  | a :: as => parts a ++ partsL as
end

/-- Each element once, where it first occurs. -/
def firsts [DecidableEq F] : List (Expr F) → List (Expr F) := fun l => l.foldl (fun r x => if x ∈ r then r else r ++ [x]) []

end Wf.Sym
