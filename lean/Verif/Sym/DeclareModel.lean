import Verif.Sym.SympyModel

/-! # C83: `sym.rational`, `sym.symbol` and `sym.make_symbols` -/

namespace Wf.Sym.Declare

variable {F : Type}

/-- `create_symbol`, `wrapper/pywrenfold/scalar_wrapper.cc:100-105`. -/
def symbol (name : String) (set : NSet) : Res (Expr F) :=
  if name.isEmpty then .error .invalidArgument else .ok (.var name set)

/-- `create_many_symbols_sequence`, `scalar_wrapper.cc:107-111`: `make_symbols` with a sequence of names. -/
def makeSymbols (set : NSet) : List String → Res (List (Expr F))
  | [] => .ok []
  | n :: ns => do
    let v ← symbol n set
    let vs ← makeSymbols set ns
    return v :: vs

/-- `create_many_symbols_args`, `scalar_wrapper.cc:113-122`: `make_symbols` with any number of arguments. An argument that is not a string is
`none`. -/
def makeSymbolsArgs (set : NSet) : List (Option String) → Res (List (Expr F))
  | [] => .ok []
  | none :: _ => .error .type
  | some n :: ns => do
    let v ← symbol n set
    let vs ← makeSymbolsArgs set ns
    return v :: vs

end Wf.Sym.Declare
