import Verif.Sym.LowerModel
import Verif.Gen.FactorizeModel
import Verif.Gen.AstModel

/-!
# From the outputs of a function to structured code

Follows `transpile_to_ast`, `components/wrapper/pywrenfold/codegen_wrapper.cc:30-37`, and the constructor of `control_flow_graph` that it calls,
`components/core/wf/code_generation/control_flow_graph.cc:136-170`.
-/

namespace Wf.Sym
open Wf.Gen (Graph AstInfo Stmt)

variable {F : Type} [FnOps F] [DecidableEq F]

/-- The options: `optimization_params`, `control_flow_graph.h:15-21`, and the argument `convert_ternaries`. -/
structure Options where
  passes : Nat
  binarize : Bool
  ternaries : Bool

/-- The optimisation of the lowered program, its conversion to blocks, and the conversion of the blocks to statements: `control_flow_graph.cc:167-169`,
`codegen_wrapper.cc:34-36`. `fuel` bounds the rounds of `binarize_operations`, `cast` is the type that factorisation gives to new constants (see
`FactorizeModel.lean`). -/
def finish (info : AstInfo) (opt : Options) (cast : Graph → Nat → Option Nat) (fuel : Nat) (g : Graph) : Res (List Stmt) :=
  match g.applySimplifications cast opt.passes opt.binarize fuel with
  | .error e => .error e
  | .ok g' =>
    match Gen.Conv.convert g' info.usage opt.ternaries with
    | .error e => .error e
    | .ok p => Gen.Conv.createAst info p.1 p.2

/-- `transpile_to_ast`, `codegen_wrapper.cc:30-37`. The outputs are in the order in which the constructor of `control_flow_graph` adds them (143-163): the
output arguments, then the return value. `K`, `m` and `n` as for `lowerFunction`. -/
def transpile (K : Ctors F) (m n : Nat) (info : AstInfo) (opt : Options) (cast : Graph → Nat → Option Nat) (fuel : Nat) (outs : List (Nat × Output F)) :
    Res (List Stmt) :=
  match lowerFunction K m n Low.empty outs with
  | .error e => .error e
  | .ok s => finish info opt cast fuel s.g

end Wf.Sym
