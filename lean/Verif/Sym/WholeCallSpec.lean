import Verif.Sym.CallSpec
import Verif.Gen.SigSpec

/-!
# Calls of whole functions

The text of a function is its signature, the conversions of arguments and the body. A call passes values, objects and addresses in the order of the arguments.
-/

namespace Wf.Sym
open Wf.Gen.Text (Machine Scoping Argument Cell State Toks Lex PyConfig Actual VarType readCpp readRust readPython bindParams boundState ViewsReadAs BlockReadsAs LinesReadAs
  runViews runConversions runSts)

/-- A call of a C++ function with the signature `sig` and the text `text` ends with the state `e`; `args` and `wanted` say which objects the caller has. -/
def RunsCpp (M : Machine ℂ) (span : Bool) (mod : String) (sig : List Lex) (text : Toks) (args : List Argument) (wanted : String → Bool) (passed : List (Actual ℂ))
    (e : State ℂ) : Prop :=
  ∃ f vs body objs s, readCpp sig = some f ∧ ViewsReadAs text vs body ∧ bindParams f.params passed = some objs ∧
    runViews vs (boundState (.cpp span) args wanted objs) = some s ∧ runSts M ⟨.cpp span, mod⟩ 0 body s = some e

/-- A call of a Rust function. -/
def RunsRust (M : Machine ℂ) (mod : String) (sig : List Lex) (text : Toks) (args : List Argument) (wanted : String → Bool) (passed : List (Actual ℂ)) (e : State ℂ) :
    Prop :=
  ∃ f bs body objs, readRust sig = some (f, bs) ∧ BlockReadsAs .rust text body ∧ bindParams f.params passed = some objs ∧
    runSts M ⟨.rust, mod⟩ 0 body (boundState .rust args wanted objs) = some e

/-- A call of a Python function: the statements are conversions of arguments, and other statements. -/
def RunsPython (M : Machine ℂ) (o : PyConfig) (sig : List Lex) (text : Toks) (args : List Argument) (wanted : String → Bool) (passed : List (Actual ℂ))
    (e : State ℂ) : Prop :=
  ∃ f convs body objs s, readPython sig = some f ∧ LinesReadAs o.indent text (convs ++ body) ∧ bindParams f.params passed = some objs ∧
    runConversions M ⟨.python o.outputArguments, o.expr.module⟩ convs (boundState (.python o.outputArguments) args wanted objs) = some s ∧
    runSts M ⟨.python o.outputArguments, o.expr.module⟩ 0 body s = some e

/-- The same numbers; the array that is passed may have another shape than the type says. Its elements are taken row by row. -/
inductive Reshaped : VarType → Cell ℂ → Cell ℂ → Prop
  | scalar {p x} : Reshaped (.scalar p) (.num x) (.num x)
  | matrix {r c r' c' xs} : r' * c' = r * c → Reshaped (.matrix r c) (.mat r' c' xs) (.mat r c xs)
  | custom {n x} : Reshaped (.custom n) x x

end Wf.Sym
