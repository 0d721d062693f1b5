import Verif.Sym.LowerSpec
import Verif.Gen.AstModel

/-!
# The signature of a function and its outputs
-/

namespace Wf.Sym
open Wf.Gen (Interp AstInfo)

section
variable {F : Type} {info : AstInfo}

/-- The signature fits the outputs: a matrix output argument gets a matrix. -/
def Output.Fits (info : AstInfo) (key : Nat) : Output F → Prop
  | .scalar _ _ => info.usage key ≠ .returnValue → info.kind key = .scalar
  | .matrix r c _ => info.matrix (matrixCode r c) = true ∧ (info.usage key ≠ .returnValue → info.kind key = .matrix)

/-- The signature fits a list of outputs: there is at most one return value. -/
structure Signature (info : AstInfo) (outs : List (Nat × Output F)) : Prop where
  fits : ∀ o ∈ outs, o.2.Fits info o.1
  keys : (outs.map Prod.fst).Nodup
  oneReturn : ∀ o ∈ outs, ∀ o' ∈ outs, info.usage o.1 = .returnValue → info.usage o'.1 = .returnValue → o.1 = o'.1

end

/-- The output is written: optional outputs are written if the caller wants them. -/
def Wanted (info : AstInfo) (I : Interp ℂ) (truth : ℂ → Bool) (key : Nat) : Bool :=
  match info.usage key with
  | .optional => truth (I.f (.outputRequired key) [])
  | _ => true

end Wf.Sym
