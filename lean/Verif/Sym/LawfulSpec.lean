import Verif.Sym.EvalSpec
import Verif.Sym.NumberSetModel

/-!
# Specification: lawful use of the power rules

`(b ** e) ** f = b ** (e * f)`, `(a * b) ** e = a ** e * b ** e` and `exp(a) ** b = exp(a * b)` are not laws of the complex numbers. The code
decides whether to use them from the number sets of the operands.
-/

namespace Wf.Sym

variable {F : Type} [DecidableEq F] [FloatSem F]

/-- The code computes `r`, and the same result is reached if the power rules are used only where they are laws under the assignment `ρ`.
(`run` is a call of a constructor, `n` the depth of nested calls.) -/
structure LawfulRun (ρ : Env F) (n : Nat) (run : Ctors F → Res (Expr F)) (r : Expr F) : Prop where
  code : run (ctors codeLic n) = .ok r
  lawful : ∃ lic : Lic F, lic.TrueAt ρ ∧ run (ctors lic n) = .ok r

/-- The same for a call that asks the sign questions itself, and for several assignments (those that satisfy `S`). -/
structure LawfulRunOn {α : Type} (S : Env F → Prop) (n : Nat) (run : Lic F → Ctors F → Res α) (r : α) : Prop where
  code : run codeLic (ctors codeLic n) = .ok r
  lawful : ∃ lic : Lic F, (∀ ρ, S ρ → lic.TrueAt ρ) ∧ run lic (ctors lic n) = .ok r

/-- No power rule that needs a licence is used. -/
def noLic : Lic F where
  mulExp _ _ := false
  nonneg _ := false
  expReal _ := false
  floatPow _ _ := false

theorem noLic_true (ρ : Env F) : (noLic : Lic F).TrueAt ρ where
  mulExp _ _ h := by simp [noLic] at h
  nonneg _ h := by simp [noLic] at h
  expReal _ h := by simp [noLic] at h
  floatPow _ _ h := by simp [noLic] at h

end Wf.Sym
