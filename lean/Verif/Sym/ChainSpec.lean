import Verif.Sym.ChainModel
import Verif.Sym.DerivativeSpec
import Verif.Sym.SubstituteLemmas
import Mathlib.Analysis.Calculus.FDeriv.Basic
import Mathlib.Analysis.Calculus.FDeriv.Pi

/-!
# Specification: deferred derivatives and substitutions, and functions with partial derivatives
-/

namespace Wf.Sym
open Complex Filter Topology

variable {F : Type} [DecidableEq F] [FloatSem F]

/-- The assignment with other values of the variables. -/
def Env.withLeaf (ρ : Env F) (leaf : Head F → Option ℂ) : Env F := { ρ with leaf := leaf }

/-- Deferred substitutions and derivatives with respect to a variable mean what they say: a substitution has the value of its input where the variable
has the value of the replacement, and the derivative of order `n + 1` has a value exactly where the derivative of order `n` is a differentiable
function of the variable, and this value is the derivative. -/
structure Calculus (ρ : Env F) : Prop where
  subst : ∀ leaf (e r : Expr F) (x : Head F), x.isVar = true →
    ρ.opaq leaf (.subst e (.node x []) r) = (eval (ρ.withLeaf leaf) r).bind fun z => eval ((ρ.withLeaf leaf).setVar (.node x []) z) e
  deriv : ∀ leaf (e : Expr F) (x : Head F) (z : ℂ), x.isVar = true → (ρ.opaq leaf (.deriv e (.node x []) 1) = some z ↔
    ∃ (t₀ : ℝ) (g : ℝ → ℂ), leaf x = some (t₀ : ℂ) ∧ (∀ᶠ t in 𝓝 t₀, eval (along (ρ.withLeaf leaf) (.node x []) t) e = some (g t)) ∧ HasDerivAt g z t₀)
  higher : ∀ leaf (e : Expr F) (x : Head F) (n : Nat) (z : ℂ), x.isVar = true → (ρ.opaq leaf (.deriv e (.node x []) (n + 2)) = some z ↔
    ∃ (t₀ : ℝ) (g : ℝ → ℂ), leaf x = some (t₀ : ℂ) ∧
      (∀ᶠ t in 𝓝 t₀, eval (along (ρ.withLeaf leaf) (.node x []) t) (.deriv e (.node x []) (n + 1)) = some (g t)) ∧ HasDerivAt g z t₀)

/-- The variables that are made are new. -/
def IsFresh (fresh : Expr F → Nat → Nat) : Prop := ∀ e i s, Avoids (.node (.uniq (fresh e i) s) []) e

/-- The arguments `as` of the declared function `n` are interpreted expressions that are real near `t₀`, and the function is differentiable, as a
function of as many real variables, at their values. -/
structure FnSmooth (ρ : ℝ → Env F) (t₀ : ℝ) (n : String) (as : List (Expr F)) : Prop where
  plain : ∀ a ∈ as, Plain a
  real : ∀ a ∈ as, RealNear ρ t₀ a
  diff : ∃ (f : (Fin as.length → ℝ) → ℂ) (p₀ : Fin as.length → ℝ), (∀ i, eval (ρ t₀) as[i] = some (p₀ i : ℂ)) ∧ DifferentiableAt ℝ f p₀ ∧
    ∀ᶠ p in 𝓝 p₀, (ρ t₀).symfn n (List.ofFn fun i => (p i : ℂ)) = some (f p)

/-- The value of the expression is a differentiable function at `t₀`. -/
def ValueSmooth (ρ : ℝ → Env F) (t₀ : ℝ) (e : Expr F) : Prop :=
  ∃ (g : ℝ → ℂ) (g' : ℂ), (∀ᶠ t in 𝓝 t₀, eval (ρ t) e = some (g t)) ∧ HasDerivAt g g' t₀

/-- Invocations of declared functions with smooth arguments are differentiable. -/
def DeclaredFn (ρ : ℝ → Env F) (t₀ : ℝ) (e : Expr F) (cs : List (Expr F)) : Prop := ∃ n, e = .symfn n cs ∧ FnSmooth ρ t₀ n cs

/-- Deferred derivatives of expressions in which variables have no children, whose value is differentiable. -/
def DeclaredDeriv (ρ : ℝ → Env F) (v : Head F) (t₀ : ℝ) (e : Expr F) (cs : List (Expr F)) : Prop :=
  ∃ f x n, e = .deriv f (.node x []) (n + 1) ∧ cs = [] ∧ x.isVar = true ∧ Over (fun h as => h.isVar = true → as = []) f ∧
    (Plain f ∨ ¬ Avoids (.node v []) f) ∧ ValueSmooth ρ t₀ e

/-- Deferred substitutions for the variable itself, whose value is differentiable. -/
def DeclaredOwn (ρ : ℝ → Env F) (v : Head F) (t₀ : ℝ) (e : Expr F) (cs : List (Expr F)) : Prop :=
  ∃ i r, e = .subst i (.node v []) r ∧ cs = [] ∧ ValueSmooth ρ t₀ e

/-- The nodes beyond C15 that are differentiable as functions of the variable `v` at `t₀`: invocations of declared functions with smooth arguments,
deferred derivatives, deferred substitutions for `v`, and deferred substitutions for another variable whose input is differentiable as a function of
`v` and of the variable that is replaced, together and each on its own. The number bounds the nesting of such substitutions. -/
def Declared (S : Env F → Prop) : Nat → NonDiff → Env F → Head F → ℝ → Expr F → List (Expr F) → Prop
  | 0, _, ρ, v, t₀, e, cs =>
    DeclaredFn (along ρ (.node v [])) t₀ e cs ∨ DeclaredDeriv (along ρ (.node v [])) v t₀ e cs ∨ DeclaredOwn (along ρ (.node v [])) v t₀ e cs
  | k + 1, beh, ρ, v, t₀, e, cs =>
    DeclaredFn (along ρ (.node v [])) t₀ e cs ∨ DeclaredDeriv (along ρ (.node v [])) v t₀ e cs ∨ DeclaredOwn (along ρ (.node v [])) v t₀ e cs ∨
    ∃ (i r : Expr F) (y : Head F) (s₀ : ℝ), e = .subst i (.node y []) r ∧ cs = [r] ∧ y.isVar = true ∧ y ≠ v ∧
      RealNear (along ρ (.node v [])) t₀ r ∧ eval (along ρ (.node v []) t₀) r = some (s₀ : ℂ) ∧
      (∃ Φ : ℝ × ℝ → ℂ, DifferentiableAt ℝ Φ (s₀, t₀) ∧
        ∀ᶠ p in 𝓝 (s₀, t₀), eval ((along ρ (.node v []) p.2).setVar (.node y []) (p.1 : ℂ)) i = some (Φ p)) ∧
      S ((along ρ (.node v []) t₀).setVar (.node y []) (s₀ : ℂ)) ∧
      Smooth (Declared S k beh (ρ.setVar (.node y []) (s₀ : ℂ)) v t₀) beh S (along (ρ.setVar (.node y []) (s₀ : ℂ)) (.node v [])) t₀ i ∧
      Smooth (Declared S k .constant (along ρ (.node v []) t₀) y s₀) .constant S (along (along ρ (.node v []) t₀) (.node y [])) s₀ i

end Wf.Sym
