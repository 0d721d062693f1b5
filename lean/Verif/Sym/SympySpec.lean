import Verif.Sym.SympyModel
import Verif.Sym.ChainSpec

/-!
# Specification: the meaning of SymPy expressions

A SymPy expression denotes a complex number under an assignment of numbers to symbols and of functions to undefined functions, or nothing. This is
part of the trusted base: it says what SymPy's classes mean.
-/

namespace Wf.Sym
open Complex Filter Topology

variable {F : Type} [DecidableEq F] [FloatSem F]

/-- Values of the symbols and of the undefined functions. -/
structure SpEnv where
  sym : SpSym → Option ℂ
  fn : String → List ℂ → Option ℂ

/-- The assignment with other values of some symbols. -/
def SpEnv.set (σ : SpEnv) (s : SpSym) (z : ℂ) : SpEnv := { σ with sym := fun x => if x = s then some z else σ.sym x }
@[inherit_doc SpEnv.set] def SpEnv.setAll (σ : SpEnv) : List (SpSym × ℂ) → SpEnv
  | [] => σ
  | (s, z) :: l => (σ.setAll l).set s z

/-- The mathematical function. -/
def SpFn.meaning : SpFn → BuiltIn
  | .cos => .cos | .sin => .sin | .tan => .tan | .acos => .arccos | .asin => .arcsin | .atan => .arctan | .cosh => .cosh | .sinh => .sinh
  | .tanh => .tanh | .acosh => .arccosh | .asinh => .arcsinh | .atanh => .arctanh | .exp => .exp | .log => .log | .Abs => .abs | .sign => .signum
  | .floor => .floor | .atan2 => .arctan2

/-- Powers; `zz` is the value of `0 ** 0`, which is one in SymPy. -/
noncomputable def spPow (zz : Option ℂ) (z w : ℂ) : Option ℂ := if z = 0 ∧ w = 0 then zz else powVal z w

open Classical in
/-- The greatest, or the least, of real numbers. -/
noncomputable def extremeO (pick : ℝ → ℝ → ℝ) (vs : List (Option ℂ)) : Option ℂ :=
  (seqO vs).bind fun zs =>
    match zs with
    | [] => none
    | z :: zs => if ∀ w ∈ z :: zs, w.im = 0 then some ((zs.map Complex.re).foldl pick z.re : ℝ) else none

/-- The value of the first pair whose condition is true. -/
noncomputable def pieceO : List (Option ℂ) → Option ℂ
  | v :: c :: rest => condO c v (pieceO rest)
  | _ => none

/-- The value of a relation: one or zero. -/
noncomputable def spRelVal : SpRel → ℂ → ℂ → Option ℂ
  | .lt, a, b => if a.im = 0 ∧ b.im = 0 then some (if a.re < b.re then 1 else 0) else none
  | .le, a, b => if a.im = 0 ∧ b.im = 0 then some (if a.re ≤ b.re then 1 else 0) else none
  | .gt, a, b => if a.im = 0 ∧ b.im = 0 then some (if b.re < a.re then 1 else 0) else none
  | .ge, a, b => if a.im = 0 ∧ b.im = 0 then some (if b.re ≤ a.re then 1 else 0) else none
  | .eq, a, b => some (if a = b then 1 else 0)

open Classical in
/-- The Heaviside function: `h` at zero. -/
noncomputable def heavisideO (x h : Option ℂ) : Option ℂ :=
  x.bind fun z => if z.im = 0 then (if 0 < z.re then some 1 else if z.re < 0 then some 0 else h) else none

/-- `z` is the derivative of `φ` with respect to the symbol `s`. -/
def IsSpDeriv (s : SpSym) (φ : SpEnv → Option ℂ) (σ : SpEnv) (z : ℂ) : Prop :=
  ∃ (t₀ : ℝ) (g : ℝ → ℂ), σ.sym s = some (t₀ : ℂ) ∧ (∀ᶠ t : ℝ in 𝓝 t₀, φ (σ.set s (t : ℂ)) = some (g t)) ∧ HasDerivAt g z t₀

open Classical in
/-- The derivative of order `n`. -/
noncomputable def spDeriv (s : SpSym) : Nat → (SpEnv → Option ℂ) → SpEnv → Option ℂ
  | 0, φ => φ
  | n + 1, φ => fun σ => if h : ∃ z, IsSpDeriv s (spDeriv s n φ) σ z then some h.choose else none

/-- Derivatives with respect to several symbols, one after the other. -/
noncomputable def spDerivs : List (SpSym × Nat) → (SpEnv → Option ℂ) → SpEnv → Option ℂ
  | [], φ => φ
  | (s, n) :: l, φ => spDerivs l (spDeriv s n φ)

/-- The symbols, if all the expressions are symbols. -/
def symsOf : List (Sp F) → Option (List SpSym)
  | [] => some []
  | .node (.symbol s) [] :: l => (symsOf l).map (s :: ·)
  | _ :: _ => none

/-- A derivative: the first argument is the function, the others are the symbols. -/
noncomputable def spDerivNode (ns : List Nat) (as : List (Sp F)) (fs : List (SpEnv → Option ℂ)) (σ : SpEnv) : Option ℂ :=
  match fs, symsOf as.tail with
  | f :: _, some xs => if xs.length = ns.length then spDerivs (xs.zip ns) f σ else none
  | _, _ => none

/-- A substitution: all symbols are replaced at the same time. -/
noncomputable def spSubsNode (n : Nat) (as : List (Sp F)) (fs : List (SpEnv → Option ℂ)) (σ : SpEnv) : Option ℂ :=
  match fs, symsOf (as.tail.take n), seqO ((fs.tail.drop n).map fun g => g σ) with
  | f :: _, some xs, some zs => if xs.length = n ∧ zs.length = n then f (σ.setAll (xs.zip zs)) else none
  | _, _, _ => none

/-- The value of a node whose value is determined by the values of its arguments. -/
noncomputable def spVal (zz : Option ℂ) (σ : SpEnv) (h : SpHead F) (vs : List (Option ℂ)) : Option ℂ :=
  match h, vs with
  | .add, vs => sumO vs
  | .mul, vs => prodO vs
  | .pow, [a, b] => a.bind fun z => b.bind fun w => spPow zz z w
  | .fn f, vs => (seqO vs).bind (fnVal f.meaning)
  | .max, vs => extremeO max vs
  | .min, vs => extremeO min vs
  | .piecewise, vs => pieceO vs
  | .flt f, [] => (FloatSem.val f).map (fun x : ℝ => (x : ℂ))
  | .integer n, [] => some (n : ℂ)
  | .rational p q, [] => some (((p : ℚ) / (q : ℚ) : ℚ) : ℂ)
  | .I, [] => some Complex.I
  | .E, [] => some ((Real.exp 1 : ℝ) : ℂ)
  | .pi, [] => some ((Real.pi : ℝ) : ℂ)
  | .true, [] => some 1
  | .false, [] => some 0
  | .rel r, [a, b] => a.bind fun x => b.bind fun y => spRelVal r x y
  | .heaviside, [x, h] => heavisideO x h
  | .symbol s, [] => σ.sym s
  | .applied n _, vs => (seqO vs).bind (σ.fn n)
  | .unevaluated, [v] => v
  | _, _ => none

/-- The value of a node from its arguments and their values. -/
noncomputable def spNode (zz : Option ℂ) (h : SpHead F) (as : List (Sp F)) (fs : List (SpEnv → Option ℂ)) (σ : SpEnv) : Option ℂ :=
  match h with
  | .deriv ns => spDerivNode ns as fs σ
  | .subs n => spSubsNode n as fs σ
  | h => spVal zz σ h (fs.map fun f => f σ)

mutual
/-- The value of a SymPy expression. -/
noncomputable def spEval (zz : Option ℂ) : Sp F → SpEnv → Option ℂ
  | .node h as => spNode zz h as (spEvals zz as)
/-- The values of several SymPy expressions. -/
noncomputable def spEvals (zz : Option ℂ) : List (Sp F) → List (SpEnv → Option ℂ)
  | [] => []
  | a :: as => spEval zz a :: spEvals zz as
end

/-! ## Corresponding symbols -/

/-- What SymPy knows of a symbol in the number set. -/
def NSet.asm : NSet → SpAsm
  | .positive => ⟨true, true, true, true, 0⟩
  | .nonNegative => ⟨false, true, true, true, 0⟩
  | .real => ⟨false, false, true, true, 0⟩
  | .complex => ⟨false, false, false, true, 0⟩
  | .unknown => ⟨false, false, false, false, 0⟩

/-- The smallest number set that is known to contain the symbol. -/
def SpSym.set (s : SpSym) : NSet :=
  if s.asm.positive then .positive else if s.asm.nonnegative then .nonNegative else if s.asm.real then .real
  else if s.asm.complex then .complex else .unknown

/-- The variable that corresponds to a symbol. -/
def SpSym.head (s : SpSym) : Head F := .var s.name s.set

/-- A name without characters that SymPy's `symbols` takes apart. -/
def PlainName (n : String) : Prop := n ≠ "" ∧ ∀ c ∈ n.toList, isSymbolChar c = true

/-- A variable and the symbol with its name and its number set have the same values, and functions mean the same. -/
structure SameValues (ρ : Env F) (σ : SpEnv) : Prop where
  sym : ∀ n s, PlainName n → σ.sym ⟨n, s.asm⟩ = ρ.leaf (.var n s)
  fn : σ.fn = ρ.symfn

/-- The symbols in `A` have the values of the corresponding variables, and functions mean the same. -/
structure SameValuesOn (A : SpSym → Prop) (ρ : Env F) (σ : SpEnv) : Prop where
  sym : ∀ s, A s → ρ.leaf s.head = σ.sym s
  fn : ρ.symfn = σ.fn

/-- The expressions whose conversion to SymPy is covered: names of variables are plain, deferred derivatives and substitutions are with respect to
variables, conditions are not constants, and the argument of an Iverson bracket is a boolean expression (as its type demands). -/
def ToSympyNode (h : Head F) (as : List (Expr F)) : Prop :=
  match h, as with
  | .var n _, _ => PlainName n
  | .deriv n, [_, x] => n ≠ 0 ∧ ∃ v : Head F, v.isVar = true ∧ x = .node v []
  | .subst, [_, x, _] => ∃ v : Head F, v.isVar = true ∧ x = .node v []
  | .cond, [c, _, _] => ∀ b, c ≠ .bconst b
  | .iverson, [c] => isBoolean c = true
  | _, _ => True

/-- The symbols as expressions. -/
def symbolArgs (xs : List SpSym) : List (Sp F) := xs.map fun x => .node (.symbol x) []

/-- The nodes whose conversion is covered: symbols are in `A`; derivatives are with respect to symbols in `B`, and substitutions replace one
symbol, in `C`. -/
def SpOverNode (A B C : SpSym → Prop) (h : SpHead F) (as : List (Sp F)) : Prop :=
  match h with
  | .symbol s => A s ∧ as = []
  | .deriv ns => ∃ f xs, as = f :: symbolArgs xs ∧ xs.length = ns.length ∧ ∀ x ∈ xs, A x ∧ B x
  | .subs n => n = 1 ∧ ∃ e x p, as = [e, .node (.symbol x) [], p] ∧ A x ∧ C x
  | _ => True

mutual
/-- All nodes are covered. -/
def SpOver (A B C : SpSym → Prop) : Sp F → Prop
  | .node h as => SpOverNode A B C h as ∧ SpOvers A B C as
@[inherit_doc SpOver] def SpOvers (A B C : SpSym → Prop) : List (Sp F) → Prop
  | [] => True
  | a :: as => SpOver A B C a ∧ SpOvers A B C as
end

/-- The assignments `S` allow small changes of the real symbols in `B` and all changes of the symbols in `C`. -/
structure Allows (S : Env F → Prop) (B C : SpSym → Prop) : Prop where
  near : ∀ (ρ : Env F) s (t₀ : ℝ), S ρ → B s → ρ.leaf s.head = some (t₀ : ℂ) → ∀ᶠ t : ℝ in 𝓝 t₀, S (ρ.setVar (.node s.head []) (t : ℂ))
  all : ∀ (ρ : Env F) s z, S ρ → C s → S (ρ.setVar (.node s.head []) z)

/-- Different symbols in `A` correspond to different variables. -/
def Apart (A : SpSym → Prop) : Prop := ∀ s t, A s → A t → s.name = t.name → s.set = t.set → s = t

/-- The variables of derivatives are in `B` and those of substitutions are in `C`. -/
def ChangesNode (B C : SpSym → Prop) (h : Head F) (as : List (Expr F)) : Prop :=
  match h, as with
  | .deriv _, [_, x] => ∀ n s, x = .var n s → B ⟨n, s.asm⟩
  | .subst, [_, x, _] => ∀ n s, x = .var n s → C ⟨n, s.asm⟩
  | _, _ => True

/-- The kinds of expressions that have a counterpart in SymPy. -/
def Exported : Head F → Prop
  | .argVar _ _ _ | .uniq _ _ | .elem _ | .stop | .matrix _ _ | .call _ | .typeArg _ _ | .construct _ => False
  | _ => True

/-- The numbers of arguments, where the conversion depends on them. -/
def ArityNode (h : Head F) (as : List (Expr F)) : Prop :=
  match h with
  | .deriv _ => as.length = 2
  | .subst => as.length = 3
  | .iverson => as.length = 1
  | _ => True

end Wf.Sym
