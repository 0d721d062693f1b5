import Verif.Sym.LowerModel
import Verif.Sym.FunctionSpec
import Verif.Sym.LawfulSpec
import Verif.Gen.GraphSpec

/-!
# What the lowered program has to compute

The program is run in exact complex arithmetic: an interpretation of the operations over the complex numbers agrees with an assignment if every
operation computes what its name says wherever that has a value, and loads give the values of the leaves. Where an operation has no value
(a division by zero, a logarithm of zero) the interpretation is arbitrary.
-/

namespace Wf.Sym
open Complex
open Wf.Gen (Prim Interp)

variable {F : Type} [DecidableEq F] [FnSem F]

/-- The number is a value of the numeric type. -/
def HasTy : Prim → ℂ → Prop
  | .boolean, z => z = 0 ∨ z = 1
  | .integral, z => ∃ n : ℤ, z = n
  | .floating, _ => True

/-- Every function argument declared as an integer or a Boolean has such a value. -/
def TypedEnv (ρ : Env F) : Prop := ∀ n i t z, ρ.leaf (.argVar n i t) = some z → HasTy t z

/-- The operations compute what their names say. -/
structure Agrees (I : Interp ℂ) (ρ : Env F) (leaves : List (Expr F)) : Prop where
  leaf : ∀ k e z, leaves[k]? = some e → eval ρ e = some z → I.f (.load (.other k)) [] = z
  fn : ∀ f zs z, fnVal f zs = some z → I.f (.callStd (Std.fn f).code) zs = z
  sqrt : ∀ a z, powVal a (1 / 2) = some z → I.f (.callStd Std.sqrt.code) [a] = z
  powf : ∀ a b z, powVal a b = some z → I.f (.callStd Std.powf.code) [a, b] = z
  powi : ∀ a (n : ℤ) z, powVal a n = some z → I.f (.callStd Std.powi.code) [a, (n : ℂ)] = z
  div : ∀ a b, b ≠ 0 → I.f .div [a, b] = a / b
  condTrue : ∀ a b, I.f .cond [1, a, b] = a
  condFalse : ∀ a b, I.f .cond [0, a, b] = b
  rel : ∀ op a b z, relVal op a b = some z → I.f (.compare (relCode op)) [a, b] = z
  toFloat : ∀ a, I.f (.cast (primCode .floating)) [a] = a

/-- The complex numbers in an arithmetic with further values. -/
structure Numbers {V : Type} [Gen.Arith V] (ι : ℂ → V) : Prop where
  zero : ι 0 = 0
  one : ι 1 = 1
  add : ∀ a b, ι (a + b) = ι a + ι b
  mul : ∀ a b, ι (a * b) = ι a * ι b
  int : ∀ n : ℤ, ι n = (n : V)

/-- The operations compute what their names say, in an arithmetic that contains the complex numbers. -/
structure AgreesIn {V : Type} [Gen.Arith V] (ι : ℂ → V) (I : Interp V) (ρ : Env F) (leaves : List (Expr F)) : Prop where
  num : Numbers ι
  leaf : ∀ k e z, leaves[k]? = some e → eval ρ e = some z → I.f (.load (.other k)) [] = ι z
  fn : ∀ f zs z, fnVal f zs = some z → I.f (.callStd (Std.fn f).code) (zs.map ι) = ι z
  sqrt : ∀ a z, powVal a (1 / 2) = some z → I.f (.callStd Std.sqrt.code) [ι a] = ι z
  powf : ∀ a b z, powVal a b = some z → I.f (.callStd Std.powf.code) [ι a, ι b] = ι z
  powi : ∀ a (n : ℤ) z, powVal a n = some z → I.f (.callStd Std.powi.code) [ι a, ι n] = ι z
  div : ∀ a b, b ≠ 0 → I.f .div [ι a, ι b] = ι (a / b)
  condTrue : ∀ a b, I.f .cond [ι 1, a, b] = a
  condFalse : ∀ a b, I.f .cond [ι 0, a, b] = b
  rel : ∀ op a b z, relVal op a b = some z → I.f (.compare (relCode op)) [ι a, ι b] = ι z
  toFloat : ∀ a, I.f (.cast (primCode .floating)) [ι a] = ι a

/-- A power that is written as a reciprocal does not have base zero and an exponent that is positive in spite of its negative
coefficient (as `x ** -y` for `x = 0` and negative `y`), and `floor` and `signum` are used on real numbers. -/
def NotesOk (ρ : Env F) (notes : List (Note F)) : Prop :=
  (∀ b e, .recip b e ∈ notes → ∀ w, eval ρ b = some 0 → eval ρ e = some w → w.re ≤ 0) ∧
  ∀ x, .realArg x ∈ notes → ∀ z, eval ρ x = some z → z.im = 0

/-- `x` is what the output should be: a scalar has the value of its expression, which is a value of its declared type; a matrix is the
matrix of the values of its elements. -/
def OutputValue (I : Interp ℂ) (ρ : Env F) : Output F → ℂ → Prop
  | .scalar e t, x => eval ρ e = some x ∧ HasTy t x
  | .matrix r c es, x => ∃ zs, List.Forall₂ (fun e z => eval ρ e = some z) es zs ∧ x = I.f (.construct (matrixCode r c)) zs

/-- The same in an arithmetic that contains the complex numbers. -/
def OutputValueIn {V : Type} [Gen.Arith V] (ι : ℂ → V) (I : Interp V) (ρ : Env F) : Output F → V → Prop
  | .scalar e t, x => ∃ z, eval ρ e = some z ∧ HasTy t z ∧ x = ι z
  | .matrix r c es, x => ∃ zs : List ℂ, List.Forall₂ (fun e z => eval ρ e = some z) es zs ∧ x = I.f (.construct (matrixCode r c)) (zs.map ι)

/-- The output an operation writes. -/
def savedKey : Gen.Op → Option Nat
  | .save k => some k
  | _ => none

/-- The outputs the program writes, in order. -/
def written (g : Gen.Graph) : List Nat := g.ops.filterMap fun v => savedKey (g.node v).op

/-- The expressions of an output. -/
def Output.exprs : Output F → List (Expr F)
  | .scalar e _ => [e]
  | .matrix _ _ es => es

/-- The types fit together: the operands of sums and products have the type of the result, divisions and powers are made of floating-point
numbers, the branches of a conditional have one type and so have the two sides of a comparison. -/
def TyOk (op : Gen.Op) (t : Prim) (ts : List Prim) : Prop :=
  match op with
  | .add => ∀ a ∈ ts, a = t
  | .mul => ∀ a ∈ ts, a = t
  | .div => t = .floating ∧ ts = [.floating, .floating]
  | .cond => ∃ c, ts = [c, t, t]
  | .compare _ => t = .boolean ∧ ∃ a, ts = [a, a]
  | .cast c => c = primCode t
  | .callStd k => (k = Std.sqrt.code → t = .floating ∧ ts = [.floating]) ∧ (k = Std.powf.code → t = .floating ∧ ts = [.floating, .floating]) ∧
    (k = Std.powi.code → t = .floating ∧ ts = [.floating, .integral])
  | .construct _ => ∀ a ∈ ts, a = .floating
  | .load (.int _) => t = .integral
  | _ => True

/-- The types of a program fit together. -/
def WellTyped (s : Low F) : Prop := ∀ v ∈ s.g.ops, TyOk (s.g.node v).op (s.ty v) ((s.g.node v).args.map s.ty)

/-- The lowered program as a list: its operations with their names and types, the next free name, the leaves and the notes. -/
structure Listing (F : Type) where
  ops : List (Nat × Gen.Node × Prim)
  next : Nat
  leaves : List (Expr F)
  notes : List (Note F)
deriving DecidableEq

def Low.listing (s : Low F) : Listing F := ⟨s.g.ops.map fun v => (v, s.g.node v, s.ty v), s.g.next, s.leaves, s.notes⟩

/-- The program lowers the outputs to `s`, and every power rule it uses on the way is a law under the assignment `ρ` (a run in which only rules
that are laws are allowed gives the same program). -/
structure LawfulLowering (ρ : Env F) (nK m n : Nat) (outs : List (Nat × Output F)) (s : Low F) : Prop where
  code : lowerFunction (ctors codeLic nK) m n Low.empty outs = .ok s
  lawful : ∃ lic : Lic F, lic.TrueAt ρ ∧ (lowerFunction (ctors lic nK) m n Low.empty outs).map Low.listing = .ok s.listing

end Wf.Sym
