import Verif.Gen.GraphModel
import Mathlib.Algebra.BigOperators.Group.List.Basic
import Mathlib.Algebra.Ring.Defs
import Mathlib.Data.Int.Cast.Basic

/-!
# What an intermediate program computes

Independent of the passes: a program is run operation by operation, in the order of the block.
-/

namespace Wf.Gen

/-- Arithmetic in which not everything need have a value: the laws of a commutative ring except `0 * a = 0` and `a + -a = 0`, which fail if `a` is
undefined. Every commutative ring is an example, and so is a commutative ring with the additional value "undefined" (`Option`). -/
class Arith (V : Type) extends AddCommMonoid V, CommMonoid V, Neg V, IntCast V where
  mul_add : ∀ a b c : V, a * (b + c) = a * b + a * c
  neg_eq : ∀ a : V, -a = -1 * a
  neg_one_sq : (-1 : V) * -1 = 1
  cast_one : ((1 : Int) : V) = 1
  cast_neg_one : ((-1 : Int) : V) = -1

instance (priority := 50) Arith.ofCommRing (V : Type) [CommRing V] : Arith V where
  mul_add := _root_.mul_add
  neg_eq a := (neg_one_mul a).symm
  neg_one_sq := by rw [neg_mul_neg, one_mul]
  cast_one := Int.cast_one
  cast_neg_one := by rw [Int.cast_neg, Int.cast_one]

/-- An interpretation of the operations, in exact arithmetic. Operations other than sums, products, negation, copies, integer constants and casts of
integers are arbitrary functions; in arithmetic with undefined values they may be partial functions. Values that are not numbers (Booleans, matrices,
structs) can be represented by indeterminates of a polynomial ring, so a ring is no restriction. -/
structure Interp (V : Type) [Arith V] where
  f : Op → List V → V
  add : ∀ l, f .add l = l.sum
  mul : ∀ l, f .mul l = l.prod
  neg : ∀ x, f .neg [x] = -x
  copy : ∀ x, f .copy [x] = x
  int : ∀ n : Int, f (.load (.int n)) [] = n
  cast : ∀ t (n : Int), f (.cast t) [(n : V)] = n

variable {V : Type} [Arith V]

/-- Run the operations in order, starting from `ρ`. -/
def runFrom (I : Interp V) (g : Graph) : (Nat → V) → List Nat → Nat → V
  | ρ, [] => ρ
  | ρ, v :: vs => runFrom I g (fun i => if i = v then I.f (g.node v).op ((g.node v).args.map ρ) else ρ i) vs

/-- All values computed by the program. -/
def run (I : Interp V) (g : Graph) : Nat → V := runFrom I g (fun _ => 0) g.ops

/-- The program writes `x` to the output `key`. -/
def Writes (I : Interp V) (g : Graph) (key : Nat) (x : V) : Prop :=
  ∃ v ∈ g.ops, (g.node v).op = .save key ∧ (g.node v).args.map (run I g) = [x]

/-- Every operation comes after its operands. -/
def InOrder (g : Graph) : Prop := ∀ l v l', g.ops = l ++ v :: l' → ∀ a ∈ (g.node v).args, a ∈ l

/-- The structural rules every block satisfies (`assert_invariants`, `control_flow_graph.cc:868-896`, and the operand counts of `ir_types.h`):
names are distinct and below the next free name, operands are in the block, sums and products have at least two operands in increasing
order of name, the other arithmetic operations have their fixed number of operands. -/
structure WF (g : Graph) : Prop where
  nodup : g.ops.Nodup
  lt : ∀ v ∈ g.ops, v < g.next
  closed : ∀ v ∈ g.ops, ∀ a ∈ (g.node v).args, a ∈ g.ops
  arity : ∀ v ∈ g.ops, (g.node v).op.commutative = true → 2 ≤ (g.node v).args.length
  sorted : ∀ v ∈ g.ops, (g.node v).op.commutative = true → (g.node v).args.Pairwise (· ≤ ·)
  unary : ∀ v ∈ g.ops, (g.node v).op = .neg ∨ (g.node v).op = .copy ∨ (∃ t, (g.node v).op = .cast t) ∨ (∃ k, (g.node v).op = .save k) →
    (g.node v).args.length = 1
  nullary : ∀ v ∈ g.ops, ∀ l, (g.node v).op = .load l → (g.node v).args = []

/-- Two programs write the same values to the same outputs, in every interpretation. -/
def SameOutputs (g g' : Graph) : Prop := ∀ (V : Type) [Arith V] (I : Interp V) (key : Nat) (x : V), Writes I g' key x ↔ Writes I g key x

end Wf.Gen
