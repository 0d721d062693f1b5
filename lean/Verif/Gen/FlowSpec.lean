import Verif.Gen.FlowModel
import Verif.Gen.GraphSpec

/-!
# What a program with several blocks computes

Independent of the conversion: the blocks are run one after another, from the first block, following the jumps. Reading a value that has not been
computed is an error (`none`).
-/

namespace Wf.Gen

/-- The values computed so far, and the operations done so far in their order. -/
structure Machine (V : Type) where
  env : Nat → Option V
  done : List Nat

/-- Before the first operation nothing is computed. -/
def Machine.start {V : Type} : Machine V := ⟨fun _ => none, []⟩

variable {V : Type} [Arith V]

/-- The value of one operation of the block `b` entered from `pred`. A phi function reads the operand at the place that `pred` has among the
ancestors of the block. -/
def opValue (I : Interp V) (s : Conv) (pred : Option Nat) (b : Nat) (env : Nat → Option V) (v : Nat) : Option V :=
  if (s.node v).op = .phi then
    pred.bind fun p => ((s.node v).args[(s.anc b).idxOf p]?).bind env
  else ((s.node v).args.mapM env).map (I.f (s.node v).op)

/-- Run operations of the block `b` in order. -/
def execOps (I : Interp V) (s : Conv) (pred : Option Nat) (b : Nat) : List Nat → Machine V → Option (Machine V)
  | [], m => some m
  | v :: vs, m =>
    match opValue I s pred b m.env v with
    | some x => execOps I s pred b vs ⟨updateAt m.env v (some x), m.done ++ [v]⟩
    | none => none

/-- The value that the jump at the end of the block tests. -/
def jumpCondition (s : Conv) (b : Nat) : Option Nat :=
  match (s.ops b).getLast? with
  | some u => if (s.node u).op = .jump then (s.node u).args.head? else none
  | none => none

/-- Run from a block to the end. After a block without descendants the program stops; a block with one descendant goes on there; a block with
two ends in a jump and goes to the first descendant if the condition holds. The number bounds the number of blocks. -/
def exec (I : Interp V) (truth : V → Bool) (s : Conv) : Nat → Option Nat → Nat → Machine V → Option (Machine V)
  | 0, _, _, _ => none
  | n + 1, pred, b, m =>
    match execOps I s pred b (s.ops b) m with
    | none => none
    | some m =>
      match s.desc b with
      | [] => some m
      | [d] => exec I truth s n (some b) d m
      | [d, e] =>
        match (jumpCondition s b).bind m.env with
        | some x => exec I truth s n (some b) (if truth x then d else e) m
        | none => none
      | _ => none

/-- A conditional selects the second or the third operand by the truth of the first. -/
def Selects (I : Interp V) (truth : V → Bool) : Prop := ∀ c a b, I.f .cond [c, a, b] = if truth c then a else b

/-- The operations done include one that writes `x` to the output `key`. -/
def Machine.Writes (m : Machine V) (s : Conv) (key : Nat) (x : V) : Prop :=
  ∃ v ∈ m.done, (s.node v).op = .save key ∧ (s.node v).args.map m.env = [some x]

/-- The operation `w` is not an output and is used only at the operand places `P` (consumer, index) and by operations of that kind. -/
inductive OnlyFor (g : Graph) (P : Nat → Nat → Prop) : Nat → Prop
  | intro (w : Nat) : w ∈ g.ops → (∀ k, (g.node w).op ≠ .save k) →
      (∀ u ∈ g.ops, ∀ j : Nat, (g.node u).args[j]? = some w → ¬ P u j → OnlyFor g P u) → OnlyFor g P w

/-- What the converter may assume about its input (besides `WF` and `InOrder`): every operation is an output or has a consumer (C35), outputs
are not operands, a conditional has three operands and there is no control flow yet. -/
structure Convertible (g : Graph) : Prop where
  used : ∀ v ∈ g.ops, (∃ k, (g.node v).op = .save k) ∨ ∃ u ∈ g.ops, v ∈ (g.node u).args
  sinks : ∀ v ∈ g.ops, ∀ a ∈ (g.node v).args, ∀ k, (g.node a).op ≠ .save k
  cond : ∀ v ∈ g.ops, (g.node v).op = .cond → (g.node v).args.length = 3
  flat : ∀ v ∈ g.ops, (g.node v).op ≠ .phi ∧ (g.node v).op ≠ .jump ∧ ∀ n, (g.node v).op ≠ .outputRequired n

end Wf.Gen
