import Verif.Gen.CountModel
import Verif.Gen.AstSpec

/-!
# How many operations a program does

Independent of the counting: an operation with its operands is so many elementary operations of a kind, and a run does the operations on its way.
-/

namespace Wf.Gen

/-- The elementary operations of one operation with the given number of operands: a sum of `n` terms is `n - 1` additions. -/
def Op.work : Op → Nat → OpLabel → Nat
  | .add, n, .add => n - 1
  | .mul, n, .multiply => n - 1
  | .div, _, .divide => 1
  | .neg, _, .negate => 1
  | .compare _, _, .compare => 1
  | .callStd _, _, .call => 1
  | .callExternal _, _, .call => 1
  | .jump, _, .branch => 1
  | _, _, _ => 0

/-- The elementary operations done by a list of operations. -/
def Conv.work (s : Conv) (l : List Nat) (label : OpLabel) : Nat := (l.map fun v => (s.node v).op.work (s.node v).args.length label).sum

/-- The ways through the blocks, from a block to an end. -/
inductive Walk (desc : Nat → List Nat) : Nat → List Nat → Prop
  | stop {b : Nat} : desc b = [] → Walk desc b [b]
  | step {b d : Nat} {bs : List Nat} : d ∈ desc b → Walk desc d bs → Walk desc b (b :: bs)

mutual
/-- The elementary operations in an expression of the structured program. -/
def AExpr.work (label : OpLabel) : AExpr → Nat
  | .ref _ => 0
  | .app op args => op.work args.length label + worksOf label args

def worksOf (label : OpLabel) : List AExpr → Nat
  | [] => 0
  | e :: es => e.work label + worksOf label es
end

variable {V : Type} [Arith V]

mutual
/-- The elementary operations that running a statement does. -/
def Stmt.work (I : Interp V) (truth : V → Bool) (label : OpLabel) : Stmt → Store V → Nat
  | .decl _ e, _ => e.work label
  | .declare _, _ => 0
  | .assign _ e, _ => e.work label
  | .output _ e, _ => e.work label
  | .ret _ e, _ => e.work label
  | .branch c t e, m =>
    (if label = .branch then 1 else 0) + c.work label +
      match c.eval I m.vars with
      | some x => if truth x then workAll I truth label t m else workAll I truth label e m
      | none => 0
  | .optional key t, m => (if label = .branch then 1 else 0) + if truth (I.f (.outputRequired key) []) then workAll I truth label t m else 0

/-- The elementary operations that running statements does. -/
def workAll (I : Interp V) (truth : V → Bool) (label : OpLabel) : List Stmt → Store V → Nat
  | [], _ => 0
  | st :: ss, m =>
    if m.returned then 0
    else st.work I truth label m +
      match st.run I truth m with
      | some m' => workAll I truth label ss m'
      | none => 0
end

end Wf.Gen
