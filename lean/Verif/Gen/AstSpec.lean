import Verif.Gen.AstModel
import Verif.Gen.FlowSpec

/-!
# What a structured program computes

The usual meaning of a program with local variables and blocks, with nothing taken from the converter: a variable is visible from its declaration to
the end of the block it is declared in; it is an error to declare a visible variable again, to read or assign a variable that is not visible, to read
one that has no value yet, and to assign one that has a value already; nothing is done after a return.
-/

namespace Wf.Gen

/-- The visible variables, with their value if they have one; the outputs written so far; whether the function has returned. -/
structure Store (V : Type) where
  vars : Nat → Option (Option V)
  out : List (Nat × V)
  returned : Bool

/-- At the start no variable is visible. -/
def Store.start {V : Type} : Store V := ⟨fun _ => none, [], false⟩

variable {V : Type} [Arith V]

mutual
/-- The value of an expression. -/
def AExpr.eval (I : Interp V) (vars : Nat → Option (Option V)) : AExpr → Option V
  | .ref v => (vars v).join
  | .app op args => (evalAll I vars args).map (I.f op)

def evalAll (I : Interp V) (vars : Nat → Option (Option V)) : List AExpr → Option (List V)
  | [] => some []
  | e :: es =>
    match e.eval I vars, evalAll I vars es with
    | some x, some xs => some (x :: xs)
    | _, _ => none
end

/-- Leave a block: only the variables that were visible before are visible, with their new values. -/
def Store.leave (before after : Store V) : Store V := { after with vars := fun v => if (before.vars v).isSome then after.vars v else none }

mutual
/-- Run a statement. -/
def Stmt.run (I : Interp V) (truth : V → Bool) : Stmt → Store V → Option (Store V)
  | .decl v e, m =>
    if (m.vars v).isSome then none
    else match e.eval I m.vars with
      | some x => some { m with vars := updateAt m.vars v (some (some x)) }
      | none => none
  | .declare v, m => if (m.vars v).isSome then none else some { m with vars := updateAt m.vars v (some none) }
  | .assign v e, m =>
    match m.vars v with
    | some none =>
      match e.eval I m.vars with
      | some x => some { m with vars := updateAt m.vars v (some (some x)) }
      | none => none
    | _ => none
  | .output key e, m =>
    match e.eval I m.vars with
    | some x => some { m with out := m.out ++ [(key, x)] }
    | none => none
  | .ret key e, m =>
    match e.eval I m.vars with
    | some x => some { m with out := m.out ++ [(key, x)], returned := true }
    | none => none
  | .branch c t e, m =>
    match c.eval I m.vars with
    | some x =>
      match if truth x then runAll I truth t m else runAll I truth e m with
      | some m' => some (m.leave m')
      | none => none
    | none => none
  | .optional key t, m =>
    if truth (I.f (.outputRequired key) []) then
      match runAll I truth t m with
      | some m' => some (m.leave m')
      | none => none
    else some m

/-- Run statements in order, until the function returns. -/
def runAll (I : Interp V) (truth : V → Bool) : List Stmt → Store V → Option (Store V)
  | [], m => some m
  | st :: ss, m =>
    if m.returned then some m
    else match st.run I truth m with
      | some m' => runAll I truth ss m'
      | none => none
end

/-- What the converter may assume about the types of its input: the only element of a scalar is taken from the result of an external function; an
output matrix is made by a constructor; every output is written once; there is at most one return value. -/
structure Typed (info : AstInfo) (g : Graph) : Prop where
  scalarGet : ∀ v ∈ g.ops, ∀ i, (g.node v).op = .get i → info.scalarGet i = true → ∃ a f, (g.node v).args = [a] ∧ (g.node a).op = .callExternal f
  matrix : ∀ v ∈ g.ops, ∀ key, (g.node v).op = .save key → info.usage key ≠ .returnValue → info.kind key = .matrix → ∀ a ∈ (g.node v).args,
    ∃ t, (g.node a).op = .construct t ∧ info.matrix t = true
  once : ∀ v ∈ g.ops, ∀ w ∈ g.ops, ∀ key, (g.node v).op = .save key → (g.node w).op = .save key → v = w
  oneReturn : ∀ v ∈ g.ops, ∀ w ∈ g.ops, ∀ key key', (g.node v).op = .save key → (g.node w).op = .save key' → info.usage key = .returnValue →
    info.usage key' = .returnValue → v = w

/-- Every output struct is made by a constructor that is used for nothing else. -/
def OwnStructs (info : AstInfo) (g : Graph) : Prop :=
  ∀ v ∈ g.ops, ∀ key, (g.node v).op = .save key → info.usage key ≠ .returnValue → info.kind key = .struct → ∀ a ∈ (g.node v).args,
    (∃ t, (g.node a).op = .construct t ∧ info.matrix t = false) ∧ ∀ w ∈ g.ops, a ∈ (g.node w).args → w = v

end Wf.Gen
