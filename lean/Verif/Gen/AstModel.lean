import Verif.Gen.FlowModel

/-!
# Model of the conversion of blocks to structured code: `ast_conversion.{h,cc}`, with `find_merge_point` of `ir_block.cc`

The input is the state of `FlowModel.lean` after the conversion to control flow. Differences from the text of the code:

* The statements of a block are returned instead of being appended to `operations_` (and stashed by `process_nested_block`, 284-297).
* Parentheses (`visit_operation_argument`, 372-374) are left out: C41 is about them. The comment with the operation counts (101) is left out.
* The grouping of the operands of `ir::construct` into nested constructors (`type_constructor`, 42-84), the access sequences of `ir::get` (524-541) and the
  look-up of arguments by name are left out; their assertions compare a value with its own type or with the signature.
* A variable is identified by the number of its value (`format_variable_name`, `ast_conversion.h:67-69`, is injective: the number with leading zeros).
* Loops and recursive calls have a bound on the number of turns, which the theorems show to be large enough.
-/

namespace Wf.Gen

/-- The expressions of `ast.h`: a `variable_ref` to the variable of a value, or an operation. -/
inductive AExpr
  | ref (v : Nat)
  | app (op : Op) (args : List AExpr)

/-- The statements of `ast.h`: `declaration` with and without a value, `assign_temporary`, `assign_output_{scalar,matrix,struct}`, `return_object`,
`branch` and `optional_output_branch`. -/
inductive Stmt
  | decl (v : Nat) (e : AExpr)
  | declare (v : Nat)
  | assign (v : Nat) (e : AExpr)
  | output (key : Nat) (e : AExpr)
  | ret (key : Nat) (e : AExpr)
  | branch (c : AExpr) (t e : List Stmt)
  | optional (key : Nat) (t : List Stmt)

/-- The type of an output argument. -/
inductive OutKind
  | scalar | matrix | struct
deriving DecidableEq, Repr

/-- What the converter reads from types and from the signature. Loads other than integers, types of constructors and element numbers are identified
by numbers in `Op`. -/
structure AstInfo where
  /-- The load is a float, a symbolic constant or a struct argument. -/
  constant : Nat → Bool
  /-- The load is an element of an argument. -/
  argument : Nat → Bool
  /-- The constructor makes a matrix (and not a struct). -/
  matrix : Nat → Bool
  /-- The element is the only element of a scalar. -/
  scalarGet : Nat → Bool
  /-- The usage of an output. -/
  usage : Nat → Usage
  /-- The type of an output argument. -/
  kind : Nat → OutKind

namespace Conv

/-- `consumers()`, `ir_value.h:140`, with repetitions: an operation that lists the value twice is there twice. Ordered by name, as in
`ordered_consumers`, `ir_value.h:170`. -/
def uses (s : Conv) (v : Nat) : List Nat := s.live.flatMap fun u => ((s.node u).args.filter (· = v)).map fun _ => u

/-- `is_phi`, `ir_value.h:111`. -/
def isPhi (s : Conv) (v : Nat) : Bool := (s.node v).op == .phi

/-- `all_consumers_satisfy` with `is_phi`. -/
def onlyPhis (s : Conv) (v : Nat) : Bool := (s.uses v).all s.isPhi

/-- The phi functions among the results of `find_conditional_output_values`: the last lines, 36-38. -/
def ownTarget (s : Conv) (v : Nat) : List Nat := if !s.onlyPhis v && s.isPhi v then [v] else []

/-- `find_conditional_output_values`, `ast_conversion.cc:24-39`. -/
def targets (s : Conv) : Nat → Nat → Res (List Nat)
  | 0, _ => .error .terminate
  | n + 1, v =>
    match ((s.uses v).filter s.isPhi).mapM (targets s n) with
    | .error e => .error e
    | .ok ls => .ok (ls.flatten ++ s.ownTarget v)

/-- `should_inline_constant`, `ast_conversion.cc:183-192`. -/
def inlined (info : AstInfo) (s : Conv) : Nat → Nat → Res Bool
  | 0, _ => .error .terminate
  | n + 1, v =>
    match (s.node v).op, (s.node v).args with
    | .load (.int _), _ => .ok true
    | .load (.other k), _ => .ok (info.constant k)
    | .cast _, a :: _ => inlined info s n a
    | .cast _, [] => .error .assertion
    | _, _ => .ok false

/-- `is_argument_read_operation`, `ast_conversion.cc:195-200`. -/
def readsArgument (info : AstInfo) (s : Conv) (v : Nat) : Bool :=
  match (s.node v).op with
  | .load (.other k) => info.argument k
  | _ => false

/-- `is_output_matrix_construction`, `ast_conversion.cc:202-211`. -/
def outputMatrix (info : AstInfo) (s : Conv) (v : Nat) : Bool :=
  (s.uses v).any (fun u => (saveKey (s.node u).op).isSome) &&
    match (s.node v).op with
    | .construct t => info.matrix t
    | _ => false

/-- `needs_declaration`, `ast_conversion.cc:241-256`. -/
def needsDeclaration (info : AstInfo) (s : Conv) (v : Nat) (phis : List Nat) (inl : Bool) : Bool :=
  (s.readsArgument info v || (!inl && (1 < ((s.uses v).filter fun u => !s.isPhi u).length || 1 < phis.length))) && !s.outputMatrix info v

/-- The operations that have no representation: `ast_conversion.cc:228-236`. -/
def silent : Op → Bool
  | .save _ => true
  | .phi => true
  | .jump => true
  | .outputRequired _ => true
  | _ => false

/-- `visit_value`, `ast_conversion.cc:355-368`, and the conversions of the operations, 390-498. The last argument of `visit_operation_argument` (370-381)
is not used. -/
def visitValue (info : AstInfo) (s : Conv) (declared : Nat → Bool) : Nat → Nat → Res AExpr
  | 0, _ => .error .terminate
  | n + 1, v =>
    if silent (s.node v).op then .error .type
    else match (s.node v).op, (s.node v).args with
      | .copy, a :: _ => if declared a then .ok (.ref a) else visitValue info s declared n a
      | .copy, [] => .error .assertion
      | .get i, args =>
        if info.scalarGet i then
          match args with
          | a :: _ => visitValue info s declared n a
          | [] => .error .assertion
        else match args.mapM fun a => if declared a then .ok (.ref a) else visitValue info s declared n a with
          | .ok es => .ok (.app (.get i) es)
          | .error e => .error e
      | op, args =>
        if op = .mul ∧ args.length < 2 then .error .assertion
        else match args.mapM fun a => if declared a then .ok (.ref a) else visitValue info s declared n a with
          | .ok es => .ok (.app op es)
          | .error e => .error e

/-- `visit_operation_argument`, `ast_conversion.cc:370-381`. -/
def visitArgument (info : AstInfo) (s : Conv) (declared : Nat → Bool) (n a : Nat) : Res AExpr :=
  if declared a then .ok (.ref a) else s.visitValue info declared n a

/-- The turn of the loop of `process_block` for one value that is computed, `ast_conversion.cc:237-272`: the declared values, the declaration and the
assignments to outputs of conditionals. -/
def visitOne (info : AstInfo) (s : Conv) (fuel : Nat) (d : Nat → Bool) (v : Nat) : Res ((Nat → Bool) × List Stmt × List (Nat × AExpr)) :=
  match s.targets fuel v with
  | .error e => .error e
  | .ok phis =>
    match s.inlined info fuel v with
    | .error e => .error e
    | .ok inl =>
      if s.needsDeclaration info v phis inl then
        match s.visitValue info (updateAt d v true) fuel v with
        | .error e => .error e
        | .ok rhs => .ok (updateAt d v true, [.decl v rhs], phis.map fun p => (p, .ref v))
      else
        match s.visitValue info d fuel v with
        | .error e => .error e
        | .ok rhs => .ok (d, [], phis.map fun p => (p, rhs))

/-- The loop of `process_block`, `ast_conversion.cc:213-282`. -/
def visitOps (info : AstInfo) (s : Conv) (fuel : Nat) : (Nat → Bool) → List Nat → Res ((Nat → Bool) × List Stmt × List (Nat × AExpr))
  | d, [] => .ok (d, [], [])
  | d, v :: vs =>
    if silent (s.node v).op then visitOps info s fuel d vs
    else match s.visitOne info fuel d v with
      | .error e => .error e
      | .ok p =>
        match visitOps info s fuel p.1 vs with
        | .error e => .error e
        | .ok q => .ok (q.1, p.2.1 ++ q.2.1, p.2.2 ++ q.2.2)

/-- `push_back_conditional_assignments`, `ast_conversion.cc:107-114`: sorted by the name of the variable. -/
def assignments (l : List (Nat × AExpr)) : List Stmt := (l.insertionSort fun p q => p.1 ≤ q.1).map fun p => .assign p.1 p.2

/-- The expression is a constructor of a matrix, or of a struct: `get_if` of `ast_visitor.h:40-50`, whose result is checked when it is read
(`checked_pointers.h:187-195`). -/
def isConstruct (info : AstInfo) (mat : Bool) : AExpr → Bool
  | .app (.construct t) _ => info.matrix t == mat
  | _ => false

/-- One turn of `push_back_output_operations`, `ast_conversion.cc:121-147`. -/
def outputOne (info : AstInfo) (s : Conv) (fuel : Nat) (d : Nat → Bool) (b key : Nat) (args : List Nat) : Res Stmt :=
  match args with
  | [a] =>
    match s.visitArgument info d fuel a with
    | .error e => .error e
    | .ok e =>
      if info.usage key = .returnValue then
        if s.desc b = [] then .ok (.ret key e) else .error .assertion
      else match info.kind key with
        | .scalar => .ok (.output key e)
        | .matrix => if isConstruct info true e then .ok (.output key e) else .error .assertion
        | .struct => if isConstruct info false e then .ok (.output key e) else .error .assertion
  | _ => .error .assertion

/-- `push_back_output_operations`, `ast_conversion.cc:116-149`. -/
def outputs (info : AstInfo) (s : Conv) (fuel : Nat) (d : Nat → Bool) (b : Nat) : List Nat → Res (List Stmt)
  | [] => .ok []
  | v :: vs =>
    match saveKey (s.node v).op with
    | none => outputs info s fuel d b vs
    | some key =>
      match s.outputOne info fuel d b key (s.node v).args with
      | .error e => .error e
      | .ok st =>
        match outputs info s fuel d b vs with
        | .error e => .error e
        | .ok ss => .ok (st :: ss)

/-- `push_back_conditional_output_declarations`, `ast_conversion.cc:165-179`: the phi functions that get a declaration. -/
def declaredPhis (s : Conv) (b : Nat) : List Nat := (s.ops b).filter fun v => s.isPhi v && !s.onlyPhis v

/-- `declared_values_.insert`. -/
def declareAll (d : Nat → Bool) (vs : List Nat) : Nat → Bool := fun v => d v || vs.contains v

/-- The loop of `find_merge_point`, `ir_block.cc:64-95`, in the downward direction. -/
def mergeLoop (desc : Nat → List Nat) : Nat → List (Nat × Bool) → (Nat → Option Bool) → Res Nat
  | _, [], _ => .error .assertion
  | 0, _ :: _, _ => .error .terminate
  | n + 1, (b, color) :: queue, visited =>
    match visited b with
    | none => mergeLoop desc n (queue ++ (desc b).map fun c => (c, color)) (updateAt visited b (some color))
    | some c =>
      if c = color then mergeLoop desc n (queue ++ (desc b).map fun c => (c, color)) visited
      else .ok b

/-- `find_merge_point`, `ir_block.cc:64-95`. -/
def mergePoint (s : Conv) (left right : Nat) : Res Nat := mergeLoop s.desc (2 ^ (s.blocks + 2)) [(left, true), (right, false)] fun _ => none

/-- `declared_values_` and `non_traversable_blocks_`, `ast_conversion.h:117-118`. -/
structure AstState where
  declared : Nat → Bool
  blocked : List Nat

/-- The operations of `process_block`, `ast_conversion.cc:213-279` without the test at the start, and up to the assignments and outputs at the end. -/
def blockBody (info : AstInfo) (s : Conv) (d : Nat → Bool) (b : Nat) : Res ((Nat → Bool) × List Stmt) :=
  if s.desc b ≠ [] ∧ s.ops b = [] then .error .assertion
  else
    match s.visitOps info (s.live.length + 1) d (s.ops b) with
    | .error e => .error e
    | .ok p =>
      match s.outputs info (s.live.length + 1) p.1 b (s.ops b) with
      | .error e => .error e
      | .ok os => .ok (p.1, p.2.1 ++ assignments p.2.2 ++ os)

/-- `process_block` with `handle_control_flow`, `ast_conversion.cc:213-353`. -/
def processBlock (info : AstInfo) (s : Conv) : Nat → AstState → Nat → Res (AstState × List Stmt)
  | 0, _, _ => .error .terminate
  | n + 1, st, b =>
    if b ∈ st.blocked then .ok (st, [])
    else
      match s.blockBody info st.declared b with
      | .error e => .error e
      | .ok body =>
        match s.desc b with
        | [] => .ok (⟨body.1, st.blocked⟩, body.2)
        | d :: ds =>
          match s.endsInJump b, ds with
          | false, [] =>
            match processBlock info s n ⟨body.1, st.blocked⟩ d with
            | .error e => .error e
            | .ok r => .ok (r.1, body.2 ++ r.2)
          | true, [e] =>
            match s.mergePoint d e with
            | .error e => .error e
            | .ok m =>
              match processBlock info s n ⟨declareAll body.1 (s.declaredPhis m), if m ∈ st.blocked then st.blocked else m :: st.blocked⟩ d with
              | .error e => .error e
              | .ok t =>
                match jumpTarget s b with
                | none => .error .assertion
                | some c =>
                  match (s.node c).op with
                  | .outputRequired key =>
                    match processBlock info s n ⟨t.1.declared, t.1.blocked.filter (· ≠ m)⟩ m with
                    | .error e => .error e
                    | .ok r => .ok (r.1, body.2 ++ (s.declaredPhis m).map .declare ++ [.optional key t.2] ++ r.2)
                  | _ =>
                    match processBlock info s n t.1 e with
                    | .error e => .error e
                    | .ok f =>
                      match s.visitArgument info f.1.declared (s.live.length + 1) c with
                      | .error e => .error e
                      | .ok ce =>
                        match processBlock info s n ⟨f.1.declared, f.1.blocked.filter (· ≠ m)⟩ m with
                        | .error e => .error e
                        | .ok r => .ok (r.1, body.2 ++ (s.declaredPhis m).map .declare ++ [.branch ce t.2 f.2] ++ r.2)
          | _, _ => .error .assertion
where
  /-- The operand of the last operation of the block. -/
  jumpTarget (s : Conv) (b : Nat) : Option Nat := (s.ops b).getLast?.bind fun u => (s.node u).args.head?

/-- `create_ast`, `ast_conversion.cc:561-566`, with `convert_function`, 99-105. -/
def createAst (info : AstInfo) (s : Conv) (entry : Nat) : Res (List Stmt) :=
  (s.processBlock info (s.blocks + 1) ⟨fun _ => false, []⟩ entry).map (·.2)

end Conv

end Wf.Gen
