import Verif.Base
import Mathlib.Data.List.Sort

/-!
# Model of the intermediate representation: `ir_types.h`, `ir_value.{h,cc}`, `ir_block.{h,cc}` and the editing passes of `control_flow_graph.cc`

Before conditionals are converted there is a single block. A graph is a map from names to nodes (`values_`, where the name is the index), the
block's list of operations and the next free name. The consumer lists of `ir_value.h` are not stored here: `ConsumerProps.lean` (C43) proves
that they mirror the operand lists, so "the consumers of v" are the operations that list v as operand. The cached type of a value is not
modelled, because no pass decides anything from it except `maybe_cast`, which is modelled by a Boolean.
-/

namespace Wf.Gen

/-- Contents of `ir::load`, `ir_types.h:199-235`: an integer constant, or any other leaf (identified by a number). -/
inductive Load
  | int (n : Int)
  | other (k : Nat)
deriving DecidableEq, Repr

/-- `ir::operation`, `ir_types.h:17-333`. Function names, types, keys and indices are identified by numbers. -/
inductive Op
  | add | mul | neg | div | copy | cond | phi | jump
  | load (l : Load)
  | cast (t : Nat)
  | compare (r : Nat)
  | callStd (f : Nat)
  | callExternal (f : Nat)
  | construct (t : Nat)
  | get (i : Nat)
  | outputRequired (n : Nat)
  | save (key : Nat)
deriving DecidableEq, Repr

/-- `is_commutative`, `ir_types.h` (true for `add` and `mul` only). -/
def Op.commutative : Op → Bool
  | .add => true
  | .mul => true
  | _ => false

/-- `ir::save` and `ir::jump_condition` are sinks, `ir_value.h:192-194`. -/
def Op.isSink : Op → Bool
  | .save _ => true
  | .jump => true
  | _ => false

/-- The operation and operands of `ir::value`, `ir_value.h:61-262`. -/
structure Node where
  op : Op
  args : List Nat
deriving DecidableEq, Repr

/-- The operand order chosen by `post_init_steps` and `maybe_sort_operands`, `ir_value.h:231-249`, `ir_value.cc:129-134`. -/
def mkNode (op : Op) (args : List Nat) : Node := ⟨op, if op.commutative then args.insertionSort (· ≤ ·) else args⟩

/-- `control_flow_graph` with one block. -/
structure Graph where
  node : Nat → Node
  ops : List Nat
  next : Nat

/-- Overwrite the node of `v`. -/
def Graph.setNode (g : Graph) (v : Nat) (n : Node) : Graph := { g with node := fun i => if i = v then n else g.node i }

/-- `push_value` followed by `operations.push_back`, `control_flow_graph.cc:898-907`: the new value and the new graph. -/
def Graph.push (g : Graph) (op : Op) (args : List Nat) : Graph × Nat :=
  ({ node := fun i => if i = g.next then mkNode op args else g.node i, ops := g.ops ++ [g.next], next := g.next + 1 }, g.next)

/-- `replace_operand`, `ir_value.cc:20-30`. -/
def replaceArg (old new : Nat) (n : Node) : Node :=
  if old ∈ n.args then mkNode n.op (n.args.map fun a => if a = old then new else a) else n

/-- `replace_with`, `ir_value.cc:98-104`: every consumer of `v` is rewired to `w`. -/
def Graph.replaceWith (g : Graph) (v w : Nat) : Res Graph :=
  if v = w then .error .assertion else .ok { g with node := fun i => replaceArg v w (g.node i) }

/-- `is_unused`, `ir_value.h:192-194`: no operation lists `v`, and `v` is not a sink. -/
def Graph.isUnused (g : Graph) (v : Nat) : Bool := (g.ops.all fun u => !(g.node u).args.contains v) && !(g.node v).op.isSink

/-- `remove`, `ir_value.cc:106-115`: the operand list is cleared (the consumer list is empty when this is called). -/
def Graph.remove (g : Graph) (v : Nat) : Graph := g.setNode v ⟨(g.node v).op, []⟩

/-- `reverse_remove_if(operations, &remove_if_unused)`, `utility/algorithms.h:126-133`, `control_flow_graph.cc:238-244`: from the last to the
first operation; removed operations keep their place in `ops` (with no operands) until the list is replaced. -/
def reverseRemove (g : Graph) : List Nat → Graph × List Nat
  | [] => (g, [])
  | v :: vs =>
    let r := reverseRemove g vs
    if r.1.isUnused v then (r.1.remove v, r.2) else (r.1, v :: r.2)

/-- `reverse_remove_if` on the block, followed by `set_operations`; also `remove_unused_operations`, `ir_block.cc:51-59`. -/
def Graph.removeUnused (g : Graph) : Graph :=
  let r := reverseRemove g g.ops
  { r.1 with ops := r.2 }

/-- `is_consumed_by_phi`, `ir_value.cc:15-18`. -/
def Graph.consumedByPhi (g : Graph) (v : Nat) : Bool := g.ops.any fun u => (g.node u).op == .phi && (g.node u).args.contains v

/-- `local_value_numbering`, `control_flow_graph.cc:220-236`. The hash table is the list of values inserted so far; `value_equality_struct`
(127-134) compares the operation and the operand pointers. -/
def lvnLoop (g : Graph) (table : List Nat) : List Nat → Res Graph
  | [] => .ok g
  | v :: vs =>
    match table.find? fun u => g.node u == g.node v with
    | some u =>
      if g.consumedByPhi v then lvnLoop (g.setNode v ⟨.copy, [u]⟩) table vs
      else match g.replaceWith v u with
        | .ok g' => lvnLoop g' table vs
        | .error e => .error e
    | none => lvnLoop g (v :: table) vs

/-- `eliminate_duplicates`, `control_flow_graph.cc:246-259`. -/
def Graph.eliminateDuplicates (g : Graph) : Res Graph :=
  match lvnLoop g [] g.ops with
  | .ok g' => .ok g'.removeUnused
  | .error e => .error e

/-- `eliminate_needless_copies`, `control_flow_graph.cc:261-277`, with one block (the copied value is always in the same block). -/
def copiesLoop (g : Graph) : List Nat → Res (Graph × List Nat)
  | [] => .ok (g, [])
  | v :: vs =>
    match g.node v with
    | ⟨.copy, u :: _⟩ =>
      match g.replaceWith v u with
      | .ok g' => copiesLoop (g'.remove v) vs
      | .error e => .error e
    | ⟨.copy, []⟩ => .error .assertion
    | _ =>
      match copiesLoop g vs with
      | .ok (g', kept) => .ok (g', v :: kept)
      | .error e => .error e

def Graph.eliminateCopies (g : Graph) : Res Graph :=
  match copiesLoop g g.ops with
  | .ok (g', kept) => .ok { g' with ops := kept }
  | .error e => .error e

/-! ## Topological sort -/

/-- Insertion in a queue ordered by name (`std::priority_queue` taking the smallest name first). -/
def queueInsert (v : Nat) (q : List Nat) : List Nat := q.orderedInsert (· ≤ ·) v

/-- The consumers of `top` in the block, each as often as it uses `top`; `control_flow_graph.cc:314-325`. The order of the consumer list does not
matter, because the queue is ordered by name. -/
def Graph.consumersOf (g : Graph) (v : Nat) : List Nat := g.ops.filter fun u => (g.node u).args.contains v

/-- The loop of `topological_sort_values`, `control_flow_graph.cc:303-327`. `all` is the content of the block; `out` is in reverse order.
The fuel bounds the number of iterations; exhausting it is reported as an error and proved not to happen. -/
def topoLoop (g : Graph) : Nat → List Nat → List Nat → Res (List Nat)
  | _, [], out => .ok out
  | 0, _ :: _, _ => .error .terminate
  | fuel + 1, top :: queue, out =>
    if out.contains top then topoLoop g fuel queue out
    else
      let out := top :: out
      let ready := (g.consumersOf top).filter fun c => (g.node c).args.all fun a => out.contains a
      topoLoop g fuel (ready.foldl (fun q c => queueInsert c q) queue) out

/-- `topological_sort_values`, `control_flow_graph.cc:279-330`. -/
def Graph.topologicalSort (g : Graph) : Res Graph :=
  let initial := (g.ops.filter fun v => (g.node v).args.all fun a => !g.ops.contains a).foldl (fun q c => queueInsert c q) []
  match topoLoop g (g.ops.length * g.ops.length + g.ops.length) initial [] with
  | .ok out => if out.length = g.ops.length then .ok { g with ops := out.reverse } else .error .assertion
  | .error e => .error e

/-! ## Negation insertion -/

/-- `value_is_negative_one`, `control_flow_graph.cc:652-662`. The fuel bounds the length of a chain of casts. -/
def isNegOne (g : Graph) : Nat → Nat → Bool
  | 0, _ => false
  | fuel + 1, v =>
    match g.node v with
    | ⟨.load (.int n), _⟩ => n == -1
    | ⟨.cast _, a :: _⟩ => isNegOne g fuel a
    | _ => false

/-- The product of the factors other than -1, or the single one, `control_flow_graph.cc:684-692`. -/
def productOf (g : Graph) : List Nat → Graph × Nat
  | [x] => (g, x)
  | l => g.push .mul l

/-- One iteration of `insert_negations`, `control_flow_graph.cc:668-705`. -/
def negationStep (g : Graph) (v : Nat) : Res Graph :=
  if (g.node v).op ≠ .mul then .ok g
  else
    let others := (g.node v).args.filter fun a => !isNegOne g (g.next + 1) a
    let count := (g.node v).args.length - others.length
    if count = 0 ∨ others = [] then .ok g
    else
      let r := productOf g others
      if count % 2 = 1 then
        let s := r.1.push .neg [r.2]
        s.1.replaceWith v s.2
      else r.1.replaceWith v r.2

/-- A loop over a fixed list of operations. -/
def forOps (f : Graph → Nat → Res Graph) (g : Graph) : List Nat → Res Graph
  | [] => .ok g
  | v :: vs =>
    match f g v with
    | .ok g' => forOps f g' vs
    | .error e => .error e

/-- `insert_negations`, `control_flow_graph.cc:664-712`. -/
def Graph.insertNegations (g : Graph) : Res Graph :=
  match forOps negationStep g g.ops with
  | .ok g' => g'.removeUnused.topologicalSort
  | .error e => .error e

/-! ## Merging nested products -/

/-- One iteration of `merge_multiplications_in_block`, `control_flow_graph.cc:625-650`. -/
def mergeStep (g : Graph) (v : Nat) : Res Graph :=
  if (g.node v).op ≠ .mul then .ok g
  else
    let args := (g.node v).args.flatMap fun a => if (g.node a).op = .mul then (g.node a).args else [a]
    if args.length > (g.node v).args.length then .ok (g.setNode v (mkNode .mul args)) else .ok g

/-- `merge_multiplications_in_block`, `control_flow_graph.cc:624-650`. -/
def Graph.mergeMultiplications (g : Graph) : Res Graph :=
  match forOps mergeStep g g.ops with
  | .ok g' => .ok g'.removeUnused
  | .error e => .error e

/-! ## Splitting into pairs -/

/-- Remove the first `n` occurrences of `x` (`remove_specific_number_of_times`, `ir_value.cc:60-72`). -/
def removeTimes (x : Nat) : Nat → List Nat → List Nat
  | _, [] => []
  | 0, l => l
  | n + 1, a :: l => if a = x then removeTimes x n l else a :: removeTimes x (n + 1) l

/-- `replace_operand_pair`, `ir_value.cc:48-83`: the new node and the number of replacements. -/
def replacePair (a b new : Nat) (n : Node) : Node × Nat :=
  let times := if a = b then n.args.count a / 2 else min (n.args.count a) (n.args.count b)
  (mkNode n.op (removeTimes b times (removeTimes a times n.args) ++ List.replicate times new), times)

/-- Treatment of one consumer of a pair in `binarize_operations_of_type`, `control_flow_graph.cc:369-390`. -/
def pairConsumer (a b new : Nat) (g : Graph) (c : Nat) : Res Graph :=
  if (g.node c).args.length > 2 then .ok (g.setNode c (replacePair a b new (g.node c)).1)
  else if (g.node c).args.length = 2 then
    if !g.isUnused c && (g.node c).args == [a, b] then g.replaceWith c new else .ok g
  else .error .assertion

/-- One step: the pair of operands, and the operations recorded as consuming it (`value_pair_with_total_multiplicity`, `binarizer.h`). -/
structure PairStep where
  a : Nat
  b : Nat
  consumers : List Nat
deriving Repr

/-- Names entered in `active_values` when the consumer `c` is treated, `control_flow_graph.cc:372-384`. -/
def activated (a b new : Nat) (g : Graph) (c : Nat) : List Nat :=
  if (g.node c).args.length > 2 then (if (replacePair a b new (g.node c)).2 > 0 then [c] else [])
  else if !g.isUnused c && (g.node c).args == [a, b] then g.consumersOf c else []

/-- The loop over the consumers of one pair, `control_flow_graph.cc:369-390`; the second component collects `active_values`. -/
def pairConsumers (a b new : Nat) (g : Graph) (active : List Nat) : List Nat → Res (Graph × List Nat)
  | [] => .ok (g, active)
  | c :: cs =>
    match pairConsumer a b new g c with
    | .ok g' => pairConsumers a b new g' (active ++ activated a b new g c) cs
    | .error e => .error e

/-- The loop over the steps, `control_flow_graph.cc:359-391`. -/
def pairSteps (op : Op) (g : Graph) (active : List Nat) : List PairStep → Res (Graph × List Nat)
  | [] => .ok (g, active)
  | s :: ss =>
    match pairConsumers s.a s.b (g.push op [s.a, s.b]).2 (g.push op [s.a, s.b]).1 active s.consumers with
    | .ok (g', active') => pairSteps op g' active' ss
    | .error e => .error e

/-- `count_operand_multiplicity`, `binarizer.cc:40-59`: runs of equal operands with their lengths (the operands are sorted). -/
def operandCounts : List Nat → List (Nat × Nat)
  | [] => []
  | a :: l =>
    match operandCounts l with
    | (b, n) :: rest => if a = b then (b, n + 1) :: rest else (a, 1) :: (b, n) :: rest
    | [] => [(a, 1)]

/-- The pairs of one operand list with their multiplicities, `binarizer.cc:90-110`. `make_value_pair` (16-22) is not needed to order a pair
because the operands are sorted. -/
def operandPairs : List (Nat × Nat) → List ((Nat × Nat) × Nat)
  | [] => []
  | (a, m) :: rest => (if m > 1 then [((a, a), m / 2)] else []) ++ rest.map (fun p => ((a, p.1), min m p.2)) ++ operandPairs rest

/-- `table[pair].emplace_back(consumer, multiplicity)`. -/
def tableAdd (key : Nat × Nat) (entry : Nat × Nat) : List ((Nat × Nat) × List (Nat × Nat)) → List ((Nat × Nat) × List (Nat × Nat))
  | [] => [(key, [entry])]
  | (k, es) :: rest => if k = key then (k, es ++ [entry]) :: rest else (k, es) :: tableAdd key entry rest

/-- `count_operand_pairs`, `binarizer.cc:69-111`. The hash table is an association list. -/
def countPairs (op : Op) (g : Graph) (active : List Nat) : List ((Nat × Nat) × List (Nat × Nat)) :=
  (g.ops.filter fun v => (g.node v).op == op && !g.isUnused v && active.contains v).foldl
    (fun t v => (operandPairs (operandCounts (g.node v).args)).foldl (fun t p => tableAdd p.1 (v, p.2) t) t) []

/-- `total_of_multiplicities`, `binarizer.cc:113-118`. -/
def totalMultiplicity (es : List (Nat × Nat)) : Nat := (es.map (·.2)).sum

/-- The order of the steps, `binarizer.cc:146-155`: more frequent pairs first, then by name. -/
def stepBefore (x y : (Nat × Nat) × List (Nat × Nat)) : Prop :=
  totalMultiplicity x.2 > totalMultiplicity y.2 ∨
    (totalMultiplicity x.2 = totalMultiplicity y.2 ∧ (x.1.1 < y.1.1 ∨ (x.1.1 = y.1.1 ∧ x.1.2 ≤ y.1.2)))

instance : DecidableRel stepBefore := fun x y => by unfold stepBefore; infer_instance

/-- `identify_operations_to_binarize`, `binarizer.cc:123-158`. -/
def identify (op : Op) (g : Graph) (active : List Nat) : List PairStep :=
  (((countPairs op g active).filter fun e => totalMultiplicity e.2 > 1).insertionSort stepBefore).map
    fun e => ⟨e.1.1, e.1.2, e.2.map (·.1)⟩

/-- The outer loop of `binarize_operations_of_type`, `control_flow_graph.cc:353-392`, with the choice of the pairs as a parameter. The fuel bounds
the number of rounds; for the choice made by the program it is proved not to run out. -/
def binarizeLoop (op : Op) (choose : Graph → List Nat → List PairStep) : Nat → Graph → List Nat → Res Graph
  | _, g, [] => .ok g
  | 0, _, _ :: _ => .error .terminate
  | fuel + 1, g, a :: as =>
    match pairSteps op g [] (choose g (a :: as)) with
    | .ok (g', active) => binarizeLoop op choose fuel g' active
    | .error e => .error e

/-- `binarize_operations_of_type`, `control_flow_graph.cc:340-400`. -/
def Graph.binarizeType (op : Op) (choose : Graph → List Nat → List PairStep) (fuel : Nat) (g : Graph) : Res Graph :=
  match binarizeLoop op choose fuel g g.ops with
  | .ok g' => g'.removeUnused.topologicalSort
  | .error e => .error e

/-- `binarize_operations`, `control_flow_graph.cc:335-338`. -/
def Graph.binarize (fuel : Nat) (g : Graph) : Res Graph :=
  match g.binarizeType .mul (identify .mul) fuel with
  | .ok g' => g'.binarizeType .add (identify .add) fuel
  | .error e => .error e

end Wf.Gen
